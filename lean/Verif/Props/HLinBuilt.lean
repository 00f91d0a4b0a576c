import Verif.HLinBuilt
import Verif.HLinArity
import Verif.Props.CholPosDef
import Verif.Props.HLinChol
import Verif.Props.LocalOp

/-! # C36, C37, C38, C57 for the H-matrices returned by the builder

From the coefficients given by the user to the solution of the linear system: the cluster tree is built by the library, the H-matrix is filled by `build`
under any schedule, then it is multiplied, factored, and the system is solved, in user numbering. -/

namespace Htool
variable {G R : Type*}
open Finset

/-! ## Specification -/

/-- The settings of the builder: one cluster tree built by the library for the rows and the columns, no target partition, no partition for the symmetry,
block trees consistent with the partition; a triangle is chosen when a symmetry is declared. The admissibility condition never holds for a cluster and
itself. -/
structure Setting {D : Type*} (S : Strategies D G) (flog : ℕ → ℕ → ℕ) (fuel n nc : ℕ) (arg : PartArg) (t : CTree G) (st : CState G) (E : BEnv G) : Prop where
  built : Built S flog fuel n nc arg t st
  tct : E.tct = clusterTreeOf t st
  sct : E.sct = clusterTreeOf t st
  cons : E.consistent = true
  tp : E.tp = none
  psym : E.psym = none
  uplo : E.sym ≠ .N → E.uplo ≠ .N
  diag : ∀ c ∈ t.pre, E.adm c.label c.label = false

/-- The H-matrix stored at the addresses `H` of the memory, seen by the linear algebra: the same tree of blocks, with the clusters of the block tree. -/
def InMemory (E : BEnv G) (fuel : ℕ) (t : CTree G) (m : Mem R) (H : Tree ℕ) (F : FTree G R) : Prop :=
  ∃ b, buildBlocks E fuel t t = some b ∧ View E b (H.map m.heap) F

/-- The matrix represented by an H-matrix, in user numbering. -/
def UserMat (perm : List ℕ) (n : ℕ) (A : HTree R) [CommRing R] [StarRing R] (K : ℕ → ℕ → R) : Prop :=
  ∀ i < n, ∀ j < n, A.entry i j = K (perm.getD i 0) (perm.getD j 0)

/-! ## Lemmas -/

section lemmas
variable {D : Type*} {S : Strategies D G} {flog : ℕ → ℕ → ℕ} {fuel n nc : ℕ} {arg : PartArg} {t : CTree G} {st : CState G} {E : BEnv G}

theorem Setting.good (h : Setting S flog fuel n nc arg t st E) : E.Good := by
  have w := h.built.wf
  have s := create_shape h.built.strategies h.built.hflog h.built.hnc h.built.harg h.built.build
  exact ⟨h.tct ▸ w.1, h.tct ▸ w.2, by rw [h.tct]; exact s.2.2.2.2, h.sct ▸ w.1, h.sct ▸ w.2, by rw [h.sct]; exact s.2.2.2.2, h.cons, h.tp, h.psym⟩

theorem Setting.covered (h : Setting S flog fuel n nc arg t st E) : Covered E t t t := by
  have w := h.built.wf
  have m1 : t ∈ E.tct.root.pre := by rw [h.tct]; exact Tree.mem_pre_self t
  have m2 : t ∈ E.sct.root.pre := by rw [h.sct]; exact Tree.mem_pre_self t
  by_cases hs : E.sym = .N
  · exact .plain (h.tct ▸ w.1) (h.sct ▸ w.1) (h.tct ▸ w.2) (h.sct ▸ w.2) hs m1 m2 (Or.inl h.tp)
  · exact .diag ⟨h.tct ▸ w.1, h.tct ▸ w.2, h.sct.trans h.tct.symm, h.cons, hs, h.uplo hs⟩ h.psym m1 (Or.inl h.tp)

theorem Setting.perm (h : Setting S flog fuel n nc arg t st E) : t.off = 0 ∧ t.sz = n ∧ LocalPerm st.perm 0 n := by
  have lp := localPerm_root h.built.strategies h.built.hflog h.built.hnc h.built.harg h.built.build
  refine ⟨lp.1, lp.2.1, ?_⟩
  have := lp.2.2
  rwa [lp.1, lp.2.1] at this

theorem Setting.admC (h : Setting S flog fuel n nc arg t st E) (c : ClusterTree G) : ¬ E.admC c c := by
  rintro ⟨h1, h2⟩
  rw [h.tct] at h1
  rw [h.diag c.root h1] at h2
  cases h2

theorem Setting.top (h : Setting S flog fuel n nc arg t st E) : E.tct.Top := by rw [h.tct]; exact h.built.clOK.2

section
variable {lr : LRGen R} {dg : Option (DenseGen R)} {gen : ℕ → ℕ → R}

/-- Built H-matrices are not factored. -/
theorem View.noPivots : ∀ {b : BTree G} {F : FTree G R}, View E b (assembled E lr dg gen b) F → F.NoPivots := by
  intro b F h
  have key : ∀ (b : BTree G) (F : FTree G R), Tree.Rel SameNode (assembled E lr dg gen b) F → F.NoPivots := by
    intro b
    induction b using Tree.ind with
    | h a cs ih =>
      intro F hF
      cases F with
      | node n ds =>
        rw [assembled_node] at hF
        obtain ⟨h1, h2⟩ := Tree.Rel_node.1 hF
        rw [List.forall₂_map_left_iff] at h2
        intro X hX D piv hd
        rcases Tree.mem_pre.1 hX with rfl | ⟨d, hd', hX⟩
        · have h3 := h1.data
          have hd : n.data = .dense D piv := hd
          cases hh : (finalNode E lr dg gen (.node a cs)).data with
          | dense M =>
            rw [hh] at h3
            obtain ⟨D', e, -⟩ := h3
            rw [hd] at e
            injection e
          | lowRank r U V =>
            rw [hh] at h3
            obtain ⟨L, e, -⟩ := h3
            rw [hd] at e; cases e
          | hier =>
            rw [hh] at h3
            have h3 : n.data = .hier := h3
            rw [hd] at h3; cases h3
        · have : ∀ (cs : List (BTree G)) (ds : List (FTree G R)), (∀ c ∈ cs, ∀ F : FTree G R, Tree.Rel SameNode (assembled E lr dg gen c) F → F.NoPivots) →
              List.Forall₂ (fun c d => Tree.Rel SameNode (assembled E lr dg gen c) d) cs ds → ∀ d ∈ ds, d.NoPivots := by
            intro cs ds hi h2
            induction h2 with
            | nil => simp
            | cons h3 _ ih2 =>
              intro d hd
              rcases List.mem_cons.1 hd with rfl | hd
              · exact hi _ (by simp) _ h3
              · exact ih2 (fun c hc => hi c (by simp [hc])) d hd
          exact this cs ds (fun c hc F hF => ih c hc F hF) h2 d hd' X hX D piv hd
  exact key b F h.cells

end

variable [CommRing R] [StarRing R] {lr : LRGen R} {dg : Option (DenseGen R)} {gen : ℕ → ℕ → R}

/-- A built H-matrix, as the linear algebra sees it, contains the matrix represented by the memory. -/
theorem Setting.view (hS : Setting S flog fuel n nc arg t st E) {T : ℕ} (hT : 0 < T) {fuel' : ℕ} {m m' : Mem R} {B' : Builder} {H : Tree ℕ}
    (h : BuildStep T E lr dg fuel' t t gen m Builder.empty m' B' H) :
    (∃ F, InMemory E fuel' t m' H F) ∧ ∀ F, InMemory E fuel' t m' H F →
      Rep E.mask E.admC (HTree.entry (H.map m'.heap)) F ∧ F.label.t = E.tct ∧ F.label.s = E.tct ∧ F.NoPivots := by
  obtain ⟨b, h1, h2, -⟩ := build_spec hT hS.covered.buildOK (sysInv_empty m) h
  obtain ⟨hb, -, -⟩ := hS.covered.blocks h1
  refine ⟨?_, ?_⟩
  · obtain ⟨F, hF⟩ := view_exists (E := E) (lr := lr) (dg := dg) (gen := gen) b
    exact ⟨F, b, h1, h2 ▸ hF⟩
  · rintro F ⟨b', h1', hF⟩
    rw [h1] at h1'
    injection h1' with e
    subst e
    rw [h2] at hF ⊢
    obtain ⟨b0, h0, e0⟩ := buildBlocks_inv h1
    rw [resetRoot_same h0 (Or.inl hS.tp)] at e0
    subst e0
    have m1 : t ∈ E.tct.root.pre := by rw [hS.tct]; exact Tree.mem_pre_self t
    have m2 : t ∈ E.sct.root.pre := by rw [hS.sct]; exact Tree.mem_pre_self t
    obtain ⟨r1, r2, r3⟩ := View.rep hS.good m1 m2 h0 hb hS.uplo hF
    have e1 : (⟨t, E.tct.parts⟩ : ClusterTree G) = E.tct := by rw [hS.tct]; rfl
    have e2 : (⟨t, E.sct.parts⟩ : ClusterTree G) = E.tct := by rw [hS.sct, hS.tct]; rfl
    exact ⟨r1, r2.trans e1, r3.trans e2, hF.noPivots⟩

/-- With exact compressions the matrix in user numbering is the user's. -/
theorem Setting.userMat (hS : Setting S flog fuel n nc arg t st E) {T : ℕ} (hT : 0 < T) {cplx : Bool} {fuel' : ℕ} {ug : ℕ → ℕ → R}
    (hgen : UserGen E cplx dg (permutedGen st.perm st.perm ug) t.iv) (hlr : UserLR (· = ·) lr (permutedGen st.perm st.perm ug))
    {m m' : Mem R} {B' : Builder} {H : Tree ℕ} (h : BuildStep T E lr dg fuel' t t (permutedGen st.perm st.perm ug) m Builder.empty m' B' H) :
    UserMat st.perm n (H.map m'.heap : HTree R) ug := by
  obtain ⟨-, -, -, hc⟩ := C19_built_operator hT hS.covered hgen (close := (· = ·)) ⟨fun _ => rfl, fun _ _ h => congrArg _ h⟩ hlr h
  obtain ⟨p1, p2, -⟩ := hS.perm
  intro i hi j hj
  exact hc i j (by unfold InIv Tree.iv; simp only; omega) (by unfold InIv Tree.iv; simp only; omega)

theorem UserMat.rel {perm : List ℕ} {A : HTree R} {K : ℕ → ℕ → R} (h : UserMat perm n A K) {i j : ℕ} (hi : i < n) (hj : j < n) :
    A.entry (0 + i) (0 + j) = K (userIdx perm 0 i) (userIdx perm 0 j) := by
  unfold userIdx
  simp only [Nat.zero_add, Nat.sub_zero]
  exact h i hi j hj

omit [CommRing R] [StarRing R] in
theorem clusterTree_off (hS : Setting S flog fuel n nc arg t st E) : E.tct.off = 0 ∧ E.tct.sz = n ∧ E.tct.fin = n := by
  obtain ⟨p1, p2, -⟩ := hS.perm
  rw [hS.tct]
  have a : (clusterTreeOf t st).off = 0 := p1
  have b : (clusterTreeOf t st).sz = n := p2
  exact ⟨a, b, by unfold ClusterTree.fin; rw [a, b, Nat.zero_add]⟩

omit [CommRing R] [StarRing R] in
theorem Setting.fin_le (hS : Setting S flog fuel n nc arg t st E) {c : CTree G} (hc : c ∈ t.pre) : c.fin ≤ n := by
  obtain ⟨p1, p2, -⟩ := hS.perm
  have hb := (hS.built.wf.1.contained (show t ∈ (clusterTreeOf t st).root.pre from Tree.mem_pre_self t) hc).2
  unfold Tree.fin at *
  omega

omit [StarRing R] in
theorem Nonsing.congr {M N : ℕ → ℕ → R} {k : ℕ} (h : ∀ i < k, ∀ j < k, M i j = N i j) (hn : Nonsing N 0 k) : Nonsing M 0 k := by
  unfold Nonsing at hn ⊢
  have e : subM M 0 (k - 0) = subM N 0 (k - 0) := by
    unfold subM
    ext i j
    have hi := i.2
    have hj := j.2
    exact h _ (by omega) _ (by omega)
  rw [e]; exact hn

end lemmas

/-! ## Theorems -/

section claims
variable {D : Type*} {S : Strategies D G} {flog : ℕ → ℕ → ℕ} {fuel n nc : ℕ} {arg : PartArg} {t : CTree G} {st : CState G} {E : BEnv G}
  [CommRing R] [StarRing R] [DecidableEq R] {L : LinOps R} {lr : LRGen R} {dg : Option (DenseGen R)} {gen : ℕ → ℕ → R}

/-- **C37**, from memory to solution. An H-matrix without symmetry is built under any schedule with any compressor; `K` is the matrix it represents, in user
numbering. If the parts of the matrix up to the end of each cluster are nonsingular, `lu_factorization` ends and `lu_solve` solves `op(K) Y = X`, in user
numbering. -/
theorem C37_built (hS : Setting S flog fuel n nc arg t st E) (hN : E.sym = .N) {T : ℕ} (hT : 0 < T) {fuel' : ℕ} {m m' : Mem R} {B' : Builder} {H : Tree ℕ}
    (h : BuildStep T E lr dg fuel' t t gen m Builder.empty m' B' H) (hEx : L.Exact) (hTr : TrsmOK L) (hG : GetrfOK L)
    {K : ℕ → ℕ → R} (hK : UserMat st.perm n (H.map m'.heap : HTree R) K)
    (hlead : ∀ c ∈ t.pre, Nonsing (HTree.entry (H.map m'.heap)) 0 c.fin) {F : FTree G R} (hF : InMemory E fuel' t m' H F) {f : ℕ} (hf : 2 * F.ht ≤ f) :
    ∃ F', luH L f F = some F' ∧ ∀ (tr : Trans) (X : Mat R) (mu g : ℕ), F.ht ≤ g → X.nr = n → X.nc = mu →
      ∃ Y, luSolveUser L g tr st.perm st.perm F' X = some Y ∧ Y.nr = n ∧ Y.nc = mu ∧ ∀ i < n, ∀ k < mu, ∑ l ∈ range n, opE tr K i l * Y.get l k = X.get i k := by
  obtain ⟨r1, r2, r3, -⟩ := (hS.view hT h).2 F hF
  obtain ⟨o1, o2, o3⟩ := clusterTree_off hS
  have hm : E.mask = .full := by unfold BEnv.mask; rw [if_pos hN]
  rw [hm] at r1
  have op : LUOperand E.admC (HTree.entry (H.map m'.heap)) F := by
    refine ⟨r1, r2.trans r3.symm, r2 ▸ hS.top, hS.admC, fun X hX _ => ?_⟩
    have hd := (Shape.pre_desc r1 hX).1
    rw [r2, o1]
    rw [r2, hS.tct] at hd
    exact hlead _ hd.1
  refine C37_lu_solve hEx hTr hG op hf (by rw [r2, o2]) (by rw [r2, o1]; exact hS.perm.2.2) (K := K) fun i hi j hj => ?_
  rw [r2, o1]
  exact hK.rel hi hj

/-- **C37**, from the user's coefficients to the solution of the user's system: with a compressor which is exact on the blocks it compresses (or reports a
failure), building, factoring and solving gives the solution of `op(U) Y = X`, `U` being the matrix of the generator. -/
theorem C37_built_exact (hS : Setting S flog fuel n nc arg t st E) (hN : E.sym = .N) {T : ℕ} (hT : 0 < T) {cplx : Bool} {fuel' : ℕ} {ug : ℕ → ℕ → R}
    (hgen : UserGen E cplx dg (permutedGen st.perm st.perm ug) t.iv) (hlr : UserLR (· = ·) lr (permutedGen st.perm st.perm ug))
    {m m' : Mem R} {B' : Builder} {H : Tree ℕ} (h : BuildStep T E lr dg fuel' t t (permutedGen st.perm st.perm ug) m Builder.empty m' B' H)
    (hEx : L.Exact) (hTr : TrsmOK L) (hG : GetrfOK L) (hlead : ∀ c ∈ t.pre, Nonsing (permutedGen st.perm st.perm ug) 0 c.fin)
    {F : FTree G R} (hF : InMemory E fuel' t m' H F) {f : ℕ} (hf : 2 * F.ht ≤ f) :
    ∃ F', luH L f F = some F' ∧ ∀ (tr : Trans) (X : Mat R) (mu g : ℕ), F.ht ≤ g → X.nr = n → X.nc = mu →
      ∃ Y, luSolveUser L g tr st.perm st.perm F' X = some Y ∧ Y.nr = n ∧ Y.nc = mu ∧ ∀ i < n, ∀ k < mu, ∑ l ∈ range n, opE tr ug i l * Y.get l k = X.get i k := by
  have hu := hS.userMat hT hgen hlr h
  refine C37_built hS hN hT h hEx hTr hG hu (fun c hc => ?_) hF hf
  refine Nonsing.congr (fun i hi j hj => ?_) (hlead c hc)
  have := hS.fin_le hc
  exact hu i (by omega) j (by omega)

/-- **C38**, from memory to solution. The H-matrix is built without symmetry (then `u` is any triangle) or with a symmetry and the triangle `u`; `K` is the
matrix it represents, in user numbering. If that matrix has a Cholesky factor, `cholesky_factorization` ends and `cholesky_solve` solves `K Y = X`, in user
numbering. Clusters have two children and the partition has at most two clusters. -/
theorem C38_built_partial (hS : Setting S flog fuel n 2 arg t st E) (hp : arg.atMostTwo) {u : UploType} (hu : u ≠ .N) (hup : E.sym = .N ∨ E.uplo = u)
    {T : ℕ} (hT : 0 < T) {fuel' : ℕ} {m m' : Mem R} {B' : Builder} {H : Tree ℕ} (h : BuildStep T E lr dg fuel' t t gen m Builder.empty m' B' H)
    (hEx : L.Exact) (hTr : TrsmOK L) (hP : PotrfOK L) {K : ℕ → ℕ → R} (hK : UserMat st.perm n (H.map m'.heap) K)
    (hchol : HasChol (HTree.entry (H.map m'.heap)) 0 n) {F : FTree G R} (hF : InMemory E fuel' t m' H F) {f : ℕ} (hf : 2 * F.ht ≤ f) :
    ∃ F', cholH L u f F = some F' ∧ ∀ (X : Mat R) (mu g : ℕ), F.ht ≤ g → X.nr = n → X.nc = mu →
      ∃ Y, cholSolveUser L g u st.perm st.perm F' X = some Y ∧ Y.nr = n ∧ Y.nc = mu ∧ ∀ i < n, ∀ k < mu, ∑ l ∈ range n, K i l * Y.get l k = X.get i k := by
  obtain ⟨r1, r2, r3, r4⟩ := (hS.view hT h).2 F hF
  obtain ⟨o1, o2, o3⟩ := clusterTree_off hS
  have hmask : MaskOK u E.mask := by
    unfold BEnv.mask
    by_cases hs : E.sym = .N
    · rw [if_pos hs]; exact Or.inl rfl
    · rw [if_neg hs]
      rcases hup with hup | hup
      · exact absurd hup hs
      · rw [hup]
        cases u with
        | N => exact absurd rfl hu
        | L => exact Or.inr (Or.inl ⟨rfl, rfl⟩)
        | U => exact Or.inr (Or.inr ⟨rfl, rfl⟩)
  have op : CholOperand u E.mask E.admC (HTree.entry (H.map m'.heap)) F :=
    ⟨r1, hu, hmask, r4, r2.trans r3.symm, r2 ▸ hS.top, by rw [r2, hS.tct]; exact hS.built.bin hp, hS.admC, by rw [r2, o1, o3]; exact hchol⟩
  refine C38_cholesky_solve_partial hEx hTr hP op hf (by rw [r2, o2]) (by rw [r2, o1]; exact hS.perm.2.2) (K := K) fun i hi j hj => ?_
  rw [r2, o1]
  exact hK.rel hi hj

/-- **C57**, for built H-matrices: three matrices without symmetry are built on the same cluster tree, each with its own admissibility condition and
minimal depths, and the third becomes `alpha op(A) op(B) + beta C`. The entries are those of the represented matrices, in cluster numbering. -/
theorem C57_built_partial {E₁ E₂ E₃ : BEnv G} (h1 : Setting S flog fuel n nc arg t st E₁) (h2 : Setting S flog fuel n nc arg t st E₂)
    (h3 : Setting S flog fuel n nc arg t st E₃) (hN : E₁.sym = .N ∧ E₂.sym = .N ∧ E₃.sym = .N) (hp : arg.oneLevel flog nc)
    {lr₁ lr₂ lr₃ : LRGen R} {dg₁ dg₂ dg₃ : Option (DenseGen R)} {g₁ g₂ g₃ : ℕ → ℕ → R} {T : ℕ} (hT : 0 < T) {f₁ f₂ f₃ : ℕ}
    {m₁ m₁' m₂ m₂' m₃ m₃' : Mem R} {B₁ B₂ B₃ : Builder} {H₁ H₂ H₃ : Tree ℕ}
    (b1 : BuildStep T E₁ lr₁ dg₁ f₁ t t g₁ m₁ Builder.empty m₁' B₁ H₁) (b2 : BuildStep T E₂ lr₂ dg₂ f₂ t t g₂ m₂ Builder.empty m₂' B₂ H₂)
    (b3 : BuildStep T E₃ lr₃ dg₃ f₃ t t g₃ m₃ Builder.empty m₃' B₃ H₃) {A B C : FTree G R} (hA : InMemory E₁ f₁ t m₁' H₁ A)
    (hB : InMemory E₂ f₂ t m₂' H₂ B) (hC : InMemory E₃ f₃ t m₃' H₃ C) (hEx : L.Exact) (ta tb : Trans) (α β : R)
    (hβ : β = 1 ∨ C.isHier = false ∨ (A.isHier = true ∧ B.isHier = true)) {f : ℕ} (hf : A.ht + B.ht ≤ f) :
    ∃ C', hhH L f ta tb α A B β C = some C' ∧ ∀ i < n, ∀ j < n, C'.toH.mat i j =
      α * ∑ l ∈ range n, opE ta (HTree.entry (H₁.map m₁'.heap)) i l * opE tb (HTree.entry (H₂.map m₂'.heap)) l j + β * HTree.entry (H₃.map m₃'.heap) i j := by
  have full : ∀ {E : BEnv G}, E.sym = .N → E.mask = .full := fun h => by unfold BEnv.mask; rw [if_pos h]
  obtain ⟨a1, a2, a3, -⟩ := (h1.view hT b1).2 A hA
  obtain ⟨c1, c2, c3, -⟩ := (h2.view hT b2).2 B hB
  obtain ⟨d1, d2, d3, -⟩ := (h3.view hT b3).2 C hC
  rw [full hN.1] at a1
  rw [full hN.2.1] at c1
  rw [full hN.2.2] at d1
  rw [h1.tct] at a2 a3
  rw [h2.tct] at c2 c3
  rw [h3.tct] at d2 d3
  have o := clusterTree_off h1
  rw [h1.tct] at o
  have fl := h1.built.flat hp
  have inA : ∀ tr, A.inC tr = clusterTreeOf t st := fun tr => by cases tr <;> [exact a3; exact a2; exact a2]
  have outA : ∀ tr, A.outC tr = clusterTreeOf t st := fun tr => by cases tr <;> [exact a2; exact a3; exact a3]
  have inB : ∀ tr, B.inC tr = clusterTreeOf t st := fun tr => by cases tr <;> [exact c3; exact c2; exact c2]
  have outB : ∀ tr, B.outC tr = clusterTreeOf t st := fun tr => by cases tr <;> [exact c2; exact c3; exact c3]
  obtain ⟨C', e1, e2⟩ := C57_hmatrix_product_entries_partial hEx ta tb α β a1 c1 d1 (by rw [a2, a3]; exact ⟨fl, fl⟩) (by rw [c2, c3]; exact ⟨fl, fl⟩)
    (by rw [inA, outB]) (by rw [outA, d2]) (by rw [inB, d3]) hβ hf
  refine ⟨C', e1, fun i hi j hj => ?_⟩
  have ent : ∀ {ad : ClusterTree G → ClusterTree G → Prop} {M : ℕ → ℕ → R} {X : FTree G R}, Rep .full ad M X → X.label.t = clusterTreeOf t st →
      X.label.s = clusterTreeOf t st → ∀ i < n, ∀ j < n, X.toH.mat i j = M i j := by
    intro ad M X hX ht hs i hi j hj
    rw [hX.mat_eq (by rw [ht, o.2.1]; exact hi) (by rw [hs, o.2.1]; exact hj)]
    unfold rel
    rw [ht, hs, o.1, Nat.zero_add, Nat.zero_add]
  have entO : ∀ {ad : ClusterTree G → ClusterTree G → Prop} {M : ℕ → ℕ → R} {X : FTree G R}, Rep .full ad M X → X.label.t = clusterTreeOf t st →
      X.label.s = clusterTreeOf t st → ∀ tr, ∀ i < n, ∀ j < n, opE tr X.toH.mat i j = opE tr M i j := by
    intro ad M X hX ht hs tr i hi j hj
    cases tr with
    | N => exact ent hX ht hs i hi j hj
    | T => exact ent hX ht hs j hj i hi
    | C => exact congrArg star (ent hX ht hs j hj i hi)
  rw [e2 i (by rw [d2, o.2.1]; exact hi) j (by rw [d3, o.2.1]; exact hj), inA, o.2.1, ent d1 d2 d3 i hi j hj]
  congr 2
  refine sum_congr rfl fun l hl => ?_
  have hl := mem_range.1 hl
  rw [entO a1 a2 a3 ta i hi l hl, entO c1 c2 c3 tb l hl j hj]

/-- **C36**, for built H-matrices: a triangular solve with a dense right-hand side uses the triangle of the represented matrix, in cluster numbering. -/
theorem C36_built (hS : Setting S flog fuel n nc arg t st E) {u : UploType} (hu : u ≠ .N) (hup : E.sym = .N ∨ E.uplo = u) {T : ℕ} (hT : 0 < T)
    {fuel' : ℕ} {m m' : Mem R} {B' : Builder} {H : Tree ℕ} (h : BuildStep T E lr dg fuel' t t gen m Builder.empty m' B' H) (hTr : TrsmOK L)
    (hreal : L.cplx = false → RealType R) (tr : Trans) {unit : Bool} (hinv : unit = false → ∀ i < n, IsUnit (HTree.entry (H.map m'.heap) i i))
    {F : FTree G R} (hF : InMemory E fuel' t m' H F) (α : R) {B : Mat R} {mu : ℕ} (h1 : B.nr = n) (h2 : B.nc = mu) {f : ℕ} (hf : F.ht ≤ f) :
    ∃ X, triHM L f .L u tr unit α F B = some X ∧ X.nr = n ∧ X.nc = mu ∧ ∀ i < n, ∀ k < mu,
      ∑ l ∈ range n, opE tr (tri u unit (HTree.entry (H.map m'.heap))) i l * X.get l k = α * B.get i k := by
  obtain ⟨r1, r2, r3, r4⟩ := (hS.view hT h).2 F hF
  obtain ⟨o1, o2, o3⟩ := clusterTree_off hS
  have hmask : MaskOK u E.mask := by
    unfold BEnv.mask
    by_cases hs : E.sym = .N
    · rw [if_pos hs]; exact Or.inl rfl
    · rw [if_neg hs]
      rcases hup with hup | hup
      · exact absurd hup hs
      · rw [hup]
        cases u with
        | N => exact absurd rfl hu
        | L => exact Or.inr (Or.inl ⟨rfl, rfl⟩)
        | U => exact Or.inr (Or.inr ⟨rfl, rfl⟩)
  have op : TriOperand u unit E.mask E.admC (HTree.entry (H.map m'.heap)) F :=
    ⟨r1, hu, hmask, r2.trans r3.symm, r2 ▸ hS.top, hS.admC, r4, fun hn i hi => hinv hn i (by rw [r2, o3] at hi; exact (mem_Ico.1 hi).2)⟩
  obtain ⟨X, x1, x2, x3, x4⟩ := C36_dense_left hTr hreal tr op α (by rw [r2, o2]) h1 h2 hf
  refine ⟨X, x1, x2, x3, fun i hi k hk => ?_⟩
  rw [← x4 i hi k hk]
  refine sum_congr rfl fun l _ => ?_
  rw [opE_tri_rel, r2, o1, Nat.zero_add, Nat.zero_add]

end claims

/-! ## Positive definite matrices -/

section posdef
open Matrix
open scoped ComplexOrder
variable {𝕜 : Type*} [RCLike 𝕜] [DecidableEq 𝕜]
variable {D : Type*} {S : Strategies D G} {flog : ℕ → ℕ → ℕ} {fuel n nc : ℕ} {arg : PartArg} {t : CTree G} {st : CState G} {E : BEnv G}
  {L : LinOps 𝕜} {lr : LRGen 𝕜} {dg : Option (DenseGen 𝕜)}

/-- The user's matrix. -/
def userMatrix (n : ℕ) (ug : ℕ → ℕ → 𝕜) : Matrix (Fin n) (Fin n) 𝕜 := Matrix.of fun i j => ug i j

/-- Any part of a positive definite matrix, in cluster numbering. -/
theorem posDef_permuted {perm : List ℕ} (hp : LocalPerm perm 0 n) {ug : ℕ → ℕ → 𝕜} (h : (userMatrix n ug).PosDef) {k : ℕ} (hk : k ≤ n) :
    (Matrix.of fun i j : Fin k => permutedGen perm perm ug (0 + i) (0 + j)).PosDef := by
  have lt : ∀ i < n, perm.getD i 0 < n := by
    intro i hi
    obtain ⟨-, -, -, this⟩ := userIdx_eq hp hi
    unfold userIdx at this
    simpa using this
  let e : Fin k → Fin n := fun i => ⟨perm.getD i 0, lt i (by have := i.2; omega)⟩
  have he : Function.Injective e := by
    intro i j hij
    have h1 : perm.getD i 0 = perm.getD j 0 := congrArg Fin.val hij
    apply Fin.ext
    refine userIdx_inj hp (by have := i.2; omega) (by have := j.2; omega) ?_
    unfold userIdx
    rw [Nat.zero_add, Nat.zero_add, h1]
  have := h.submatrix he
  convert this using 1
  ext i j
  simp only [Matrix.of_apply, permutedGen, Nat.zero_add, Matrix.submatrix_apply, userMatrix, e]

/-- **C37** and positive definite matrices: real or complex coefficients, exact compressions. Whatever the cluster tree, the numbering and the schedule,
building the H-matrix, factoring it with `lu_factorization` and solving gives the solution of the user's system. -/
theorem C37_built_positive_definite (hS : Setting S flog fuel n nc arg t st E) (hN : E.sym = .N) {T : ℕ} (hT : 0 < T) {cplx : Bool} {fuel' : ℕ}
    {ug : ℕ → ℕ → 𝕜} (hpd : (userMatrix n ug).PosDef) (hgen : UserGen E cplx dg (permutedGen st.perm st.perm ug) t.iv)
    (hlr : UserLR (· = ·) lr (permutedGen st.perm st.perm ug)) {m m' : Mem 𝕜} {B' : Builder} {H : Tree ℕ}
    (h : BuildStep T E lr dg fuel' t t (permutedGen st.perm st.perm ug) m Builder.empty m' B' H) (hEx : L.Exact) (hTr : TrsmOK L) (hG : GetrfOK L)
    {F : FTree G 𝕜} (hF : InMemory E fuel' t m' H F) {f : ℕ} (hf : 2 * F.ht ≤ f) :
    ∃ F', luH L f F = some F' ∧ ∀ (tr : Trans) (X : Mat 𝕜) (mu g : ℕ), F.ht ≤ g → X.nr = n → X.nc = mu →
      ∃ Y, luSolveUser L g tr st.perm st.perm F' X = some Y ∧ Y.nr = n ∧ Y.nc = mu ∧ ∀ i < n, ∀ k < mu, ∑ l ∈ range n, opE tr ug i l * Y.get l k = X.get i k := by
  refine C37_built_exact hS hN hT hgen hlr h hEx hTr hG (fun c hc => ?_) hF hf
  have := (posDef_permuted hS.perm.2.2 hpd (hS.fin_le hc)).det_pos
  unfold Nonsing subM
  rw [Nat.sub_zero]
  exact isUnit_iff_ne_zero.2 this.ne'

/-- **C38** and positive definite matrices: real or complex coefficients, exact compressions, two children per cluster, a partition in at most two. Whatever
the cluster tree, the numbering and the schedule, building the H-matrix, factoring it with `cholesky_factorization` and solving gives the solution of the
user's system. -/
theorem C38_built_positive_definite_partial (hS : Setting S flog fuel n 2 arg t st E) (hp : arg.atMostTwo) {u : UploType} (hu : u ≠ .N)
    (hup : E.sym = .N ∨ E.uplo = u) {T : ℕ} (hT : 0 < T) {cplx : Bool} {fuel' : ℕ} {ug : ℕ → ℕ → 𝕜} (hpd : (userMatrix n ug).PosDef)
    (hgen : UserGen E cplx dg (permutedGen st.perm st.perm ug) t.iv) (hlr : UserLR (· = ·) lr (permutedGen st.perm st.perm ug))
    {m m' : Mem 𝕜} {B' : Builder} {H : Tree ℕ} (h : BuildStep T E lr dg fuel' t t (permutedGen st.perm st.perm ug) m Builder.empty m' B' H)
    (hEx : L.Exact) (hTr : TrsmOK L) (hP : PotrfOK L) {F : FTree G 𝕜} (hF : InMemory E fuel' t m' H F) {f : ℕ} (hf : 2 * F.ht ≤ f) :
    ∃ F', cholH L u f F = some F' ∧ ∀ (X : Mat 𝕜) (mu g : ℕ), F.ht ≤ g → X.nr = n → X.nc = mu →
      ∃ Y, cholSolveUser L g u st.perm st.perm F' X = some Y ∧ Y.nr = n ∧ Y.nc = mu ∧ ∀ i < n, ∀ k < mu, ∑ l ∈ range n, ug i l * Y.get l k = X.get i k := by
  have hK := hS.userMat hT hgen hlr h
  refine C38_built_partial hS hp hu hup hT h hEx hTr hP hK ?_ hF hf
  have := C38_positive_definite (posDef_permuted hS.perm.2.2 hpd (le_refl n))
  rw [Nat.zero_add] at this
  obtain ⟨Q, q1, q2, q3⟩ := this
  refine ⟨Q, q1, q2, fun i hi j hj => ?_⟩
  rw [q3 i hi j hj]
  exact (hK i (mem_Ico.1 hi).2 j (mem_Ico.1 hj).2).symm

end posdef

/-! ## The hypotheses can be met -/

/-- A compressor which is exact for every matrix: the block times the identity. -/
def exactLr (R : Type*) [CommRing R] : LRGen R := fun gen a b => ⟨b.2, a.2, b.2, fun i k => gen (a.1 + i) (b.1 + k), fun k j => if k = j then 1 else 0⟩

theorem exactLr_ok [CommRing R] (gen : ℕ → ℕ → R) : UserLR (· = ·) (exactLr R) gen := by
  intro a b _ _ i _ j hj
  unfold exactLr
  simp only [mul_ite, mul_one, mul_zero]
  rw [sum_ite_eq' (range b.2) j, if_pos (mem_range.2 hj)]

/-- Memory before the first allocation. -/
def memZero (R : Type*) : Mem R := ⟨fun _ => ⟨0, 0, 0, 0, .N, .N, .N, .N, .hier⟩, fun _ => false, 0, false⟩

/-- The cluster tree of `exBuild` (12 points, two parts) and the settings of `exEnv` are a `Setting`; H-matrices are built on it for every matrix, and three
blocks at least are compressed. -/
theorem exSetting (R : Type*) [CommRing R] [StarRing R] (sym : SymType) (uplo : UploType) (hu : sym ≠ .N → uplo ≠ .N) :
    ∃ t st, exBuild = some (t, st) ∧ Setting exStrategies Nat.log 16 12 2 (.auto 2) t st (exEnv t st none none sym uplo) ∧
      ∀ gen : ℕ → ℕ → R, ∃ m' B' H F, BuildStep 3 (exEnv t st none none sym uplo) (exactLr R) none 100 t t gen (memZero R) Builder.empty m' B' H ∧
        InMemory (exEnv t st none none sym uplo) 100 t m' H F := by
  obtain ⟨t, st, h, hb⟩ := exBuild_built
  have hS : Setting exStrategies Nat.log 16 12 2 (.auto 2) t st (exEnv t st none none sym uplo) := by
    refine ⟨hb, rfl, rfl, rfl, rfl, rfl, hu, fun c _ => ?_⟩
    simp only [exEnv, Bool.or_eq_false_iff, decide_eq_false_iff_not]
    omega
  refine ⟨t, st, h, hS, fun gen => ?_⟩
  have hr : (buildBlocks (exEnv t st none none sym uplo) 100 t t).isSome := by
    have h2 : ∀ sym ∈ [SymType.N, .S, .H], ∀ uplo ∈ [UploType.N, .L, .U], ∀ r ∈ exBuild, (buildBlocks (exEnv r.1 r.2 none none sym uplo) 100 r.1 r.1).isSome := by
      decide +kernel
    exact h2 sym (by cases sym <;> simp) uplo (by cases uplo <;> simp) (t, st) h
  obtain ⟨b, hr⟩ := Option.isSome_iff_exists.1 hr
  obtain ⟨m', B', H, hst⟩ := build_exists (T := 3) (lr := exactLr R) (dg := none) hS.covered.buildOK (gen := gen) (sysInv_empty (memZero R)) hr
  obtain ⟨F, hF⟩ := (hS.view (by omega) hst).1
  exact ⟨m', B', H, F, hst, hF⟩

/-- For `C37_built`, `C37_built_exact`: exact operations, an H-matrix of order 12 built from `min(i, j) + 1` (cluster numbering), whose leading parts are all
nonsingular. The user's numbering is the one of the cluster tree. -/
example : ∃ (L : LinOps ℚ) (t : CTree (List ℕ)) (st : CState (List ℕ)) (E : BEnv (List ℕ)) (ug : ℕ → ℕ → ℚ) (m' : Mem ℚ) (B' : Builder) (H : Tree ℕ)
    (F : FTree (List ℕ) ℚ), L.Exact ∧ TrsmOK L ∧ GetrfOK L ∧ Setting exStrategies Nat.log 16 12 2 (.auto 2) t st E ∧ E.sym = .N ∧
      UserGen E true none (permutedGen st.perm st.perm ug) t.iv ∧ UserLR (· = ·) (exactLr ℚ) (permutedGen st.perm st.perm ug) ∧
      BuildStep 3 E (exactLr ℚ) none 100 t t (permutedGen st.perm st.perm ug) (memZero ℚ) Builder.empty m' B' H ∧ InMemory E 100 t m' H F ∧
      (∀ c ∈ t.pre, Nonsing (permutedGen st.perm st.perm ug) 0 c.fin) ∧ (PartArg.auto 2).oneLevel Nat.log 2 := by
  obtain ⟨L, -, hE, hE', hG⟩ := exact_lu_ops_exist ℚ true (by simp)
  obtain ⟨t, st, h, hS, hB⟩ := exSetting ℚ .N .N (by simp)
  obtain ⟨q1, q2, q3⟩ := hS.perm
  let ug : ℕ → ℕ → ℚ := fun a b => ((min (st.perm.idxOf a) (st.perm.idxOf b) + 1 : ℕ) : ℚ)
  obtain ⟨m', B', H, F, h1, h2⟩ := hB (permutedGen st.perm st.perm ug)
  refine ⟨L, t, st, _, ug, m', B', H, F, hE, hE', hG, hS, rfl, ⟨by simp [exEnv], by simp [exEnv], by simp [exEnv], by simp⟩, exactLr_ok _, h1, h2, fun c hc => ?_,
    Or.inr (show Nat.log 2 2 = 1 by decide)⟩
  refine Nonsing.congr (fun i hi j hj => ?_) (min_nonsing ℚ _)
  have hfin := hS.fin_le hc
  have idx : ∀ i < 12, st.perm.idxOf (st.perm.getD i 0) = i := by
    have e : ∀ r ∈ exBuild, ∀ i < 12, r.2.perm.idxOf (r.2.perm.getD i 0) = i := by decide +kernel
    exact e (t, st) h
  show ((min (st.perm.idxOf (st.perm.getD i 0)) (st.perm.idxOf (st.perm.getD j 0)) + 1 : ℕ) : ℚ) = _
  rw [idx i (by omega), idx j (by omega)]

/-- For `C38_built_partial`: the same with only the blocks of the lower triangle. -/
example : ∃ (L : LinOps ℚ) (t : CTree (List ℕ)) (st : CState (List ℕ)) (E : BEnv (List ℕ)) (m' : Mem ℚ) (B' : Builder) (H : Tree ℕ)
    (F : FTree (List ℕ) ℚ) (K : ℕ → ℕ → ℚ), L.Exact ∧ TrsmOK L ∧ PotrfOK L ∧ Setting exStrategies Nat.log 16 12 2 (.auto 2) t st E ∧ E.sym = .S ∧ E.uplo = .L ∧
      BuildStep 3 E (exactLr ℚ) none 100 t t (fun i j => ((min i j + 1 : ℕ) : ℚ)) (memZero ℚ) Builder.empty m' B' H ∧ InMemory E 100 t m' H F ∧
      UserMat st.perm 12 (H.map m'.heap) K ∧ HasChol (HTree.entry (H.map m'.heap)) 0 12 ∧ (PartArg.auto 2).atMostTwo := by
  obtain ⟨L, -, hE, hE', hG⟩ := exact_chol_ops_exist (R := ℚ) true (by simp)
  obtain ⟨t, st, h, hS, hB⟩ := exSetting ℚ .S .L (by simp)
  obtain ⟨q1, q2, q3⟩ := hS.perm
  obtain ⟨m', B', H, F, h1, h2⟩ := hB (fun i j => ((min i j + 1 : ℕ) : ℚ))
  have hg : UserGen (R := ℚ) (exEnv t st none none .S .L) false none (fun i j => ((min i j + 1 : ℕ) : ℚ)) t.iv :=
    ⟨by simp [exEnv], fun _ i j _ _ => by rw [Nat.min_comm], by simp [exEnv], by simp⟩
  obtain ⟨-, -, -, hc⟩ := C19_built_operator (T := 3) (by omega) hS.covered hg (close := (· = ·)) ⟨fun _ => rfl, fun _ _ h => congrArg _ h⟩ (exactLr_ok _) h1
  have ent : ∀ i < 12, ∀ j < 12, HTree.entry (H.map m'.heap) i j = ((min i j + 1 : ℕ) : ℚ) := fun i hi j hj =>
    hc i j (by unfold InIv Tree.iv; simp only; omega) (by unfold InIv Tree.iv; simp only; omega)
  have idx : ∀ i < 12, st.perm.idxOf (st.perm.getD i 0) = i := by
    have e : ∀ r ∈ exBuild, ∀ i < 12, r.2.perm.idxOf (r.2.perm.getD i 0) = i := by decide +kernel
    exact e (t, st) h
  refine ⟨L, t, st, _, m', B', H, F, fun a b => ((min (st.perm.idxOf a) (st.perm.idxOf b) + 1 : ℕ) : ℚ), hE, hE', hG, hS, rfl, rfl, h1, h2, fun i hi j hj => ?_, ?_,
    le_refl 2⟩
  · beta_reduce
    rw [ent i hi j hj, idx i hi, idx j hj]
  · obtain ⟨Q, u1, u2, u3⟩ := min_chol (R := ℚ) 12
    exact ⟨Q, u1, u2, fun i hi j hj => by rw [u3 i hi j hj, ent i (mem_Ico.1 hi).2 j (mem_Ico.1 hj).2]⟩

open scoped ComplexOrder in
/-- For the positive definite matrices: the identity, with complex coefficients. -/
example : (userMatrix 12 (fun i j => if i = j then (1 : ℂ) else 0)).PosDef := by
  have : userMatrix 12 (fun i j => if i = j then (1 : ℂ) else 0) = 1 := by
    ext i j
    simp [userMatrix, Matrix.one_apply, Fin.ext_iff]
  rw [this]
  exact Matrix.PosDef.one

end Htool
