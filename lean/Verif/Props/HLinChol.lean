import Verif.HLinChol3
import Verif.Props.HLinLU

/-! # C38: Cholesky factorization of a hierarchical matrix

Specification: `Rep m ad M A` says that the H-matrix `A` contains the entries of `M` which are stored (`m = .full`: all, `.lower` or `.upper`: the blocks of
one triangle); `TriRep u false m ad T A'` says that `A'` contains the triangular matrix `T` (lower when `u = .L`, upper otherwise). `lowF u T` is `T` when
`u = .L` and the adjoint of `T` otherwise, so that the equation of the factors is always `M = lowF u T (lowF u T)^*`. `HasChol M a b` says that `M` has a
Cholesky factor on the indices `a, ..., b - 1`; `PotrfOK` and `TrsmOK` are the contracts of LAPACK and BLAS; compressions are exact (`Exact`).

The theorems ask for at most two clusters in every list of blocks (`ClusterTree.Bin`): `C38_three_clusters` shows that the claim is false with three. -/

namespace Htool
variable {G R : Type*}
open Finset

section solve
variable [CommRing R] [StarRing R] [DecidableEq R] {E : LinOps R} {ad : ClusterTree G → ClusterTree G → Prop} {u : UploType} {m : Mask}

/-- `internal_cholesky_solve` with the factor. -/
theorem cholSolveH_spec (hT : TrsmOK E) (hreal : E.cplx = false → RealType R) {f : ℕ} {A : FTree G R} (hf : A.ht ≤ f) {M T : ℕ → ℕ → R}
    (hA : TriRep u false m ad T A) (ht : A.label.t.Top)
    (hM : ∀ i ∈ Ico A.label.t.off A.label.t.fin, ∀ j ∈ Ico A.label.t.off A.label.t.fin,
      ∑ l ∈ Ico A.label.t.off A.label.t.fin, lowF u T i l * star (lowF u T j l) = M i j)
    {X : Mat R} {n mu : ℕ} (hn : A.label.t.sz = n) (h1 : X.nr = n) (h2 : X.nc = mu) :
    ∃ Y, cholSolveH E f u A X = some Y ∧ Y.nr = n ∧ Y.nc = mu ∧ ∀ i < n, ∀ k < mu,
      ∑ l ∈ range n, rel M A.label.t.off A.label.t.off i l * Y.get l k = X.get i k := by
  subst hn
  have orel : ∀ (tr : Trans) (T : ℕ → ℕ → R) i l, tv .L tr T (A.label.t.off + i) (A.label.t.off + l) = opE tr (rel T A.label.t.off A.label.t.off) i l := by
    intro tr T i l; cases tr <;> rfl
  have key : ∀ (t1 t2 : Trans), (∀ i l, tv .L t1 T i l = lowF u T i l) → (∀ i l, tv .L t2 T i l = star (lowF u T l i)) →
      ∃ Y, (triHM E f .L u t1 false 1 A X).bind (triHM E f .L u t2 false 1 A) = some Y ∧ Y.nr = A.label.t.sz ∧ Y.nc = mu ∧ ∀ i < A.label.t.sz, ∀ k < mu,
        ∑ l ∈ range A.label.t.sz, rel M A.label.t.off A.label.t.off i l * Y.get l k = X.get i k := by
    intro t1 t2 g1 g2
    obtain ⟨Z, z1, z2, z3, z4⟩ := triHM_spec hT hreal .L t1 f hf hA ht 1 (B := X) (mu := mu) (by rw [if_pos rfl, h1, h2])
    obtain ⟨Y, y1, y2, y3, y4⟩ := triHM_spec hT hreal .L t2 f hf hA ht 1 (B := Z) (mu := mu) (by rw [if_pos rfl, z2, z3, h1, h2])
    refine ⟨Y, by rw [z1]; exact y1, y2.trans (z2.trans h1), y3.trans (z3.trans h2), fun i hi k hk => ?_⟩
    refine two_solves (F := opE t1 (rel T A.label.t.off A.label.t.off)) (H := opE t2 (rel T A.label.t.off A.label.t.off)) (z := fun l => Z.get l k)
      (y := fun l => Y.get l k) (x := fun l => X.get l k) (fun i hi j hj => ?_) (fun i hi => ?_) (fun i hi => ?_) i hi
    · have := hM (A.label.t.off + i) (mem_Ico.2 (by unfold ClusterTree.fin; omega)) (A.label.t.off + j) (mem_Ico.2 (by unfold ClusterTree.fin; omega))
      rw [sum_Ico_eq_sum_range, show A.label.t.fin - A.label.t.off = A.label.t.sz by unfold ClusterTree.fin; omega] at this
      refine Eq.trans (sum_congr rfl fun l _ => ?_) this
      rw [← orel, ← orel, g1, g2]
    · have := z4 i hi k hk
      rw [one_mul] at this
      rw [← show sv .L X.get i k = X.get i k from rfl, ← this]
      exact sum_congr rfl fun l _ => by rw [orel]; rfl
    · have := y4 i hi k hk
      rw [one_mul] at this
      rw [← show sv .L Z.get i k = Z.get i k from rfl, ← this]
      exact sum_congr rfl fun l _ => by rw [orel]; rfl
  unfold cholSolveH
  cases hu : u with
  | N => exact absurd hu hA.up
  | L =>
    subst hu
    rw [if_pos rfl]
    exact key .N E.tr (fun i l => rfl) (fun i l => tv_L hreal T i l)
  | U =>
    subst hu
    rw [if_neg (by simp)]
    exact key E.tr .N (fun i l => tv_L hreal T i l) (fun i l => (star_star _).symm)

end solve

section claims
variable [CommRing R] [StarRing R] [DecidableEq R] {E : LinOps R} {ad : ClusterTree G → ClusterTree G → Prop} {u : UploType} {m : Mask} {M : ℕ → ℕ → R}
  {A : FTree G R}

/-- What is asked of the H-matrix: it contains `M` (at least the triangle used), its diagonal blocks are not compressed nor already factored, `M` has a
Cholesky factor, and every cluster is divided in at most two. -/
structure CholOperand (u : UploType) (m : Mask) (ad : ClusterTree G → ClusterTree G → Prop) (M : ℕ → ℕ → R) (A : FTree G R) : Prop where
  rep : Rep m ad M A
  up : u ≠ .N
  mask : MaskOK u m
  pivots : A.NoPivots
  square : A.label.t = A.label.s
  top : A.label.t.Top
  bin : A.label.t.Bin
  diag : ∀ c, ¬ ad c c
  chol : HasChol M A.label.t.off A.label.t.fin

/-- **C38**: `cholesky_factorization` ends, every block it needs exists, and `L L^* = A` (`u = .L`) or `U^* U = A` (`u = .U`). Missing: more than two
clusters in a list, for which the claim is false. -/
theorem C38_factorization_partial (hEx : E.Exact) (hT : TrsmOK E) (hP : PotrfOK E) (hA : CholOperand u m ad M A) {f : ℕ} (hf : 2 * A.ht ≤ f) :
    ∃ A' T, cholH E u f A = some A' ∧ A'.label.t = A.label.t ∧ A'.label.s = A.label.s ∧ A'.ht ≤ A.ht ∧ TriRep u false m ad T A' ∧
      (∀ i ∈ Ico A.label.t.off A.label.t.fin, ∀ j ∈ Ico A.label.t.off A.label.t.fin, i < j → lowF u T i j = 0) ∧
      ∀ i ∈ Ico A.label.t.off A.label.t.fin, ∀ j ∈ Ico A.label.t.off A.label.t.fin,
        ∑ l ∈ Ico A.label.t.off A.label.t.fin, lowF u T i l * star (lowF u T j l) = M i j := by
  obtain ⟨A', T, e1, e2, e3, e4, e5, e6⟩ := cholH_spec hEx hT hP hA.diag hA.up hA.mask f A M hf hA.rep (fun X hX D piv h => hA.pivots X hX D piv h) hA.square hA.top hA.bin hA.chol
  exact ⟨A', T, e1, e2, e3, e4, ⟨hA.up, hA.mask, e2.trans (hA.square.trans e3.symm), Shape.imp e5 fun X _ hX => hX.2⟩, e6.1, e6.2.2⟩

/-- **C38**, solution in cluster numbering (`internal_cholesky_solve`): `A Y = X` for every right-hand side. -/
theorem C38_solve_cluster_numbering_partial (hEx : E.Exact) (hT : TrsmOK E) (hP : PotrfOK E) (hA : CholOperand u m ad M A) {f : ℕ} (hf : 2 * A.ht ≤ f) {n : ℕ}
    (hn : A.label.t.sz = n) :
    ∃ A', cholH E u f A = some A' ∧ ∀ (X : Mat R) (mu g : ℕ), A.ht ≤ g → X.nr = n → X.nc = mu →
      ∃ Y, cholSolveH E g u A' X = some Y ∧ Y.nr = n ∧ Y.nc = mu ∧ ∀ i < n, ∀ k < mu,
        ∑ l ∈ range n, M (A.label.t.off + i) (A.label.t.off + l) * Y.get l k = X.get i k := by
  obtain ⟨A', T, e1, e2, e3, e4, e5, -, e6⟩ := C38_factorization_partial hEx hT hP hA hf
  refine ⟨A', e1, fun X mu g hg h1 h2 => ?_⟩
  rw [← e2] at e6 hn ⊢
  exact cholSolveH_spec hT hEx.real (by omega) e5 (by rw [e2]; exact hA.top) e6 hn h1 h2

/-- **C38**: factorization followed by `cholesky_solve` solves the system in user numbering. `K` is the matrix in user numbering, relative to the cluster,
`perm` the permutation of the cluster tree. -/
theorem C38_cholesky_solve_partial (hEx : E.Exact) (hT : TrsmOK E) (hP : PotrfOK E) (hA : CholOperand u m ad M A) {f : ℕ} (hf : 2 * A.ht ≤ f) {n : ℕ}
    (hn : A.label.t.sz = n) {perm : List ℕ} (hp : LocalPerm perm A.label.t.off n) {K : ℕ → ℕ → R}
    (hK : ∀ i < n, ∀ j < n, M (A.label.t.off + i) (A.label.t.off + j) = K (userIdx perm A.label.t.off i) (userIdx perm A.label.t.off j)) :
    ∃ A', cholH E u f A = some A' ∧ ∀ (X : Mat R) (mu g : ℕ), A.ht ≤ g → X.nr = n → X.nc = mu →
      ∃ Y, cholSolveUser E g u perm perm A' X = some Y ∧ Y.nr = n ∧ Y.nc = mu ∧ ∀ i < n, ∀ k < mu, ∑ l ∈ range n, K i l * Y.get l k = X.get i k := by
  obtain ⟨A', T, e1, e2, e3, e4, e5, -, e7⟩ := C38_factorization_partial hEx hT hP hA hf
  refine ⟨A', e1, fun X mu g hg h1 h2 => ?_⟩
  have es : A'.label.s = A.label.t := e3.trans hA.square.symm
  rw [← e2] at e7
  obtain ⟨Z, z1, z2, z3, z4⟩ := cholSolveH_spec hT hEx.real (by omega : A'.ht ≤ g) e5 (by rw [e2]; exact hA.top) e7 (n := n) (by rw [e2]; exact hn)
    (X := permIn perm A.label.t.off n X) (mu := mu) h1 h2
  refine ⟨permOut perm A.label.t.off n Z X, ?_, h1, h2, fun u hu k hk => ?_⟩
  · unfold cholSolveUser
    rw [es, e2, hn, z1]
    rfl
  · obtain ⟨i, hi, rfl⟩ := userIdx_surj hp hu
    have key := z4 i hi k hk
    rw [permIn_get h1 hi (by omega)] at key
    rw [← key, ← sum_userIdx hp]
    refine sum_congr rfl fun l hl => ?_
    have hl := mem_range.1 hl
    rw [permOut_get hp z2 h1 hl (by omega), e2]
    congr 1
    exact (hK i hi l hl).symm

end claims

/-! ## The hypotheses can be met -/

section exist
variable [CommRing R] [StarRing R]

/-- An exact `potrf` exists. -/
theorem potrf_exists : ∃ g : UploType → Mat R → Mat R, ∀ E : LinOps R, E.potrf = g → PotrfOK E := by
  classical
  have ex : ∀ (u : UploType) (D : Mat R), ∃ P : Mat R, ∀ n, u ≠ .N → D.nr = n → D.nc = n →
      (∃ F : ℕ → ℕ → R, (∀ i < n, IsUnit (F i i)) ∧ ∀ i < n, ∀ j < n, (u = .L ∧ j ≤ i) ∨ (u = .U ∧ i ≤ j) →
        ∑ l ∈ range n, lowF u (tri u false F) i l * star (lowF u (tri u false F) j l) = D.get i j) →
      P.nr = n ∧ P.nc = n ∧ (∀ i < n, IsUnit (P.get i i)) ∧
      ∀ i < n, ∀ j < n, (u = .L ∧ j ≤ i) ∨ (u = .U ∧ i ≤ j) →
        ∑ l ∈ range n, lowF u (tri u false P.get) i l * star (lowF u (tri u false P.get) j l) = D.get i j := by
    intro u D
    by_cases h : ∃ F : ℕ → ℕ → R, (∀ i < D.nr, IsUnit (F i i)) ∧ ∀ i < D.nr, ∀ j < D.nr, (u = .L ∧ j ≤ i) ∨ (u = .U ∧ i ≤ j) →
        ∑ l ∈ range D.nr, lowF u (tri u false F) i l * star (lowF u (tri u false F) j l) = D.get i j
    · obtain ⟨F, f1, f2⟩ := h
      refine ⟨matFun D.nr D.nr F, fun n hu h1 h2 _ => ?_⟩
      subst h1
      have g : ∀ i < D.nr, ∀ j < D.nr, (matFun D.nr D.nr F).get i j = F i j := fun i hi j _ => matFun_get _ _ _ hi
      have gt : ∀ i < D.nr, ∀ j < D.nr, lowF u (tri u false (matFun D.nr D.nr F).get) i j = lowF u (tri u false F) i j := by
        intro i hi j hj
        unfold lowF tri
        rw [g i hi j hj, g j hj i hi]
      refine ⟨rfl, rfl, fun i hi => by rw [g i hi i hi]; exact f1 i hi, fun i hi j hj hij => ?_⟩
      rw [← f2 i hi j hj hij]
      exact sum_congr rfl fun l hl => by rw [gt i hi l (mem_range.1 hl), gt j hj l (mem_range.1 hl)]
    · exact ⟨D, fun n _ h1 _ hF => absurd (by rw [h1]; exact hF) h⟩
  choose P hP using ex
  refine ⟨P, fun E hE u D n hu h1 h2 hF => ?_⟩
  rw [hE]
  exact hP u D n hu h1 h2 hF

/-- Exact operations exist over every ring, for real and complex coefficients. -/
theorem exact_chol_ops_exist (cplx : Bool) (h : cplx = false → RealType R) : ∃ E : LinOps R, E.cplx = cplx ∧ E.Exact ∧ TrsmOK E ∧ PotrfOK E := by
  obtain ⟨g, hg⟩ := potrf_exists (R := R)
  obtain ⟨E, e1, e2, e3, -, e5⟩ := exact_solve_ops_exist (R := R) cplx h (fun D => (D, [])) g
  exact ⟨E, e1, e2, e3, hg E e5⟩

/-- `min(i, j) + 1` has the Cholesky factor whose lower entries are all 1. -/
theorem min_chol (n : ℕ) : HasChol (fun i j => ((min i j + 1 : ℕ) : R)) 0 n := by
  refine ⟨fun i l => if l ≤ i then 1 else 0, fun i _ j _ h => if_neg (by omega), fun i _ => by simp, fun i hi j hj => ?_⟩
  have hi := mem_Ico.1 hi
  have hj := mem_Ico.1 hj
  have e : ∀ l ∈ Ico 0 n, (if l ≤ i then (1 : R) else 0) * star (if l ≤ j then (1 : R) else 0) = if l ∈ range (min i j + 1) then 1 else 0 := by
    intro l _
    by_cases h1 : l ≤ i <;> by_cases h2 : l ≤ j <;> simp [h1, h2]
  rw [sum_congr rfl e, sum_ite_mem, sum_const, nsmul_eq_mul, mul_one]
  congr 1
  rw [show Ico 0 n ∩ range (min i j + 1) = range (min i j + 1) from inter_eq_right.2 fun l hl => mem_Ico.2 ⟨by omega, by have := mem_range.1 hl; omega⟩, card_range]

end exist

/-- For the block tree of `exBuild` (12 points, two parts) with only the blocks of the lower triangle, the hypotheses of C38 hold for `min(i, j) + 1`
over the rational numbers. -/
theorem exChol_operand : ∃ (E : LinOps ℚ) (A : FTree (List ℕ) ℚ) (perm : List ℕ), E.Exact ∧ TrsmOK E ∧ PotrfOK E ∧
    CholOperand .L .lower (fun p q => p.iv ≠ q.iv) (fun i j => ((min i j + 1 : ℕ) : ℚ)) A ∧ A.isHier = true ∧ 3 ≤ A.ht ∧ A.label.t.sz = 12 ∧ A.label.t.off = 0 ∧
    LocalPerm perm A.label.t.off 12 := by
  obtain ⟨t, st, hr, hb⟩ := exBuild_built
  obtain ⟨E, -, hE, hE', hG⟩ := exact_chol_ops_exist (R := ℚ) true (by simp)
  have w := create_wf hb.strategies hb.hflog hb.hnc hb.harg hb.hpos hb.build hb.ranks
  have s := create_shape hb.strategies hb.hflog hb.hnc hb.harg hb.build
  have good : (exEnv t st none none .S .L).Good := ⟨w.1, w.2, s.2.2.2.2, w.1, w.2, s.2.2.2.2, rfl, rfl, rfl⟩
  have h1 : ∀ r ∈ exBuild, ∃ b ∈ buildBlockTree (exEnv r.1 r.2 none none .S .L) 100 r.1 r.1, 3 ≤ b.ht ∧ b.label.kind = .hier := by decide +kernel
  have h2 : ∀ r ∈ exBuild, ∀ x ∈ Tree.pre r.1, (clList (decide ((⟨x, (clusterTreeOf r.1 r.2).parts⟩ : ClusterTree (List ℕ)).rk < 0)) ⟨x, (clusterTreeOf r.1 r.2).parts⟩).length ≤ 2 := by
    decide +kernel
  obtain ⟨b, hbb, hht, hk⟩ := h1 (t, st) hr
  have hbb : buildBlockTree (exEnv t st none none .S .L) 100 _ _ = some b := hbb
  have hm : (exEnv t st none none .S .L).mask = .lower := rfl
  obtain ⟨A, a1, a2, a3, a4, a5, a6, -⟩ := rep_exists' good hbb (fun i j => ((min i j + 1 : ℕ) : ℚ)) (fun p q => p.iv ≠ q.iv)
  rw [hm] at a1
  have lp := localPerm_root hb.strategies hb.hflog hb.hnc hb.harg hb.build
  have o0 : A.label.t.off = 0 := by rw [a2]; exact lp.1
  have o1 : A.label.t.sz = 12 := by rw [a2]; exact lp.2.1
  refine ⟨E, A, st.perm, hE, hE', hG, ⟨a1, by simp, Or.inr (Or.inl ⟨rfl, rfl⟩), a5, a2.trans a3.symm, by rw [a2]; exact hb.clOK.2, ?_, fun c h => h rfl, ?_⟩,
    a6 hk, by omega, o1, o0, ?_⟩
  · rw [a2]
    intro d hd
    have := h2 (t, st) hr d.root hd.1
    have e : d = ⟨d.root, (clusterTreeOf t st).parts⟩ := by rw [show (clusterTreeOf t st).parts = d.parts from hd.2.symm]
    rw [e]
    exact this
  · rw [o0]; exact min_chol _
  · rw [o0]
    have := lp.2.2
    rw [lp.1, lp.2.1] at this
    exact this

/-! ## With three clusters the factorization is wrong -/

/-- Clusters down to one point. -/
def exStrategies3 : Strategies Unit (List ℕ) where
  dir := fun _ _ => ()
  sort := fun _ l => l
  split := fun _ _ off size k => regularSplitting off size k 0
  geo := slice

/-- Three points, three children. -/
def exBuild3 : Option (CTree (List ℕ) × CState (List ℕ)) := createClusterTree exStrategies3 Nat.log 16 3 3 (.auto 3)

/-- The builder succeeds on it. -/
theorem exBuild3_built : ∃ t st, exBuild3 = some (t, st) ∧ Built exStrategies3 Nat.log 16 3 3 (.auto 3) t st := by
  have h : exBuild3.isSome := by decide +kernel
  obtain ⟨⟨t, st⟩, hr⟩ := Option.isSome_iff_exists.1 h
  refine ⟨t, st, hr, strategies_ok_of_regular _ 0 (fun _ l => List.Perm.refl l) rfl, flogOK_log, by omega, (show (1 : ℕ) ≤ 3 by omega), trivial, hr, ?_⟩
  have h2 : ∀ r ∈ exBuild3, ∀ l ∈ r.1.leaves, 0 ≤ l.label.rank := by decide +kernel
  exact h2 (t, st) hr

/-- The factor with rows (1), (1, 1), (2, 1, 1). -/
def exF (i l : ℕ) : ℚ := if i < l then 0 else if i = 2 ∧ l = 0 then 2 else 1

/-- The matrix `exF exF^T`. -/
def exM (i j : ℕ) : ℚ := ∑ l ∈ Ico 0 3, exF i l * exF j l

section one
variable [CommRing R] [StarRing R] [DecidableEq R]

/-- Exact operations: any operations with the contracts, except that 1 x 1 blocks with entry 1 are treated directly. -/
def LinOps.one (E : LinOps R) : LinOps R :=
  { E with
    potrf := fun u D => if D.nr = 1 ∧ D.nc = 1 ∧ D.get 0 0 = 1 then D else E.potrf u D
    trsm := fun side u tr unit α A B => if A.nr = 1 ∧ A.nc = 1 ∧ A.get 0 0 = 1 then B.scale α else E.trsm side u tr unit α A B }

theorem one_potrf {E : LinOps R} (h : PotrfOK E) : PotrfOK E.one := by
  intro u D n hu h1 h2 hF
  show (if D.nr = 1 ∧ D.nc = 1 ∧ D.get 0 0 = 1 then D else E.potrf u D).nr = n ∧ _
  have e : E.one.potrf u D = if D.nr = 1 ∧ D.nc = 1 ∧ D.get 0 0 = 1 then D else E.potrf u D := rfl
  rw [e]
  by_cases hc : D.nr = 1 ∧ D.nc = 1 ∧ D.get 0 0 = 1
  · simp only [if_pos hc]
    obtain rfl : n = 1 := by omega
    refine ⟨h1, h2, fun i hi => ?_, fun i hi j hj _ => ?_⟩
    · obtain rfl : i = 0 := by omega
      rw [hc.2.2]; exact isUnit_one
    · obtain rfl : i = 0 := by omega
      obtain rfl : j = 0 := by omega
      rw [sum_range_one]
      unfold lowF tri
      simp [hc.2.2]
  · simp only [if_neg hc]
    exact h u D n hu h1 h2 hF

theorem one_trsm {E : LinOps R} (h : TrsmOK E) : TrsmOK E.one := by
  intro side u tr unit α A B n m hu h1 h2 h3 h4
  have e : E.one.trsm side u tr unit α A B = if A.nr = 1 ∧ A.nc = 1 ∧ A.get 0 0 = 1 then B.scale α else E.trsm side u tr unit α A B := rfl
  rw [e]
  by_cases hc : A.nr = 1 ∧ A.nc = 1 ∧ A.get 0 0 = 1
  · simp only [if_pos hc]
    obtain rfl : n = 1 := by omega
    refine ⟨rfl, rfl, fun i hi k hk => ?_⟩
    obtain rfl : i = 0 := by omega
    rw [sum_range_one]
    have t1 : tv side tr (tri u unit A.get) 0 0 = 1 := by
      rw [tv_eq]
      unfold tri
      by_cases ht : tr = .C <;> simp [hc.2.2, ht]
    rw [t1, one_mul]
    have g : ∀ i j, i < B.nr → j < B.nc → (B.scale α).get i j = α * B.get i j := fun i j hi hj => if_pos ((mat_idx_lt hi hj).trans_eq (Nat.mul_comm _ _))
    cases side with
    | L =>
      rw [if_pos rfl] at h3
      exact g 0 k (by rw [(Prod.mk.inj h3).1]; omega) (by rw [(Prod.mk.inj h3).2]; omega)
    | R =>
      rw [if_neg (by simp)] at h3
      exact g k 0 (by rw [(Prod.mk.inj h3).1]; omega) (by rw [(Prod.mk.inj h3).2]; omega)
  · simp only [if_neg hc]
    exact h side u tr unit α A B n m hu h1 h2 h3 h4

end one

/-- Exact operations over the rational numbers. -/
noncomputable def exE : LinOps ℚ := { (Classical.choose (exact_chol_ops_exist (R := ℚ) true (by simp))).one with cplx := false }

theorem exE_ok : exE.Exact ∧ TrsmOK exE ∧ PotrfOK exE := by
  have h := Classical.choose_spec (exact_chol_ops_exist (R := ℚ) true (by simp))
  exact ⟨⟨fun _ x => rfl, h.2.1.rc, h.2.1.cmp⟩, one_trsm h.2.2.1, one_potrf h.2.2.2⟩

/-- The H-matrix containing the lower triangle of `exM`. -/
def exA3 : Option (FTree (List ℕ) ℚ) := exBuild3.bind fun r => (buildBlockTree (exEnv r.1 r.2 none none .S .L) 100 r.1 r.1).map fun b =>
  b.map (fun n => ⟨⟨n.t, (clusterTreeOf r.1 r.2).parts⟩, ⟨n.s, (clusterTreeOf r.1 r.2).parts⟩, .N, .N, .N, .N, match n.kind with
        | .dense => .dense (matFun n.t.sz n.s.sz (fun i j => exM (n.t.off + i) (n.s.off + j))) []
        | .adm => .dense (matFun n.t.sz n.s.sz (fun i j => exM (n.t.off + i) (n.s.off + j))) []
        | .hier => .hier⟩)

/-- The right-hand side `exM (1, 1, 1)`. -/
def exX3 : Mat ℚ := matFun 3 1 (fun i _ => exM i 0 + exM i 1 + exM i 2)

/-- What `cholesky_factorization` and `internal_cholesky_solve` return for it. -/
noncomputable def exY3 : Option (Mat ℚ) := exA3.bind fun A => (cholH exE .L 10 A).bind fun A' => cholSolveH exE 10 .L A' exX3


theorem exY3_eq : (exY3.map fun Y => (List.range 3).map fun i => Y.get i 0) = some [-13, 7, 5] := by
  decide +kernel

/-- **C38 is false with three clusters.** All hypotheses of the theorems above hold, except that a cluster has three children: the factorization ends, the
solution is computed, and it is not the solution (the Schur complement uses the same block twice, factorization.hpp 143-148). -/
theorem C38_three_clusters : ∃ (E : LinOps ℚ) (A A' : FTree (List ℕ) ℚ) (M : ℕ → ℕ → ℚ) (X Y : Mat ℚ), E.Exact ∧ TrsmOK E ∧ PotrfOK E ∧
    Rep .lower (fun _ _ => False) M A ∧ A.NoPivots ∧ A.label.t = A.label.s ∧ A.label.t.Top ∧ A.label.t.off = 0 ∧ A.label.t.fin = 3 ∧ HasChol M 0 3 ∧
    cholH E .L 10 A = some A' ∧ X.nr = 3 ∧ X.nc = 1 ∧ cholSolveH E 10 .L A' X = some Y ∧ ¬ ∀ i < 3, ∑ l ∈ range 3, M i l * Y.get l 0 = X.get i 0 := by
  obtain ⟨t, st, hr, hb⟩ := exBuild3_built
  have w := create_wf hb.strategies hb.hflog hb.hnc hb.harg hb.hpos hb.build hb.ranks
  have s := create_shape hb.strategies hb.hflog hb.hnc hb.harg hb.build
  have good : (exEnv t st none none .S .L).Good := ⟨w.1, w.2, s.2.2.2.2, w.1, w.2, s.2.2.2.2, rfl, rfl, rfl⟩
  have h1 : ∀ r ∈ exBuild3, (buildBlockTree (exEnv r.1 r.2 none none .S .L) 100 r.1 r.1).isSome = true := by decide +kernel
  obtain ⟨b, hbb⟩ := Option.isSome_iff_exists.1 (h1 (t, st) hr)
  have hbb : buildBlockTree (exEnv t st none none .S .L) 100 _ _ = some b := hbb
  have hm : (exEnv t st none none .S .L).mask = .lower := rfl
  obtain ⟨A, a1, a2, a3, a4, a5, a6, a7⟩ := rep_exists' good hbb exM (fun _ _ => False)
  simp only [if_false] at a7
  have eA : exA3 = some A := by
    unfold exA3
    rw [hr]
    show (buildBlockTree (exEnv t st none none .S .L) 100 t t).map _ = some A
    rw [show buildBlockTree (exEnv t st none none .S .L) 100 t t = some b from hbb, a7]
    rfl
  have lp := localPerm_root hb.strategies hb.hflog hb.hnc hb.harg hb.build
  have o0 : A.label.t.off = 0 := by rw [a2]; exact lp.1
  have o1 : A.label.t.sz = 3 := by rw [a2]; exact lp.2.1
  have hY := exY3_eq
  unfold exY3 at hY
  rw [eA] at hY
  obtain ⟨Y, y1, y2⟩ := Option.map_eq_some_iff.1 hY
  obtain ⟨A', y3, y4⟩ := Option.bind_eq_some_iff.1 (show (cholH exE .L 10 A).bind _ = some Y from y1)
  refine ⟨exE, A, A', exM, exX3, Y, exE_ok.1, exE_ok.2.1, exE_ok.2.2, by rw [← hm]; exact a1, a5, a2.trans a3.symm, by rw [a2]; exact hb.clOK.2, o0,
    by unfold ClusterTree.fin; omega, ⟨exF, ?_, ?_, ?_⟩, y3, rfl, rfl, y4, fun h => ?_⟩
  · intro i _ j _ h
    exact if_pos h
  · intro i hi
    unfold exF
    have := mem_Ico.1 hi
    rw [if_neg (by omega), if_neg (by omega)]
    exact isUnit_one
  · intro i _ j _
    rfl
  · have v0 : Y.get 0 0 = -13 := congrArg (fun l : List ℚ => l.getD 0 0) y2
    have v1 : Y.get 1 0 = 7 := congrArg (fun l : List ℚ => l.getD 1 0) y2
    have v2 : Y.get 2 0 = 5 := congrArg (fun l : List ℚ => l.getD 2 0) y2
    have := h 1 (by omega)
    rw [sum_range_succ, sum_range_succ, sum_range_one, v0, v1, v2, show exM 1 0 = 1 by decide +kernel, show exM 1 1 = 2 by decide +kernel,
      show exM 1 2 = 3 by decide +kernel, show exX3.get 1 0 = 6 by decide +kernel] at this
    norm_num at this
end Htool
