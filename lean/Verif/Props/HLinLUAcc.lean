import Verif.HLinPivots
import Verif.Props.HLinLU
import Verif.Props.HLinTriAcc
import Verif.Props.HLinBuilt

/-! # C37: accuracy of the LU factorization of an H-matrix, when the low-rank compressions are not exact

Specification: the factors `L`, `U` stored by `lu_factorization` are multiplied; the entries of `L U - A` are compared with the norms of `A`, `L` and `U`.
`LinOps.Acc` is the accuracy of a single compression, `FTree.Pivots` says that no call of `getrf` meets a singular block (`info = 0`). -/

namespace Htool
variable {G 𝕜 : Type*} [RCLike 𝕜] [DecidableEq 𝕜]
open Finset

/-- Number of compressions an entry goes through in the factorization of a matrix of height `h`: `a` clusters in one division. -/
def luTruncs (a h : ℕ) : ℕ := 3 * h * (a * truncs a h)

section claims
variable {E : LinOps 𝕜} {ε : ℝ} {ad : ClusterTree G → ClusterTree G → Prop} {M : ℕ → ℕ → 𝕜} {A : FTree G 𝕜} {a : ℕ}

/-- A square H-matrix whose diagonal blocks are not compressed, divisions having at most `a` clusters. -/
structure LUOperandA (ad : ClusterTree G → ClusterTree G → Prop) (M : ℕ → ℕ → 𝕜) (a : ℕ) (A : FTree G 𝕜) : Prop where
  rep : Rep .full ad M A
  square : A.label.t = A.label.s
  top : A.label.t.Top
  diag : ∀ c, ¬ ad c c
  arity : A.label.t.Arity a

/-- **C37**, with compressions of relative accuracy `ε`: the entries of `L U - A` are at most `((1 + ε) ^ K - 1) (‖A‖ + ‖L‖ ‖U‖)` (Frobenius norms), `K`
depending only on the height of the matrix and on the number of clusters in one division. -/
theorem C37_accuracy (hE : E.Acc ε) (hε : 0 ≤ ε) (hT : TrsmOK E) (hG : GetrfOK E) (hA : LUOperandA ad M a A) {f : ℕ} (hf : 2 * A.ht ≤ f)
    (hP : A.Pivots E f) :
    ∃ A' L U, luH E f A = some A' ∧ A'.label.t = A.label.t ∧ A'.label.s = A.label.s ∧ A'.ht ≤ A.ht ∧
      TriRep .L true .full ad L A' ∧ TriRep .U false .full ad U A' ∧
      ∀ i ∈ Ico A.label.t.off A.label.t.fin, ∀ j ∈ Ico A.label.t.off A.label.t.fin,
        ‖∑ l ∈ Ico A.label.t.off A.label.t.fin, L i l * U l j - M i j‖ ≤
          ((1 + ε) ^ luTruncs a A.ht - 1) * (frobOn M A + frobOn L A' * frobOn U A') := by
  obtain ⟨A', L, U, e1, e2, e3, e4, e5, e6⟩ := luH_near (a := a) (hm := A.ht) hE hε hT hG hA.diag f A.ht A M (le_refl _) hf (le_refl _) hA.rep hA.square hA.top
    hA.arity hP
  have sq : A'.label.t = A'.label.s := e2.trans (hA.square.trans e3.symm)
  refine ⟨A', L, U, e1, e2, e3, e4, ⟨by simp, Or.inl rfl, sq, Shape.imp e5 fun X _ hX => hX.2.1⟩, ⟨by simp, Or.inl rfl, sq, Shape.imp e5 fun X _ hX => hX.2.2⟩, ?_⟩
  have hW := maj_product .N .N (1 : 𝕜) 1 L U M (A := A') (X := A') (C := A) sq.symm e2.symm (hA.square.symm.trans (e2.symm.trans sq))
  rw [norm_one, one_mul, one_mul] at hW
  have v := e6 _ _ 0 M hW (by rw [accErr_zero]; exact hA.rep.near) (fun i hi j hj => by
    have hi' := mem_Ico.1 hi
    have hj' := mem_Ico.1 hj
    refine le_of_le_of_eq ?_ (if_pos (show (A.label.t.off ≤ i ∧ i < A.label.t.off + A.label.t.sz) ∧ A.label.s.off ≤ j ∧ j < A.label.s.off + A.label.s.sz from
      ⟨hi', by rw [← hA.square]; exact hj'⟩)).symm
    rw [one_mul, one_mul, show A'.inC .N = A.label.t from sq.symm.trans e2]
    exact le_refl _)
  intro i hi j hj
  have := v i hi j hj
  rw [Nat.zero_add, show (A.ht + 2 * A.ht) * (a * truncs a A.ht) = luTruncs a A.ht by unfold luTruncs; ring] at this
  exact this

/-- **C37**, solution in user numbering with compressions of relative accuracy `ε`: the residual of the system of `op(K)` is at most
`((1 + ε) ^ K - 1) (‖A‖ + ‖L‖ ‖U‖)` times the sum of the absolute values of the solution. -/
theorem C37_solve_accuracy (hE : E.Acc ε) (hε : 0 ≤ ε) (hT : TrsmOK E) (hG : GetrfOK E) (hA : LUOperandA ad M a A) {f : ℕ} (hf : 2 * A.ht ≤ f)
    (hP : A.Pivots E f) {n : ℕ} (hn : A.label.t.sz = n) {perm : List ℕ} (hp : LocalPerm perm A.label.t.off n) {K : ℕ → ℕ → 𝕜}
    (hK : ∀ i < n, ∀ j < n, M (A.label.t.off + i) (A.label.t.off + j) = K (userIdx perm A.label.t.off i) (userIdx perm A.label.t.off j)) :
    ∃ A' L U, luH E f A = some A' ∧ TriRep .L true .full ad L A' ∧ TriRep .U false .full ad U A' ∧
      ∀ (tr : Trans) (X : Mat 𝕜) (mu g : ℕ), A.ht ≤ g → X.nr = n → X.nc = mu →
      ∃ Y, luSolveUser E g tr perm perm A' X = some Y ∧ Y.nr = n ∧ Y.nc = mu ∧ ∀ i < n, ∀ k < mu,
        ‖∑ l ∈ range n, opE tr K i l * Y.get l k - X.get i k‖ ≤
          ((1 + ε) ^ luTruncs a A.ht - 1) * (frobOn M A + frobOn L A' * frobOn U A') * ∑ l ∈ range n, ‖Y.get l k‖ := by
  obtain ⟨A', L, U, e1, e2, e3, e4, e5, e6, e7⟩ := C37_accuracy hE hε hT hG hA hf hP
  refine ⟨A', L, U, e1, e5, e6, fun tr X mu g hg h1 h2 => ?_⟩
  set δ : ℝ := ((1 + ε) ^ luTruncs a A.ht - 1) * (frobOn M A + frobOn L A' * frobOn U A') with hδ
  have es : A'.label.s = A.label.t := e3.trans hA.square.symm
  rw [← e2] at e7
  set N : ℕ → ℕ → 𝕜 := fun i j => ∑ l ∈ Ico A'.label.t.off A'.label.t.fin, L i l * U l j with hN
  obtain ⟨Z, z1, z2, z3, z4⟩ := luSolveH_spec hT hE.real tr (by omega : A'.ht ≤ g) e5 e6 (by rw [e2]; exact hA.top) (M := N) (fun _ _ _ _ => rfl) (n := n)
    (by rw [e2]; exact hn) (X := permIn perm A.label.t.off n X) (mu := mu) h1 h2
  refine ⟨permOut perm A.label.t.off n Z X, ?_, h1, h2, fun u hu k hk => ?_⟩
  · unfold luSolveUser
    rw [es, e2, hn, z1]
    rfl
  · obtain ⟨i, hi, rfl⟩ := userIdx_surj hp hu
    have key := z4 i hi k hk
    rw [permIn_get h1 hi (by omega)] at key
    rw [← key, ← sum_userIdx hp (fun l => opE tr K (userIdx perm A.label.t.off i) l * (permOut perm A.label.t.off n Z X).get l k),
      ← sum_userIdx hp (fun l => ‖(permOut perm A.label.t.off n Z X).get l k‖), ← sum_sub_distrib, mul_sum]
    refine (norm_sum_le _ _).trans (sum_le_sum fun l hl => ?_)
    have hl := mem_range.1 hl
    rw [permOut_get hp z2 h1 hl (by omega), ← sub_mul, norm_mul]
    refine mul_le_mul_of_nonneg_right ?_ (norm_nonneg _)
    have sz : A'.label.t.sz = n := by rw [e2]; exact hn
    have near : ∀ i < n, ∀ j < n, ‖K (userIdx perm A.label.t.off i) (userIdx perm A.label.t.off j) - rel N A'.label.t.off A'.label.t.off i j‖ ≤ δ := by
      intro i hi j hj
      rw [← hK i hi j hj, norm_sub_rev, ← e2]
      exact e7 _ (mem_Ico.2 (by unfold ClusterTree.fin; omega)) _ (mem_Ico.2 (by unfold ClusterTree.fin; omega))
    cases tr with
    | N => exact near i hi l hl
    | T => exact near l hl i hi
    | C =>
      show ‖star _ - star _‖ ≤ _
      rw [← star_sub, norm_star]
      exact near l hl i hi

end claims

section built
variable {D : Type*} {S : Strategies D G} {flog : ℕ → ℕ → ℕ} {fuel n nc : ℕ} {arg : PartArg} {t : CTree G} {st : CState G} {E : BEnv G} {lr : LRGen 𝕜}
  {dg : Option (DenseGen 𝕜)} {gen : ℕ → ℕ → 𝕜} {L : LinOps 𝕜}

/-- **C37**, from memory to solution, with the compressions of the library. An H-matrix without symmetry is built under any schedule with any compressor; `K`
is the matrix it represents, in user numbering. When `getrf` meets no singular block, `lu_factorization` ends with factors `lo`, `up`, and `lu_solve` gives, in
user numbering, a vector whose residual is at most `((1 + eps) ^ k - 1) (‖K‖ + ‖lo‖ ‖up‖)` times the sum of the absolute values of the solution. -/
theorem C37_built_accuracy (hS : Setting S flog fuel n nc arg t st E) (hN : E.sym = .N) (hp : arg.oneLevel flog nc) {T : ℕ} (hT : 0 < T) {fuel' : ℕ}
    {m m' : Mem 𝕜} {B' : Builder} {H : Tree ℕ} (h : BuildStep T E lr dg fuel' t t gen m Builder.empty m' B' H) {gesvd : Mat 𝕜 → SVDOut 𝕜}
    {geqrf gelqf : Mat 𝕜 → OrthOut 𝕜} {eps : ℝ} (hE : L.UsesSVD gesvd geqrf gelqf eps) (hl : LapackOK gesvd geqrf gelqf) (he : 0 ≤ eps)
    (hTr : TrsmOK L) (hG : GetrfOK L) {K : ℕ → ℕ → 𝕜} (hK : UserMat st.perm n (H.map m'.heap : HTree 𝕜) K)
    {F : FTree G 𝕜} (hF : InMemory E fuel' t m' H F) {f : ℕ} (hf : 2 * F.ht ≤ f) (hP : F.Pivots L f) :
    ∃ F' lo up, luH L f F = some F' ∧ TriRep .L true .full E.admC lo F' ∧ TriRep .U false .full E.admC up F' ∧
      ∀ (tr : Trans) (X : Mat 𝕜) (mu g : ℕ), F.ht ≤ g → X.nr = n → X.nc = mu →
      ∃ Y, luSolveUser L g tr st.perm st.perm F' X = some Y ∧ Y.nr = n ∧ Y.nc = mu ∧ ∀ i < n, ∀ k < mu,
        ‖∑ l ∈ range n, opE tr K i l * Y.get l k - X.get i k‖ ≤
          ((1 + eps) ^ luTruncs (max nc arg.count) F.ht - 1) * (frob n n (HTree.entry (H.map m'.heap : HTree 𝕜)) + frob n n lo * frob n n up) *
            ∑ l ∈ range n, ‖Y.get l k‖ := by
  obtain ⟨r1, r2, r3, -⟩ := (hS.view hT h).2 F hF
  obtain ⟨o1, o2, o3⟩ := clusterTree_off hS
  have hm : E.mask = .full := by unfold BEnv.mask; rw [if_pos hN]
  rw [hm] at r1
  have op : LUOperandA E.admC (HTree.entry (H.map m'.heap)) (max nc arg.count) F :=
    ⟨r1, r2.trans r3.symm, r2 ▸ hS.top, hS.admC, by rw [r2, hS.tct]; exact hS.built.arity hp⟩
  obtain ⟨F', lo, up, e1, e2, e3, e4⟩ := C37_solve_accuracy (hE.acc hl he) he hTr hG op hf hP (by rw [r2, o2]) (by rw [r2, o1]; exact hS.perm.2.2) (K := K)
    fun i hi j hj => by rw [r2, o1]; exact hK.rel hi hj
  have fr : ∀ (N : ℕ → ℕ → 𝕜) (X : FTree G 𝕜), X.label.t = F.label.t → X.label.s = F.label.s → frobOn N X = frob n n N := by
    intro N X h1 h2
    unfold frobOn
    rw [h1, h2, r2, r3, o1, o2]
    refine frob_congr fun i _ j _ => ?_
    unfold rel
    rw [Nat.zero_add, Nat.zero_add]
  obtain ⟨G1, -, -, g1, g2, g3, -⟩ := C37_accuracy (hE.acc hl he) he hTr hG op hf hP
  obtain rfl := Option.some.inj (g1.symm.trans e1)
  rw [fr _ F rfl rfl, fr _ G1 g2 g3, fr _ G1 g2 g3] at e4
  exact ⟨G1, lo, up, e1, e2, e3, e4⟩

end built

/-! ## The hypotheses can be met -/

omit [DecidableEq 𝕜] in
/-- Exact operations have every accuracy. -/
theorem LinOps.Exact.acc {E : LinOps 𝕜} (h : E.Exact) {ε : ℝ} (hε : 0 ≤ ε) : E.Acc ε := by
  have near : ∀ {L : LR 𝕜} {m n : ℕ} {F : ℕ → ℕ → 𝕜}, L.IsMat m n F → L.Near (ε * frob m n F) m n F := by
    intro L m n F hL
    refine ⟨hL.1, hL.2.1, hL.2.2.1, ?_⟩
    rw [frob_congr (g := fun _ _ => 0) fun i hi j hj => by rw [hL.2.2.2 i hi j hj, sub_self]]
    have z : frob m n (fun _ _ => (0 : 𝕜)) = 0 := by simp [frob]
    rw [z]
    exact mul_nonneg hε (frob_nonneg _ _ _)
  exact ⟨h.real, fun L hL _ _ _ => near (h.rc L _ _ _ ⟨hL, rfl, rfl, fun _ _ _ _ => rfl⟩), fun D old _ _ => near (h.cmp D old)⟩

/-- A block tree built by the library over 12 points with `min(i, j) + 1`: no block given to `getrf` is singular. -/
example : ∃ (E : LinOps ℂ) (A : FTree (List ℕ) ℂ) (perm : List ℕ), E.Acc (1 / 100) ∧ TrsmOK E ∧ GetrfOK E ∧
    LUOperandA (fun p q => p.iv ≠ q.iv) (fun i j => ((min i j + 1 : ℕ) : ℂ)) 2 A ∧ A.isHier = true ∧ 3 ≤ A.ht ∧ A.Pivots E (2 * A.ht) ∧
    A.label.t.sz = 12 ∧ LocalPerm perm A.label.t.off 12 := by
  obtain ⟨t, st, hr, hb⟩ := exBuild_built
  obtain ⟨E, -, hE, hE', hG⟩ := exact_lu_ops_exist ℂ true (by simp)
  have w := create_wf hb.strategies hb.hflog hb.hnc hb.harg hb.hpos hb.build hb.ranks
  have s := create_shape hb.strategies hb.hflog hb.hnc hb.harg hb.build
  have good : (exEnv t st none none .N .N).Good := ⟨w.1, w.2, s.2.2.2.2, w.1, w.2, s.2.2.2.2, rfl, rfl, rfl⟩
  have h1 : ∀ r ∈ exBuild, ∃ b ∈ buildBlockTree (exEnv r.1 r.2 none none .N .N) 100 r.1 r.1, 3 ≤ b.ht ∧ b.label.kind = .hier := by decide +kernel
  obtain ⟨b, hbb, hht, hk⟩ := h1 (t, st) hr
  have hbb : buildBlockTree (exEnv t st none none .N .N) 100 _ _ = some b := hbb
  have hm : (exEnv t st none none .N .N).mask = .full := rfl
  obtain ⟨A, a1, a2, a3, a4, a5, a6, -⟩ := rep_exists' good hbb (fun i j => ((min i j + 1 : ℕ) : ℂ)) (fun p q => p.iv ≠ q.iv)
  rw [hm] at a1
  have lp := localPerm_root hb.strategies hb.hflog hb.hnc hb.harg hb.build
  have o0 : A.label.t.off = 0 := by rw [a2]; exact lp.1
  have o1 : A.label.t.sz = 12 := by rw [a2]; exact lp.2.1
  have sq : A.label.t = A.label.s := a2.trans a3.symm
  have tp : A.label.t.Top := by rw [a2]; exact hb.clOK.2
  have hd : ∀ c : ClusterTree (List ℕ), ¬ (fun p q => p.iv ≠ q.iv) c c := fun c h => h rfl
  have ar : (clusterTreeOf t st).Arity 2 := hb.arity (Or.inr (show Nat.log 2 2 = 1 by decide))
  have ld : A.Lead (fun i j => ((min i j + 1 : ℕ) : ℂ)) := fun X _ _ => by rw [o0]; exact min_nonsing ℂ _
  refine ⟨E, A, st.perm, hE.acc (by norm_num), hE', hG, ⟨a1, sq, tp, hd, by rw [a2]; exact ar⟩, a6 hk, by omega,
    luH_pivots hE hE' hG hd _ A _ (le_refl _) a1 sq tp ld, o1, ?_⟩
  rw [o0]
  have := lp.2.2
  rw [lp.1, lp.2.1] at this
  exact this

end Htool
