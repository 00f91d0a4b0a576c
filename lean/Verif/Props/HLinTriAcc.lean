import Verif.HLinTriAcc3
import Verif.Props.HLinSolve
import Verif.Props.BlockTree

/-! # C36: accuracy of triangular solves whose right-hand side is an H-matrix, when the low-rank compressions are not exact

Specification: the solution `X` stored is put back in the system; the entries of the residual `op(T) X - alpha B` are compared with the norms of `alpha B`, `T` and `X`.
Solves with dense or low-rank right-hand sides compress nothing: `C36_dense_left` ... are exact. -/

namespace Htool
variable {D G 𝕜 : Type*} [RCLike 𝕜] [DecidableEq 𝕜]
open Finset

section claims
variable {E : LinOps 𝕜} {ε : ℝ} {u : UploType} {unit : Bool} {m : Mask} {ad adB : ClusterTree G → ClusterTree G → Prop} {M MB : ℕ → ℕ → 𝕜} {A B : FTree G 𝕜}
  {a : ℕ}

/-- Number of compressions an entry goes through in a triangular solve: `a` clusters in one division, blocks of heights `hA` and `hB`. -/
def solveTruncs (a hA hB : ℕ) : ℕ := (hA + hB) * (a * truncs a (max hA hB + 1))

/-- The scaled solve, and a majorant for its residual. -/
theorem triHH_near_scaled (hE : E.Acc ε) (hε : 0 ≤ ε) (hT : TrsmOK E) (side : Side) (tr : Trans) (hA : TriOperand u unit m ad M A) (α : 𝕜)
    (hB : Rep .full adB MB B) (own : B.own side = A.label.t) (htop : (B.oth side).Top) (hr : A.isHier = true ∨ 0 ≤ (B.oth side).rk)
    (aA : A.label.t.Arity a) (aB : (B.oth side).Arity a) {f : ℕ} (hf : A.ht + B.ht ≤ f) :
    ∃ B' x, triHH E f side u tr unit α A B = some B' ∧ Rep .full adB (sv side x) B' ∧ B'.label.t = B.label.t ∧ B'.label.s = B.label.s ∧
      ∀ (W : ℕ → ℕ → ℝ) (Bd : ℝ), Maj W Bd →
        (∀ i ∈ Ico A.label.t.off A.label.t.fin, ∀ j ∈ Ico (B.oth side).off (B.oth side).fin,
          ‖α * sv side MB i j‖ + ∑ l ∈ Ico A.label.t.off A.label.t.fin, ‖tv side tr (tri u unit M) i l‖ * ‖x l j‖ ≤ sv side W i j) →
        ∀ i ∈ Ico A.label.t.off A.label.t.fin, ∀ j ∈ Ico (B.oth side).off (B.oth side).fin,
          ‖∑ l ∈ Ico A.label.t.off A.label.t.fin, tv side tr (tri u unit M) i l * x l j - α * sv side MB i j‖ ≤ accErr ε Bd (solveTruncs a A.ht B.ht) := by
  have key : ∀ (Bs : FTree G 𝕜), Rep .full adB (fun i j => α * MB i j) Bs → Bs.label.t = B.label.t → Bs.label.s = B.label.s → Bs.ht = B.ht →
      triHH E f side u tr unit α A B = triHH E f side u tr unit 1 A Bs →
      ∃ B' x, triHH E f side u tr unit α A B = some B' ∧ Rep .full adB (sv side x) B' ∧ B'.label.t = B.label.t ∧ B'.label.s = B.label.s ∧
      ∀ (W : ℕ → ℕ → ℝ) (Bd : ℝ), Maj W Bd →
        (∀ i ∈ Ico A.label.t.off A.label.t.fin, ∀ j ∈ Ico (B.oth side).off (B.oth side).fin,
          ‖α * sv side MB i j‖ + ∑ l ∈ Ico A.label.t.off A.label.t.fin, ‖tv side tr (tri u unit M) i l‖ * ‖x l j‖ ≤ sv side W i j) →
        ∀ i ∈ Ico A.label.t.off A.label.t.fin, ∀ j ∈ Ico (B.oth side).off (B.oth side).fin,
          ‖∑ l ∈ Ico A.label.t.off A.label.t.fin, tv side tr (tri u unit M) i l * x l j - α * sv side MB i j‖ ≤
            accErr ε Bd (solveTruncs a A.ht B.ht) := by
    intro Bs hBs l1 l2 l3 e
    have own' : Bs.own side = A.label.t := by rw [← own]; unfold FTree.own; rw [l1, l2]
    have oth' : Bs.oth side = B.oth side := by unfold FTree.oth; rw [l1, l2]
    obtain ⟨B', x, e1, e2, e3, e4, e5, e6⟩ := triHH_near (a := a) (hm := max A.ht B.ht + 1) (adB := adB) hE hε hT side tr f (A.ht + B.ht) hf A Bs _
      (by rw [l3]) (by omega) (by omega) aA (by rw [oth']; exact aB) hA.triRep hBs hA.top (by rw [oth']; exact htop) own' (by rw [oth']; exact hr)
    have hs : ∀ i j, sv side (fun i j => α * MB i j) i j = α * sv side MB i j := fun i j => by cases side <;> rfl
    refine ⟨B', x, e.trans e1, e2, e3.trans l1, e4.trans l2, fun W Bd hW hd => ?_⟩
    have v := e6 W Bd 0 (sv side (fun i j => α * MB i j)) hW (by rw [accErr_zero, sv_sv]; exact hBs.near)
    rw [oth'] at v
    simp only [hs, Nat.zero_add] at v
    exact v hd
  obtain ⟨f, rfl⟩ : ∃ g, f = g + 1 := ⟨f - 1, by have := Tree.ht_pos A; omega⟩
  by_cases hα : α = 1
  · refine key B (Rep.congr hB fun i j _ _ => by rw [hα, one_mul]) rfl rfl rfl (by rw [hα])
  · have s := fscale_same α B
    refine key _ (hB.fscale α) s.1 s.2.1 s.2.2.1 ?_
    rw [triHH, triHH, if_neg hα, if_pos rfl]

/-- **C36**, hierarchical right-hand side, `op(T) X = alpha B`, with compressions of relative accuracy `ε`: the entries of the residual are at most
`((1 + ε) ^ K - 1) (‖alpha‖ ‖B‖ + ‖T‖ ‖X‖)` (Frobenius norms), `K` depending only on the heights of the matrices and on the number of clusters in one division. -/
theorem C36_accuracy_left (hE : E.Acc ε) (hε : 0 ≤ ε) (hT : TrsmOK E) (tr : Trans) (hA : TriOperand u unit m ad M A) (α : 𝕜) (hB : Rep .full adB MB B)
    (ht : B.label.t = A.label.t) (htop : B.label.s.Top) (hr : A.isHier = true ∨ 0 ≤ B.label.s.rk) (aA : A.label.t.Arity a) (aB : B.label.s.Arity a)
    {f : ℕ} (hf : A.ht + B.ht ≤ f) :
    ∃ B' X, triHH E f .L u tr unit α A B = some B' ∧ B'.label.t = B.label.t ∧ B'.label.s = B.label.s ∧ Rep .full adB X B' ∧
      ∀ i ∈ Ico B.label.t.off B.label.t.fin, ∀ k ∈ Ico B.label.s.off B.label.s.fin,
        ‖∑ l ∈ Ico B.label.t.off B.label.t.fin, opE tr (tri u unit M) i l * X l k - α * MB i k‖ ≤
          ((1 + ε) ^ solveTruncs a A.ht B.ht - 1) * (‖α‖ * frobOn MB B + frobOn (tri u unit M) A * frobOn X B') := by
  obtain ⟨B', X, e1, e2, e3, e4, e5⟩ := triHH_near_scaled hE hε hT .L tr hA α hB ht htop hr aA aB hf
  refine ⟨B', X, e1, e3, e4, e2, ?_⟩
  have hin : A.inC tr = A.label.t := (hA.triRep.label_t tr).2
  have hout : A.outC tr = A.label.t := (hA.triRep.label_t tr).1
  have hW := maj_product tr .N (1 : 𝕜) α (tri u unit M) X MB (A := A) (X := B') (C := B) (hin.trans (by rw [← ht]; exact e3.symm)) (ht.trans hout.symm) e4.symm
  rw [norm_one, one_mul] at hW
  rw [ht]
  refine e5 _ _ hW fun i hi j hj => ?_
  have hi' := mem_Ico.1 hi
  have hj' := mem_Ico.1 hj
  refine le_of_le_of_eq ?_ (if_pos (show (B.label.t.off ≤ i ∧ i < B.label.t.off + B.label.t.sz) ∧ B.label.s.off ≤ j ∧ j < B.label.s.off + B.label.s.sz from
    ⟨by rw [ht]; exact hi', hj'⟩)).symm
  rw [one_mul, hin]
  exact le_refl _

/-- **C36**, hierarchical right-hand side, `X op(T) = alpha B`, with compressions of relative accuracy `ε`. -/
theorem C36_accuracy_right (hE : E.Acc ε) (hε : 0 ≤ ε) (hT : TrsmOK E) (tr : Trans) (hA : TriOperand u unit m ad M A) (α : 𝕜) (hB : Rep .full adB MB B)
    (ht : B.label.s = A.label.t) (htop : B.label.t.Top) (hr : A.isHier = true ∨ 0 ≤ B.label.t.rk) (aA : A.label.t.Arity a) (aB : B.label.t.Arity a)
    {f : ℕ} (hf : A.ht + B.ht ≤ f) :
    ∃ B' X, triHH E f .R u tr unit α A B = some B' ∧ B'.label.t = B.label.t ∧ B'.label.s = B.label.s ∧ Rep .full adB X B' ∧
      ∀ k ∈ Ico B.label.t.off B.label.t.fin, ∀ j ∈ Ico B.label.s.off B.label.s.fin,
        ‖∑ l ∈ Ico B.label.s.off B.label.s.fin, X k l * opE tr (tri u unit M) l j - α * MB k j‖ ≤
          ((1 + ε) ^ solveTruncs a A.ht B.ht - 1) * (‖α‖ * frobOn MB B + frobOn X B' * frobOn (tri u unit M) A) := by
  obtain ⟨B', x, e1, e2, e3, e4, e5⟩ := triHH_near_scaled hE hε hT .R tr hA α hB ht htop hr aA aB hf
  refine ⟨B', sv .R x, e1, e3, e4, e2, ?_⟩
  have hin : A.inC tr = A.label.t := (hA.triRep.label_t tr).2
  have hout : A.outC tr = A.label.t := (hA.triRep.label_t tr).1
  have hW := maj_product .N tr (1 : 𝕜) α (sv .R x) (tri u unit M) MB (A := B') (X := A) (C := B) (by rw [hout, ← ht]; exact e4) e3.symm (ht.trans hin.symm)
  rw [norm_one, one_mul] at hW
  intro k hk j hj
  rw [ht] at hj ⊢
  have v := e5 _ _ hW (fun i hi j hj => by
    have hi' := mem_Ico.1 hi
    have hj' := mem_Ico.1 hj
    refine le_of_le_of_eq ?_ (if_pos (show (B.label.t.off ≤ j ∧ j < B.label.t.off + B.label.t.sz) ∧ B.label.s.off ≤ i ∧ i < B.label.s.off + B.label.s.sz from
      ⟨hj', by rw [ht]; exact hi'⟩)).symm
    rw [one_mul]
    have hinB : B'.inC .N = A.label.t := e4.trans ht
    rw [hinB]
    refine add_le_add (le_refl _) (le_of_eq ?_)
    exact sum_congr rfl fun l _ => mul_comm _ _) j hj k hk
  refine le_trans (le_of_eq ?_) v
  congr 1
  show _ = ∑ l ∈ _, opE tr (tri u unit M) l j * x l k - α * MB k j
  congr 1
  exact sum_congr rfl fun l _ => mul_comm _ _

end claims

omit [DecidableEq 𝕜] in
/-- The compressions of the library and an exact `trsm` exist together, with any factorizations of the dense blocks. -/
theorem svd_solve_ops_exist (cplx : Bool) (hr : cplx = false → RealType 𝕜) (eps : ℝ) (getrf : Mat 𝕜 → Mat 𝕜 × List ℕ) (potrf : UploType → Mat 𝕜 → Mat 𝕜) :
    ∃ (gesvd : Mat 𝕜 → SVDOut 𝕜) (geqrf gelqf : Mat 𝕜 → OrthOut 𝕜) (L : LinOps 𝕜), LapackOK gesvd geqrf gelqf ∧ L.UsesSVD gesvd geqrf gelqf eps ∧
      TrsmOK L ∧ L.getrf = getrf ∧ L.potrf = potrf := by
  obtain ⟨gesvd, geqrf, gelqf, h⟩ := exists_lapack 𝕜
  have ex := fun side u tr unit α A B => trsm_exists (R := 𝕜) side u tr unit α A B
  choose X hX using ex
  exact ⟨gesvd, geqrf, gelqf, ⟨cplx, recompress gesvd geqrf gelqf eps, svdFactors gesvd eps, getrf, potrf, X⟩, h, ⟨hr, fun _ => rfl, fun _ _ => rfl⟩,
    fun side u tr unit α A B n m _ h1 h2 h3 h4 => hX side u tr unit α A B n m h1 h2 h3 h4, rfl, rfl⟩

/-- A block tree built by the library over 12 points, filled with any two matrices, the first with ones on the diagonal; tolerance 1/100. -/
example (M MB : ℕ → ℕ → ℂ) (hM : ∀ i, M i i = 1) : ∃ (E : LinOps ℂ) (A B : FTree (List ℕ) ℂ), E.Acc (1 / 100) ∧ TrsmOK E ∧
    TriOperand .U false .full (fun p q => p.iv ≠ q.iv) M A ∧ Rep .full (fun _ _ => True) MB B ∧ B.label.t = A.label.t ∧ B.label.s.Top ∧
    A.isHier = true ∧ A.label.t.Arity 2 ∧ B.label.s.Arity 2 ∧ 5 ≤ A.ht + B.ht := by
  obtain ⟨t, st, hr, hb⟩ := exBuild_built
  obtain ⟨gesvd, geqrf, gelqf, E, hl, hE, hE', -⟩ := svd_solve_ops_exist (𝕜 := ℂ) true (by simp) (1 / 100) (fun D => (D, [])) (fun _ D => D)
  have w := create_wf hb.strategies hb.hflog hb.hnc hb.harg hb.hpos hb.build hb.ranks
  have s := create_shape hb.strategies hb.hflog hb.hnc hb.harg hb.build
  have good : (exEnv t st none none .N .N).Good := ⟨w.1, w.2, s.2.2.2.2, w.1, w.2, s.2.2.2.2, rfl, rfl, rfl⟩
  have h1 : ∀ r ∈ exBuild, ∃ b ∈ buildBlockTree (exEnv r.1 r.2 none none .N .N) 100 r.1 r.1, 3 ≤ b.ht ∧ b.label.kind = .hier := by decide +kernel
  obtain ⟨b, hbb, hht, hk⟩ := h1 (t, st) hr
  have hbb : buildBlockTree (exEnv t st none none .N .N) 100 _ _ = some b := hbb
  have hm : (exEnv t st none none .N .N).mask = .full := rfl
  obtain ⟨A, a1, a2, a3, a4, a5, a6, -⟩ := rep_exists' good hbb M (fun p q => p.iv ≠ q.iv)
  obtain ⟨B, b1, b2, b3, b4, -⟩ := rep_exists' good hbb MB (fun _ _ => True)
  have ar : (clusterTreeOf t st).Arity 2 := hb.arity (Or.inr (show Nat.log 2 2 = 1 by decide))
  rw [hm] at a1 b1
  refine ⟨E, A, B, hE.acc hl (by norm_num), hE', ⟨a1, by simp, Or.inl rfl, a2.trans a3.symm, by rw [a2]; exact hb.clOK.2, fun c h => h rfl, a5, fun _ i _ => by rw [hM]; exact isUnit_one⟩,
    b1, b2.trans a2.symm, by rw [b3]; exact hb.clOK.2, a6 hk, by rw [a2]; exact ar, by rw [b3]; exact ar, by omega⟩

/-- Constants for matrices of height 2 whose clusters have two children. -/
example : solveTruncs 2 1 1 = 2 * (2 * 255) := by decide

end Htool
