import Verif.Props.MixedProd
import Verif.Props.HLinAcc

/-! # C60: accuracy of the mixed products into a low-rank matrix when the compressions are not exact

Specification: the result is compared in Frobenius norm (`frob`) with the exact matrix `alpha op(A) op(B) + beta C` (`prodE`), the compressions having a relative
error at most `ε` (`LinOps.Acc`), which is what the truncated decompositions of the library give (`LinOps.UsesSVD.acc`). -/

namespace Htool
open Finset
variable {G 𝕜 : Type*} [RCLike 𝕜] [DecidableEq 𝕜] {E : LinOps 𝕜} {ε : ℝ} {A B : FTree G 𝕜} {M : ℕ → ℕ → 𝕜} {σ : HSym}

/-- A product computed as a dense matrix, compressed, then added: two truncations. -/
theorem denseIntoLR_acc (hE : E.Acc ε) (hε : 0 ≤ ε) {AB : Mat 𝕜} {m n : ℕ} {F FC : ℕ → ℕ → 𝕜} (h : AB.Is m n F) (β : 𝕜) {C : LR 𝕜} (hC : C.IsMat m n FC)
    (hm : 0 < m) (hn : 0 < n) :
    (denseIntoLR E AB β C).Near (ε * (frob m n (fun i j => F i j + β * FC i j) + (1 + ε) * frob m n F)) m n (fun i j => F i j + β * FC i j) := by
  have c : ∀ old, (E.cmp AB old).Near (ε * frob m n F) m n F := by
    intro old
    have c := hE.cmp AB old (by rw [h.1]; exact hm) (by rw [h.2.1]; exact hn)
    rw [h.1, h.2.1, frob_congr h.2.2] at c
    exact c.congr h.2.2
  have nT := frob_nonneg m n (fun i j => F i j + β * FC i j)
  have nF := frob_nonneg m n F
  unfold denseIntoLR
  by_cases hz : β = 0 ∨ C.rank = 0
  · rw [if_pos hz]
    refine ((c C).congr fun i hi j hj => ?_).le ?_
    · rcases hz with hz | hz
      · rw [hz, zero_mul, add_zero]
      · rw [← hC.2.2.2 i hi j hj, entry_rank_zero hz, mul_zero, add_zero]
    · nlinarith [mul_nonneg hε nT, mul_nonneg hε (mul_nonneg hε nF)]
  · rw [if_neg hz]
    set W := E.cmp AB ⟨Mat.mk' 0 0 0, Mat.mk' 0 0 0⟩ with hW
    obtain ⟨c1, c2, c3, c4⟩ := c ⟨Mat.mk' 0 0 0, Mat.mk' 0 0 0⟩
    rw [← hW] at c1 c2 c3 c4
    have p := cat_prod (U1 := W.U) (V1 := W.V) (m := m) (n := n) (M := W.entry) (C := C) β ⟨c1, c2, c3, fun _ _ _ _ => rfl⟩ hC.1 hC.2.1 hC.2.2.1
    rw [hC.2.1, hC.2.2.1] at p
    have q : LR.Near ⟨W.U.hcat C.U, W.V.vcat (Mat.scale β C.V)⟩ (ε * frob m n F) m n (fun i j => F i j + β * FC i j) := by
      refine p.near_of (le_trans (le_of_eq (frob_congr fun i hi j hj => ?_)) c4)
      rw [hC.2.2.2 i hi j hj]
      ring
    have hr : 0 < LR.rank ⟨W.U.hcat C.U, W.V.vcat (Mat.scale β C.V)⟩ := by
      have : C.U.nc ≠ 0 := fun h => hz (Or.inr h)
      rw [hcat_rank]; omega
    obtain ⟨q1, q2, q3, q4⟩ := q
    obtain ⟨r1, r2, r3, r4⟩ := hE.rc _ q1 hr (by rw [q2]; exact hm) (by rw [q3]; exact hn)
    rw [q2] at r2 r4
    rw [q3] at r3 r4
    refine ⟨r1, r2, r3, ?_⟩
    set L : LR 𝕜 := ⟨W.U.hcat C.U, W.V.vcat (Mat.scale β C.V)⟩
    have t1 := frob_sub_le m n (E.rc L).entry L.entry (fun i j => F i j + β * FC i j)
    have t2 := frob_add_le m n (fun i j => L.entry i j - (F i j + β * FC i j)) (fun i j => F i j + β * FC i j)
    rw [frob_congr (g := L.entry) fun i _ j _ => by ring] at t2
    have t3 := mul_le_mul_of_nonneg_left (t2.trans (add_le_add q4 le_rfl)) hε
    nlinarith

/-- A product which is truncated at most once. -/
theorem near_once (hE : E.Acc ε) (hε : 0 ≤ ε) {X Y : LR 𝕜} {m n : ℕ} {F : ℕ → ℕ → 𝕜} (h : Y.IsMat m n F) (hm : 0 < m) (hn : 0 < n)
    (hX : X = Y ∨ (0 < Y.rank ∧ X = E.rc Y)) : X.Near (ε * frob m n F) m n F := by
  rcases hX with e | ⟨e1, e2⟩
  · rw [e]; exact h.near.le (mul_nonneg hε (frob_nonneg ..))
  · rw [e2]
    obtain ⟨r1, r2, r3, r4⟩ := hE.rc Y h.1 e1 (by rw [h.2.1]; exact hm) (by rw [h.2.2.1]; exact hn)
    rw [h.2.1] at r2 r4
    rw [h.2.2.1] at r3 r4
    refine ⟨r1, r2, r3, ?_⟩
    rw [frob_congr h.2.2.2] at r4
    exact le_trans (le_of_eq (frob_congr fun i hi j hj => by rw [h.2.2.2 i hi j hj])) r4

theorem hmLrLR_once (E : LinOps 𝕜) (ta tb : Trans) (α β : 𝕜) (A : FTree G 𝕜) (L C : LR 𝕜) :
    hmLrLR E ta tb α A L β C = hmLrLR E.noTrunc ta tb α A L β C ∨
      (0 < (hmLrLR E.noTrunc ta tb α A L β C).rank ∧ hmLrLR E ta tb α A L β C = E.rc (hmLrLR E.noTrunc ta tb α A L β C)) := by
  unfold hmLrLR
  by_cases h0 : L.rank ≠ 0
  · simp only [if_pos h0]
    by_cases hz : β = 0 ∨ C.rank = 0
    · simp only [if_pos hz]; exact Or.inl rfl
    · simp only [if_neg hz]
      refine Or.inr ⟨?_, rfl⟩
      have : C.U.nc ≠ 0 := fun h => hz (Or.inr h)
      show 0 < LR.rank ⟨Mat.hcat _ C.U, Mat.vcat _ _⟩
      rw [hcat_rank]; omega
  · simp only [if_neg h0]; exact Or.inl trivial

theorem lrHmLR_once (E : LinOps 𝕜) (ta tb : Trans) (α β : 𝕜) (L : LR 𝕜) (X : FTree G 𝕜) (C : LR 𝕜) :
    lrHmLR E ta tb α L X β C = lrHmLR E.noTrunc ta tb α L X β C ∨
      (0 < (lrHmLR E.noTrunc ta tb α L X β C).rank ∧ lrHmLR E ta tb α L X β C = E.rc (lrHmLR E.noTrunc ta tb α L X β C)) := by
  unfold lrHmLR
  by_cases h0 : L.rank ≠ 0
  · simp only [if_pos h0]
    by_cases hz : β = 0 ∨ C.rank = 0
    · simp only [if_pos hz]; exact Or.inl rfl
    · simp only [if_neg hz]
      refine Or.inr ⟨?_, rfl⟩
      have : C.U.nc ≠ 0 := fun h => hz (Or.inr h)
      by_cases hta : ta = .N
      · simp only [if_pos hta]
        show 0 < LR.rank ⟨Mat.hcat _ C.U, Mat.vcat _ _⟩
        rw [hcat_rank]; omega
      · simp only [if_neg hta]
        show 0 < LR.rank ⟨Mat.hcat _ C.U, Mat.vcat _ _⟩
        rw [hcat_rank]; omega
  · simp only [if_neg h0]; exact Or.inl trivial

/-- **C60**, accuracy of `C := alpha op(A) op(B) + beta C` for an H-matrix `A` (any storage), a dense `B` and a low-rank `C`: with compressions of relative accuracy
`ε` the error is at most `ε (‖alpha op(A) op(B) + beta C‖ + (1 + ε) ‖alpha op(A) op(B)‖)`. -/
theorem C60_hmatrix_matrix_lowrank_accuracy (hE : E.Acc ε) (hε : 0 ≤ ε) (hA : A.toH.Fit E.cplx σ) (hM : A.toH.Represents M) (ta tb : Trans)
    (hs : Supported 𝕜 σ ta) (α β : 𝕜) {B : Mat 𝕜} {C : LR 𝕜} {FC : ℕ → ℕ → 𝕜} {m n k : ℕ} (hm : opRows ta A.label.t.sz A.label.s.sz = m)
    (hn : opCols tb B.nr B.nc = n) (hk : opCols ta A.label.t.sz A.label.s.sz = k) (hin : opRows tb B.nr B.nc = k) (m0 : 0 < m) (n0 : 0 < n) (hC : C.IsMat m n FC) :
    (hmMatLR E ta tb α A B β C).Near
      (ε * (frob m n (prodE ta tb α (rel M A.label.t.off A.label.s.off) B.get k β FC) +
        (1 + ε) * frob m n (prodE ta tb α (rel M A.label.t.off A.label.s.off) B.get k 0 FC))) m n
      (prodE ta tb α (rel M A.label.t.off A.label.s.off) B.get k β FC) := by
  subst hm hn hk
  have w := hmMat_gen (Fit.rmop hE.real hA hM hs) tb α 0 (B := B) (C := Mat.mk' (opRows ta A.label.t.sz A.label.s.sz) (opCols tb B.nr B.nc) 0) hin.symm rfl rfl
  have r := denseIntoLR_acc hE hε (w.congr (F' := prodE ta tb α (rel M A.label.t.off A.label.s.off) B.get (opCols ta A.label.t.sz A.label.s.sz) 0 FC)
    fun i hi j hj => by unfold prodE; rw [zero_mul, zero_mul]) β hC m0 n0
  have e : ∀ i j, prodE ta tb α (rel M A.label.t.off A.label.s.off) B.get (opCols ta A.label.t.sz A.label.s.sz) 0 FC i j + β * FC i j =
      prodE ta tb α (rel M A.label.t.off A.label.s.off) B.get (opCols ta A.label.t.sz A.label.s.sz) β FC i j := fun i j => by unfold prodE; rw [zero_mul, add_zero]
  rw [frob_congr fun i _ j _ => e i j] at r
  exact r.congr fun i _ j _ => e i j

/-- **C60**, accuracy with a dense `A` and an H-matrix `B`. Missing: the combinations excluded by `RightOK`. -/
theorem C60_matrix_hmatrix_lowrank_accuracy_partial (hE : E.Acc ε) (hε : 0 ≤ ε) (hB : B.toH.Fit E.cplx σ) (hM : B.toH.Represents M) {ta tb : Trans}
    (ok : RightOK B M σ ta tb) (α β : 𝕜) {A : Mat 𝕜} {C : LR 𝕜} {FC : ℕ → ℕ → 𝕜} {m n k : ℕ} (hm : opRows ta A.nr A.nc = m)
    (hn : opCols tb B.label.t.sz B.label.s.sz = n) (hk : opCols ta A.nr A.nc = k) (hin : opRows tb B.label.t.sz B.label.s.sz = k) (m0 : 0 < m) (n0 : 0 < n)
    (hC : C.IsMat m n FC) :
    (matHmLR E ta tb α A B β C).Near
      (ε * (frob m n (prodE ta tb α A.get (rel M B.label.t.off B.label.s.off) k β FC) +
        (1 + ε) * frob m n (prodE ta tb α A.get (rel M B.label.t.off B.label.s.off) k 0 FC))) m n
      (prodE ta tb α A.get (rel M B.label.t.off B.label.s.off) k β FC) := by
  subst hm hn hk
  have w := matHm_gen (Fit.mhop hE.real hB hM ok) α 0 (A := A) (C := Mat.mk' (opRows ta A.nr A.nc) (opCols tb B.label.t.sz B.label.s.sz) 0) hin.symm rfl rfl
  have r := denseIntoLR_acc hE hε (w.congr (F' := prodE ta tb α A.get (rel M B.label.t.off B.label.s.off) (opCols ta A.nr A.nc) 0 FC)
    fun i hi j hj => by unfold prodE; rw [zero_mul, zero_mul]) β hC m0 n0
  have e : ∀ i j, prodE ta tb α A.get (rel M B.label.t.off B.label.s.off) (opCols ta A.nr A.nc) 0 FC i j + β * FC i j =
      prodE ta tb α A.get (rel M B.label.t.off B.label.s.off) (opCols ta A.nr A.nc) β FC i j := fun i j => by unfold prodE; rw [zero_mul, add_zero]
  rw [frob_congr fun i _ j _ => e i j] at r
  exact r.congr fun i _ j _ => e i j

/-- **C60**, accuracy with an H-matrix `A` and low-rank `B` and `C`: one truncation. Missing: a rank 0 `B` with `beta ≠ 1`. -/
theorem C60_hmatrix_lrmat_lowrank_accuracy_partial (hE : E.Acc ε) (hε : 0 ≤ ε) (hA : A.toH.Fit E.cplx σ) (hM : A.toH.Represents M) (ta tb : Trans)
    (hs : Supported 𝕜 σ ta) (α β : 𝕜) {B : LR 𝕜} (hB : B.WF) {C : LR 𝕜} {FC : ℕ → ℕ → 𝕜} (hr0 : B.rank ≠ 0 ∨ β = 1) {m n k : ℕ}
    (hm : opRows ta A.label.t.sz A.label.s.sz = m) (hn : opCols tb B.nr B.nc = n) (hk : opCols ta A.label.t.sz A.label.s.sz = k) (hin : opRows tb B.nr B.nc = k)
    (m0 : 0 < m) (n0 : 0 < n) (hC : C.IsMat m n FC) :
    (hmLrLR E ta tb α A B β C).Near (ε * frob m n (prodE ta tb α (rel M A.label.t.off A.label.s.off) B.entry k β FC)) m n
      (prodE ta tb α (rel M A.label.t.off A.label.s.off) B.entry k β FC) := by
  subst hm hn hk
  exact near_once hE hε (C60_hmatrix_lrmat_lowrank_product_partial (LinOps.noTrunc_exact hE.real) hA hM ta tb hs α β hB hr0 hin.symm hC) m0 n0
    (hmLrLR_once E ta tb α β A B C)

/-- **C60**, accuracy with low-rank `A` and `C` and an H-matrix `B`: one truncation. Missing: the combinations excluded by `RightOK`, and a rank 0 `A` with
`beta ≠ 1`. -/
theorem C60_lrmat_hmatrix_lowrank_accuracy_partial (hE : E.Acc ε) (hε : 0 ≤ ε) (hB : B.toH.Fit E.cplx σ) (hM : B.toH.Represents M) {ta tb : Trans}
    (ok : RightOK B M σ ta tb) (α β : 𝕜) {A : LR 𝕜} (hA : A.WF) {C : LR 𝕜} {FC : ℕ → ℕ → 𝕜} (hr0 : A.rank ≠ 0 ∨ β = 1) {m n k : ℕ}
    (hm : opRows ta A.nr A.nc = m) (hn : opCols tb B.label.t.sz B.label.s.sz = n) (hk : opCols ta A.nr A.nc = k)
    (hin : opRows tb B.label.t.sz B.label.s.sz = k) (m0 : 0 < m) (n0 : 0 < n) (hC : C.IsMat m n FC) :
    (lrHmLR E ta tb α A B β C).Near (ε * frob m n (prodE ta tb α A.entry (rel M B.label.t.off B.label.s.off) k β FC)) m n
      (prodE ta tb α A.entry (rel M B.label.t.off B.label.s.off) k β FC) := by
  subst hm hn hk
  exact near_once hE hε (C60_lrmat_hmatrix_lowrank_product_partial (LinOps.noTrunc_exact hE.real) hB hM ok α β hA hr0 hin.symm hC) m0 n0
    (lrHmLR_once E ta tb α β A B C)

end Htool
