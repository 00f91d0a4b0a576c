import Verif.LowRank
import Verif.Props.Dense

/-! # C28 and C32: low-rank products and sums -/

namespace Htool
open Finset
variable {R : Type*} [CommRing R]

/-! ## Specification -/

/-- Entry of the matrix `U V` represented by a low-rank matrix. -/
def LR.entry (A : LR R) (i j : ℕ) : R := ∑ l ∈ range A.rank, A.U.get i l * A.V.get l j

/-- Sizes of the represented matrix. -/
def LR.nr (A : LR R) : ℕ := A.U.nr
def LR.nc (A : LR R) : ℕ := A.V.nc

/-- The factors fit together. -/
def LR.WF (A : LR R) : Prop := A.V.nr = A.U.nc

/-- `A` is a well-formed low-rank matrix with the sizes and entries of the `m × n` matrix `M`. -/
def LR.IsMat (A : LR R) (m n : ℕ) (M : ℕ → ℕ → R) : Prop :=
  A.WF ∧ A.nr = m ∧ A.nc = n ∧ ∀ i < m, ∀ j < n, A.entry i j = M i j

/-- Sizes of `op(A)`, `op(B)` and `C` in `op(A) op(B) + C`, given the sizes of `A`, `B`, `C`. -/
structure ConformSz (ta tb : Trans) (ar ac br bc cr cc : ℕ) : Prop where
  rows : cr = opRows ta ar ac
  cols : cc = opCols tb br bc
  inner : opCols ta ar ac = opRows tb br bc

variable [StarRing R]

/-- Entry of `alpha op(A) op(B) + beta C`. -/
def prodE (ta tb : Trans) (α : R) (A B : ℕ → ℕ → R) (k : ℕ) (β : R) (C : ℕ → ℕ → R) (i j : ℕ) : R :=
  α * (∑ l ∈ range k, opE ta A i l * opE tb B l j) + β * C i j

/-! ## Lemmas -/

omit [StarRing R] in
theorem copyTo_in {n : ℕ} {src : Buf R} {so : ℕ} {dst : Buf R} {d p : ℕ} (h : d ≤ p ∧ p < d + n) : copyTo n src so dst d p = src (so + (p - d)) := if_pos h

omit [StarRing R] in
theorem copyTo_out {n : ℕ} {src : Buf R} {so : ℕ} {dst : Buf R} {d p : ℕ} (h : ¬ (d ≤ p ∧ p < d + n)) : copyTo n src so dst d p = dst p := if_neg h

omit [StarRing R] in
theorem hcat_get (A B : Mat R) (h : B.nr = A.nr) {i j : ℕ} (hi : i < A.nr) (hj : j < A.nc + B.nc) :
    (A.hcat B).get i j = if j < A.nc then A.get i j else B.get i (j - A.nc) := by
  show copyTo (B.nr * B.nc) B.data 0 (copyTo (A.nr * A.nc) A.data 0 _ 0) (A.nr * A.nc) (i + j * A.nr) = _
  by_cases hc : j < A.nc
  · have := mat_idx_lt hi hc
    rw [if_pos hc, copyTo_out (by omega), copyTo_in (by omega)]
    show A.data _ = A.data _
    congr 1; omega
  · obtain ⟨k, rfl⟩ := Nat.exists_eq_add_of_le (Nat.le_of_not_lt hc)
    have h1 : i + (A.nc + k) * A.nr = A.nr * A.nc + (i + k * A.nr) := by ring
    have h2 : i + k * A.nr < B.nr * B.nc := by rw [h]; exact mat_idx_lt hi (by omega)
    rw [if_neg hc, h1, copyTo_in (by omega), Nat.add_sub_cancel_left]
    show B.data _ = B.data _
    rw [h, Nat.add_sub_cancel_left, Nat.zero_add]

omit [StarRing R] in
theorem vcat_get (A B : Mat R) {i j : ℕ} (hi : i < A.nr + B.nr) (hj : j < B.nc) :
    (A.vcat B).get i j = if i < A.nr then A.get i j else B.get (i - A.nr) j := by
  have key : ∀ n (d : Buf R), ∀ j < n, (List.range n).foldl (fun d j => copyTo B.nr B.data (j * B.nr)
      (copyTo A.nr A.data (j * A.nr) d (j * (A.nr + B.nr))) (j * (A.nr + B.nr) + A.nr)) d (i + j * (A.nr + B.nr)) =
      if i < A.nr then A.get i j else B.get (i - A.nr) j := by
    intro n d
    induction n with
    | zero => intro j hj; omega
    | succ n ih =>
      intro j hj
      rw [List.range_succ, List.foldl_append]
      simp only [List.foldl_cons, List.foldl_nil]
      by_cases e : j = n
      · subst e
        by_cases hc : i < A.nr
        · rw [if_pos hc, copyTo_out (by omega), copyTo_in (by omega)]
          show A.data _ = A.data _
          congr 1; omega
        · rw [if_neg hc, copyTo_in (by omega)]
          show B.data _ = B.data _
          congr 1; omega
      · have hlt : (j + 1) * (A.nr + B.nr) ≤ n * (A.nr + B.nr) := Nat.mul_le_mul_right _ (by omega)
        rw [Nat.add_mul] at hlt
        rw [copyTo_out (by omega), copyTo_out (by omega), ih j (by omega)]
  exact key B.nc _ j hj

omit [StarRing R] in
theorem scale_get (a : R) (A : Mat R) {i j : ℕ} (hi : i < A.nr) (hj : j < A.nc) : (Mat.scale a A).get i j = a * A.get i j := by
  have := mat_idx_lt hi hj
  show (if i + j * A.nr < A.nc * A.nr then _ else _) = _
  rw [if_pos (by rwa [Nat.mul_comm A.nc])]; rfl

theorem opT_get (tr : Trans) (htr : tr ≠ .N) (A : Mat R) : (Mat.opT tr A).nr = A.nc ∧ (Mat.opT tr A).nc = A.nr ∧
    ∀ i < A.nc, ∀ j < A.nr, (Mat.opT tr A).get i j = opE tr A.get i j := by
  have ht := C33_transpose A (Mat.mk' A.nc A.nr 0) rfl
  cases tr with
  | N => exact absurd rfl htr
  | T =>
    refine ⟨ht.1, ht.2.1, fun i hi j hj => ?_⟩
    exact ht.2.2 j hj i hi
  | C =>
    refine ⟨ht.1, ht.2.1, fun i hi j hj => ?_⟩
    have h1 := ht.2.2 j hj i hi
    have hnr : (Mat.transpose A (Mat.mk' A.nc A.nr 0)).nr = A.nc := ht.1
    have hnc : (Mat.transpose A (Mat.mk' A.nc A.nr 0)).nc = A.nr := ht.2.1
    show conjBuf _ (Mat.transpose A (Mat.mk' A.nc A.nr 0)).data (i + j * (Mat.transpose A (Mat.mk' A.nc A.nr 0)).nr) = _
    unfold conjBuf
    rw [if_pos (mat_idx_lt (by rw [hnr]; exact hi) (by rw [hnc]; exact hj))]
    exact congrArg star h1

/-- Entries of `op(U V)` for a transposition. -/
theorem opE_entry {tr : Trans} (htr : tr ≠ .N) (A : LR R) (i j : ℕ) :
    opE tr A.entry i j = ∑ l ∈ range A.rank, opE tr A.V.get i l * opE tr A.U.get l j := by
  cases tr with
  | N => exact absurd rfl htr
  | T =>
    show ∑ l ∈ range A.rank, A.U.get j l * A.V.get l i = _
    exact sum_congr rfl fun l _ => mul_comm (A.U.get j l) (A.V.get l i)
  | C =>
    show star (∑ l ∈ range A.rank, _) = _
    rw [star_sum]
    exact sum_congr rfl fun l _ => by rw [star_mul']; exact mul_comm _ _

omit [StarRing R] in
theorem opE_entry_N [StarRing R] (A : LR R) (i j : ℕ) : opE .N A.entry i j = ∑ l ∈ range A.rank, A.U.get i l * A.V.get l j := rfl

omit [StarRing R] in
theorem sum_swap (f : ℕ → R) (g : ℕ → ℕ → R) (h : ℕ → R) (n m : ℕ) :
    ∑ l ∈ range n, f l * ∑ k ∈ range m, g l k * h k = ∑ k ∈ range m, (∑ l ∈ range n, f l * g l k) * h k := by
  simp_rw [mul_sum, sum_mul]
  rw [sum_comm]
  exact sum_congr rfl fun k _ => sum_congr rfl fun l _ => by ring

/-- The product of two matrices into a new matrix. -/
theorem addMM_zero (ta tb : Trans) (α : R) (A B C : Mat R) (h : Conform ta tb A B C) {i j : ℕ} (hi : i < C.nr) (hj : j < C.nc) :
    (Mat.addMM ta tb α A B 0 C).get i j = α * ∑ l ∈ range (opCols ta A.nr A.nc), opE ta A.get i l * opE tb B.get l j := by
  rw [(C35_matrix_matrix_product ta tb α A B 0 C h).2.2.1 i hi j hj]; ring

theorem opE_N (M : ℕ → ℕ → R) (i j : ℕ) : opE .N M i j = M i j := rfl

/-! ## C28: products -/

/-- `op(UV) op(B)` with a dense result, for a positive rank. -/
theorem mulMat_spec (ta tb : Trans) (α : R) (A : LR R) (B : Mat R) (β : R) (C : Mat R) (hA : A.WF) (hr : A.rank ≠ 0)
    (h : ConformSz ta tb A.nr A.nc B.nr B.nc C.nr C.nc) :
    (A.mulMat ta tb α B β C).nr = C.nr ∧ (A.mulMat ta tb α B β C).nc = C.nc ∧
    (∀ i < C.nr, ∀ j < C.nc, (A.mulMat ta tb α B β C).get i j =
      prodE ta tb α A.entry B.get (opCols ta A.nr A.nc) β C.get i j) ∧
    ∀ p, C.nr * C.nc ≤ p → (A.mulMat ta tb α B β C).data p = C.data p := by
  obtain ⟨h1, h2, h3⟩ := h
  have hn : (if tb = .N then B.nc else B.nr) = C.nc := h2.symm
  unfold LR.mulMat
  rw [if_pos hr, hn]
  by_cases e : ta = .N
  · subst e
    rw [if_pos rfl]
    have c1 : Conform .N tb A.V B (Mat.mk' A.V.nr C.nc 0) := ⟨rfl, h2, h3⟩
    have c2 : Conform .N .N A.U (Mat.addMM .N tb 1 A.V B 0 (Mat.mk' A.V.nr C.nc 0)) C := ⟨h1, rfl, hA.symm⟩
    obtain ⟨g1, g2, g3, g4⟩ := C35_matrix_matrix_product .N .N α A.U _ β C c2
    refine ⟨g1, g2, fun i hi j hj => ?_, g4⟩
    rw [g3 i hi j hj]
    unfold prodE
    congr 2
    show ∑ l ∈ range A.U.nc, A.U.get i l * (Mat.addMM .N tb 1 A.V B 0 (Mat.mk' A.V.nr C.nc 0)).get l j = _
    rw [sum_congr rfl fun l hl => by
      rw [addMM_zero .N tb 1 A.V B _ c1 (show l < A.V.nr by rw [hA]; exact mem_range.1 hl) hj, one_mul]]
    exact sum_swap (fun l => A.U.get i l) (fun l k => A.V.get l k) (fun k => opE tb B.get k j) _ _
  · rw [if_neg e]
    have er : ∀ a b : ℕ, opRows ta a b = b := fun a b => if_neg e
    have ec : ∀ a b : ℕ, opCols ta a b = a := fun a b => if_neg e
    have c1 : Conform ta tb A.U B (Mat.mk' A.V.nr C.nc 0) := ⟨by rw [er]; exact hA, h2, by rw [ec] at h3 ⊢; exact h3⟩
    have c2 : Conform ta .N A.V (Mat.addMM ta tb 1 A.U B 0 (Mat.mk' A.V.nr C.nc 0)) C :=
      ⟨by rw [er] at h1 ⊢; exact h1, rfl, by rw [ec]; rfl⟩
    obtain ⟨g1, g2, g3, g4⟩ := C35_matrix_matrix_product ta .N α A.V _ β C c2
    refine ⟨g1, g2, fun i hi j hj => ?_, g4⟩
    rw [g3 i hi j hj]
    unfold prodE
    congr 2
    rw [ec, ec]
    rw [sum_congr rfl fun l hl => by
      rw [opE_N, addMM_zero ta tb 1 A.U B _ c1 (show l < A.V.nr from mem_range.1 hl) hj, one_mul, ec]]
    rw [sum_swap (fun l => opE ta A.V.get i l) (fun l k => opE ta A.U.get l k) (fun k => opE tb B.get k j)]
    refine sum_congr rfl fun k _ => ?_
    rw [opE_entry e, hA]; rfl

/-- `op(A) op(UV)` with a dense result, for a positive rank. -/
theorem matMul_spec (ta tb : Trans) (α : R) (A : Mat R) (B : LR R) (β : R) (C : Mat R) (hB : B.WF) (hr : B.rank ≠ 0)
    (h : ConformSz ta tb A.nr A.nc B.nr B.nc C.nr C.nc) :
    (LR.matMul ta tb α A B β C).nr = C.nr ∧ (LR.matMul ta tb α A B β C).nc = C.nc ∧
    (∀ i < C.nr, ∀ j < C.nc, (LR.matMul ta tb α A B β C).get i j =
      prodE ta tb α A.get B.entry (opCols ta A.nr A.nc) β C.get i j) ∧
    ∀ p, C.nr * C.nc ≤ p → (LR.matMul ta tb α A B β C).data p = C.data p := by
  obtain ⟨h1, h2, h3⟩ := h
  have hm : (if ta = .N then A.nr else A.nc) = C.nr := h1.symm
  unfold LR.matMul
  rw [if_pos hr, hm]
  by_cases e : tb = .N
  · subst e
    simp only [if_true]
    have c1 : Conform ta .N A B.U (Mat.mk' C.nr B.U.nc 0) := ⟨h1, rfl, h3⟩
    have c2 : Conform .N .N (Mat.addMM ta .N 1 A B.U 0 (Mat.mk' C.nr B.U.nc 0)) B.V C := ⟨rfl, h2, hB.symm⟩
    obtain ⟨g1, g2, g3, g4⟩ := C35_matrix_matrix_product .N .N α _ B.V β C c2
    refine ⟨g1, g2, fun i hi j hj => ?_, g4⟩
    rw [g3 i hi j hj]
    unfold prodE
    congr 2
    show ∑ l ∈ range B.U.nc, (Mat.addMM ta .N 1 A B.U 0 (Mat.mk' C.nr B.U.nc 0)).get i l * B.V.get l j = _
    rw [sum_congr rfl fun l hl => by
      rw [addMM_zero ta .N 1 A B.U _ c1 hi (show l < B.U.nc from mem_range.1 hl), one_mul]]
    exact (sum_swap (fun k => opE ta A.get i k) (fun k l => B.U.get k l) (fun l => B.V.get l j) _ _).symm
  · simp only [if_neg e]
    have er : ∀ a b : ℕ, opRows tb a b = b := fun a b => if_neg e
    have ec : ∀ a b : ℕ, opCols tb a b = a := fun a b => if_neg e
    have c1 : Conform ta tb A B.V (Mat.mk' C.nr B.V.nr 0) := ⟨h1, by rw [ec]; rfl, by rw [er] at h3 ⊢; exact h3⟩
    have c2 : Conform .N tb (Mat.addMM ta tb 1 A B.V 0 (Mat.mk' C.nr B.V.nr 0)) B.U C :=
      ⟨rfl, by rw [ec] at h2 ⊢; exact h2, by rw [er]; exact hB⟩
    obtain ⟨g1, g2, g3, g4⟩ := C35_matrix_matrix_product .N tb α _ B.U β C c2
    refine ⟨g1, g2, fun i hi j hj => ?_, g4⟩
    rw [g3 i hi j hj]
    unfold prodE
    congr 2
    show ∑ l ∈ range B.V.nr, (Mat.addMM ta tb 1 A B.V 0 (Mat.mk' C.nr B.V.nr 0)).get i l * opE tb B.U.get l j = _
    rw [sum_congr rfl fun l hl => by
      rw [addMM_zero ta tb 1 A B.V _ c1 hi (show l < B.V.nr from mem_range.1 hl), one_mul]]
    rw [← sum_swap (fun k => opE ta A.get i k) (fun k l => opE tb B.V.get k l) (fun l => opE tb B.U.get l j)]
    refine sum_congr rfl fun k _ => ?_
    rw [opE_entry e, hB]; rfl

/-- `op(U₁V₁) op(U₂V₂)` with a dense result, for positive ranks. -/
theorem mulLR_spec (ta tb : Trans) (α : R) (A B : LR R) (β : R) (C : Mat R) (hA : A.WF) (hB : B.WF) (hra : A.rank ≠ 0)
    (hrb : B.rank ≠ 0) (h : ConformSz ta tb A.nr A.nc B.nr B.nc C.nr C.nc) :
    (A.mulLR ta tb α B β C).nr = C.nr ∧ (A.mulLR ta tb α B β C).nc = C.nc ∧
    (∀ i < C.nr, ∀ j < C.nc, (A.mulLR ta tb α B β C).get i j =
      prodE ta tb α A.entry B.entry (opCols ta A.nr A.nc) β C.get i j) ∧
    ∀ p, C.nr * C.nc ≤ p → (A.mulLR ta tb α B β C).data p = C.data p := by
  obtain ⟨h1, h2, h3⟩ := h
  unfold LR.mulLR
  rw [if_pos ⟨hra, hrb⟩]
  by_cases e : tb = .N
  · subst e
    rw [if_pos rfl]
    obtain ⟨a1, a2, a3, -⟩ := mulMat_spec ta .N 1 A B.U 0 (Mat.mk' C.nr B.rank 0) hA hra ⟨h1, rfl, h3⟩
    generalize A.mulMat ta .N 1 B.U 0 (Mat.mk' C.nr B.rank 0) = AUB at *
    have c2 : Conform .N .N AUB B.V C := ⟨a1.symm, h2, by show AUB.nc = B.V.nr; rw [a2, hB]; rfl⟩
    obtain ⟨g1, g2, g3, g4⟩ := C35_matrix_matrix_product .N .N α AUB B.V β C c2
    refine ⟨g1, g2, fun i hi j hj => ?_, g4⟩
    rw [g3 i hi j hj]
    unfold prodE
    congr 2
    show ∑ l ∈ range AUB.nc, AUB.get i l * B.V.get l j = _
    have ha2 : AUB.nc = B.rank := a2
    rw [ha2, sum_congr rfl fun l hl => by rw [a3 i hi l (mem_range.1 hl), prodE, one_mul, zero_mul, add_zero]]
    exact (sum_swap (fun k => opE ta A.entry i k) (fun k l => B.U.get k l) (fun l => B.V.get l j) _ _).symm
  · rw [if_neg e]
    have er : ∀ a b : ℕ, opRows tb a b = b := fun a b => if_neg e
    have ec : ∀ a b : ℕ, opCols tb a b = a := fun a b => if_neg e
    obtain ⟨a1, a2, a3, -⟩ := mulMat_spec ta tb 1 A B.V 0 (Mat.mk' C.nr B.V.nr 0) hA hra
      ⟨h1, by rw [ec]; rfl, by rw [er] at h3 ⊢; exact h3⟩
    generalize A.mulMat ta tb 1 B.V 0 (Mat.mk' C.nr B.V.nr 0) = AVB at *
    have c2 : Conform .N tb AVB B.U C := ⟨a1.symm, by rw [ec] at h2 ⊢; exact h2, by rw [er]; show AVB.nc = _; rw [a2]; exact hB⟩
    obtain ⟨g1, g2, g3, g4⟩ := C35_matrix_matrix_product .N tb α AVB B.U β C c2
    refine ⟨g1, g2, fun i hi j hj => ?_, g4⟩
    rw [g3 i hi j hj]
    unfold prodE
    congr 2
    show ∑ l ∈ range AVB.nc, AVB.get i l * opE tb B.U.get l j = _
    have ha2 : AVB.nc = B.V.nr := a2
    rw [ha2, sum_congr rfl fun l hl => by rw [a3 i hi l (mem_range.1 hl), prodE, one_mul, zero_mul, add_zero]]
    rw [← sum_swap (fun k => opE ta A.entry i k) (fun k l => opE tb B.V.get k l) (fun l => opE tb B.U.get l j)]
    refine sum_congr rfl fun k _ => ?_
    rw [opE_entry e, hB]; rfl

omit [StarRing R] in
theorem entry_rank_zero {A : LR R} (h : A.rank = 0) (i j : ℕ) : A.entry i j = 0 := by
  unfold LR.entry; rw [h]; rfl

theorem opE_zero {M : ℕ → ℕ → R} (h : ∀ i j, M i j = 0) (tr : Trans) (i j : ℕ) : opE tr M i j = 0 := by
  cases tr <;> simp [opE, h]

/-- **C28** `add_lrmat_matrix_product` computes `alpha op(UV) op(B) + beta C`, touching nothing outside of `C`. Missing: rank 0 with
`beta ≠ 1`, see `C28_rank_zero_defect`. -/
theorem C28_lrmat_matrix_partial (ta tb : Trans) (α : R) (A : LR R) (B : Mat R) (β : R) (C : Mat R) (hA : A.WF) (hr : A.rank ≠ 0 ∨ β = 1)
    (h : ConformSz ta tb A.nr A.nc B.nr B.nc C.nr C.nc) :
    (A.mulMat ta tb α B β C).nr = C.nr ∧ (A.mulMat ta tb α B β C).nc = C.nc ∧
    (∀ i < C.nr, ∀ j < C.nc, (A.mulMat ta tb α B β C).get i j =
      prodE ta tb α A.entry B.get (opCols ta A.nr A.nc) β C.get i j) ∧
    ∀ p, C.nr * C.nc ≤ p → (A.mulMat ta tb α B β C).data p = C.data p := by
  by_cases h0 : A.rank = 0
  · have hb : β = 1 := hr.resolve_left (fun hh => hh h0)
    have : A.mulMat ta tb α B β C = C := if_neg (fun hh => hh h0)
    rw [this]
    refine ⟨rfl, rfl, fun i _ j _ => ?_, fun _ _ => rfl⟩
    unfold prodE
    simp [opE_zero (entry_rank_zero h0), hb]
  · exact mulMat_spec ta tb α A B β C hA h0 h

/-- **C28** `add_matrix_lrmat_product` computes `alpha op(A) op(UV) + beta C`. Missing: rank 0 with `beta ≠ 1`. -/
theorem C28_matrix_lrmat_partial (ta tb : Trans) (α : R) (A : Mat R) (B : LR R) (β : R) (C : Mat R) (hB : B.WF) (hr : B.rank ≠ 0 ∨ β = 1)
    (h : ConformSz ta tb A.nr A.nc B.nr B.nc C.nr C.nc) :
    (LR.matMul ta tb α A B β C).nr = C.nr ∧ (LR.matMul ta tb α A B β C).nc = C.nc ∧
    (∀ i < C.nr, ∀ j < C.nc, (LR.matMul ta tb α A B β C).get i j =
      prodE ta tb α A.get B.entry (opCols ta A.nr A.nc) β C.get i j) ∧
    ∀ p, C.nr * C.nc ≤ p → (LR.matMul ta tb α A B β C).data p = C.data p := by
  by_cases h0 : B.rank = 0
  · have hb : β = 1 := hr.resolve_left (fun hh => hh h0)
    have : LR.matMul ta tb α A B β C = C := if_neg (fun hh => hh h0)
    rw [this]
    refine ⟨rfl, rfl, fun i _ j _ => ?_, fun _ _ => rfl⟩
    unfold prodE
    simp [opE_zero (entry_rank_zero h0), hb]
  · exact matMul_spec ta tb α A B β C hB h0 h

/-- **C28** `add_lrmat_lrmat_product` computes `alpha op(U₁V₁) op(U₂V₂) + beta C`. Missing: a rank 0 with `beta ≠ 1`. -/
theorem C28_lrmat_lrmat_partial (ta tb : Trans) (α : R) (A B : LR R) (β : R) (C : Mat R) (hA : A.WF) (hB : B.WF)
    (hr : (A.rank ≠ 0 ∧ B.rank ≠ 0) ∨ β = 1) (h : ConformSz ta tb A.nr A.nc B.nr B.nc C.nr C.nc) :
    (A.mulLR ta tb α B β C).nr = C.nr ∧ (A.mulLR ta tb α B β C).nc = C.nc ∧
    (∀ i < C.nr, ∀ j < C.nc, (A.mulLR ta tb α B β C).get i j =
      prodE ta tb α A.entry B.entry (opCols ta A.nr A.nc) β C.get i j) ∧
    ∀ p, C.nr * C.nc ≤ p → (A.mulLR ta tb α B β C).data p = C.data p := by
  by_cases h0 : A.rank ≠ 0 ∧ B.rank ≠ 0
  · exact mulLR_spec ta tb α A B β C hA hB h0.1 h0.2 h
  · have hb : β = 1 := hr.resolve_left h0
    have : A.mulLR ta tb α B β C = C := if_neg h0
    rw [this]
    refine ⟨rfl, rfl, fun i _ j _ => ?_, fun _ _ => rfl⟩
    unfold prodE
    rw [not_and_or, not_not, not_not] at h0
    rcases h0 with h0 | h0 <;> simp [opE_zero (entry_rank_zero h0), hb]

/-- **C28** `add_lrmat_vector_product` computes `alpha op(UV) x + beta y` on the rows of `op(UV)`, and touches nothing else. Missing: rank 0 with
`beta ≠ 1`. -/
theorem C28_lrmat_vector_partial (tr : Trans) (α : R) (A : LR R) (x : Buf R) (β : R) (y : Buf R) (hr : A.rank ≠ 0 ∨ β = 1) (i : ℕ) :
    lrmatVec tr α A.nr A.nc A.rank A.U.get A.V.get x β y i = if i < opRows tr A.nr A.nc then
      α * (∑ j ∈ range (opCols tr A.nr A.nc), opE tr A.entry i j * x j) + β * y i else y i := by
  have h1 := congrFun (lrmatVec_one tr α A.nr A.nc A.rank A.U.get A.V.get x (fun i => β * y i)) i
  by_cases h0 : A.rank = 0
  · have hb : β = 1 := hr.resolve_left (fun hh => hh h0)
    subst hb
    simp only [one_mul] at h1 ⊢
    rw [h1]
    split_ifs
    · rw [add_comm]; rfl
    · rfl
  · have hg : ∀ (nr nc : ℕ) (M : ℕ → ℕ → R) (a : Buf R), nr ≠ 0 → nc ≠ 0 → i < opRows tr nr nc →
        gemv tr nr nc α M a β y i = gemv tr nr nc α M a 1 (fun i => β * y i) i := by
      intro nr nc M a h1 h2 hi
      have h3 : ¬ (nr = 0 ∨ nc = 0) := by omega
      simp only [gemv, if_neg h3, if_pos hi, one_mul]
    have hg' : ∀ (nr nc : ℕ) (M : ℕ → ℕ → R) (a : Buf R), ¬ i < opRows tr nr nc → gemv tr nr nc α M a β y i = y i := by
      intro nr nc M a hi
      unfold gemv
      by_cases h3 : nr = 0 ∨ nc = 0
      · rw [if_pos h3]
      · rw [if_neg h3]; exact if_neg hi
    by_cases hi : i < opRows tr A.nr A.nc
    · rw [if_pos hi] at h1 ⊢
      rw [add_comm]
      refine Eq.trans ?_ h1
      unfold lrmatVec
      rw [if_pos h0, if_pos h0]
      by_cases e : tr = .N
      · subst e; rw [if_pos rfl, if_pos rfl]
        have : i < A.nr := hi
        exact hg _ _ _ _ (by omega) h0 hi
      · rw [if_neg e, if_neg e]
        rw [opRows, if_neg e] at hi
        refine hg _ _ _ _ h0 (by omega) ?_
        rw [opRows, if_neg e]; exact hi
    · rw [if_neg hi]
      unfold lrmatVec
      rw [if_pos h0]
      by_cases e : tr = .N
      · subst e; rw [if_pos rfl]
        exact hg' _ _ _ _ hi
      · rw [if_neg e]
        refine hg' _ _ _ _ ?_
        rw [opRows, if_neg e] at hi ⊢; exact hi

/-- `copy_to_dense` gives the entries of `UV`. -/
theorem C28_copy_to_dense (A : LR R) (hA : A.WF) (out : Buf R) {i j : ℕ} (hi : i < A.nr) (hj : j < A.nc) :
    A.toDense out (i + j * A.nr) = A.entry i j := by
  unfold LR.toDense
  rw [show i + j * A.nr = i + j * A.U.nr from rfl, gemm_pos (show i < A.U.nr from hi) (show i < A.U.nr from hi) (show j < A.V.nc from hj), one_mul, zero_mul, add_zero]
  refine sum_congr rfl fun l _ => ?_
  rw [opE_get .N A.U rfl, opE_get .N A.V rfl]; rfl

omit [StarRing R] in
/-- **C25/C28** `scale` multiplies the represented matrix. -/
theorem C28_scale (a : R) (A : LR R) (hA : A.WF) : (A.scale a).IsMat A.nr A.nc (fun i j => a * A.entry i j) := by
  unfold LR.scale
  split_ifs with h
  · refine ⟨hA, rfl, rfl, fun i hi j hj => ?_⟩
    unfold LR.entry
    beta_reduce
    rw [mul_sum]
    refine sum_congr rfl fun l hl => ?_
    rw [scale_get a A.U hi (mem_range.1 hl)]; ring
  · refine ⟨hA, rfl, rfl, fun i hi j hj => ?_⟩
    unfold LR.entry
    beta_reduce
    rw [mul_sum]
    refine sum_congr rfl fun l hl => ?_
    rw [scale_get a A.V (show l < A.V.nr by rw [hA]; exact mem_range.1 hl) hj]; ring

/-! ## Low-rank results -/

omit [StarRing R] in
/-- Concatenated factors represent the sum. -/
theorem cat_isMat {U1 V1 U2 V2 : Mat R} (h1 : V1.nr = U1.nc) (h2 : V2.nr = U2.nc) (hr : U2.nr = U1.nr) (hc : V1.nc = V2.nc) :
    LR.IsMat ⟨U1.hcat U2, V1.vcat V2⟩ U1.nr V1.nc (fun i j => LR.entry ⟨U1, V1⟩ i j + LR.entry ⟨U2, V2⟩ i j) := by
  refine ⟨by show V1.nr + V2.nr = U1.nc + U2.nc; omega, rfl, hc.symm, fun i hi j hj => ?_⟩
  show ∑ l ∈ range (U1.nc + U2.nc), (U1.hcat U2).get i l * (V1.vcat V2).get l j =
    (∑ l ∈ range U1.nc, U1.get i l * V1.get l j) + ∑ l ∈ range U2.nc, U2.get i l * V2.get l j
  rw [sum_range_add]
  congr 1
  · refine sum_congr rfl fun l hl => ?_
    have := mem_range.1 hl
    rw [hcat_get _ _ hr hi (by omega), vcat_get _ _ (by omega) (by omega), if_pos this, if_pos (by omega)]
  · refine sum_congr rfl fun l hl => ?_
    have := mem_range.1 hl
    rw [hcat_get _ _ hr hi (by omega), vcat_get _ _ (by omega) (by omega), if_neg (by omega), if_neg (by omega), h1, Nat.add_sub_cancel_left]

omit [StarRing R] in
theorem IsMat.congr' {A : LR R} {m n : ℕ} {M M' : ℕ → ℕ → R} (h : A.IsMat m n M) (he : ∀ i < m, ∀ j < n, M i j = M' i j) : A.IsMat m n M' :=
  ⟨h.1, h.2.1, h.2.2.1, fun i hi j hj => (h.2.2.2 i hi j hj).trans (he i hi j hj)⟩

omit [StarRing R] in
theorem entry_scaleV (b : R) (C : LR R) (hC : C.WF) (i : ℕ) {j : ℕ} (hj : j < C.nc) : LR.entry ⟨C.U, Mat.scale b C.V⟩ i j = b * C.entry i j := by
  show ∑ l ∈ range C.U.nc, C.U.get i l * (Mat.scale b C.V).get l j = b * ∑ l ∈ range C.U.nc, _
  rw [mul_sum]
  refine sum_congr rfl fun l hl => ?_
  rw [scale_get b C.V (show l < C.V.nr by rw [hC]; exact mem_range.1 hl) hj]; ring

/-- Factors of `alpha op(UV) op(B)`. -/
def LR.factMulMat (ta : Trans) (A : LR R) : Mat R := if ta = .N then A.U else Mat.opT ta A.V

theorem factMulMat_spec (ta tb : Trans) (α : R) (A : LR R) (B W : Mat R) (hA : A.WF)
    (hin : opCols ta A.nr A.nc = opRows tb B.nr B.nc) (hW : W.nr = A.rank) (hWc : W.nc = opCols tb B.nr B.nc) :
    LR.IsMat ⟨LR.factMulMat ta A, Mat.addMM ta tb α (if ta = .N then A.V else A.U) B 0 W⟩ (opRows ta A.nr A.nc) (opCols tb B.nr B.nc)
      (fun i j => α * ∑ l ∈ range (opCols ta A.nr A.nc), opE ta A.entry i l * opE tb B.get l j) := by
  have hvw : A.V.nr = A.U.nc := hA
  by_cases e : ta = .N
  · subst e
    rw [if_pos rfl]
    obtain ⟨g1, g2, g3, -⟩ := C35_matrix_matrix_product .N tb α A.V B 0 W ⟨by rw [hW]; exact hA.symm, hWc, hin⟩
    refine ⟨?_, rfl, ?_, fun i hi j hj => ?_⟩
    · show (Mat.addMM _ _ _ _ _ _ _).nr = A.U.nc; rw [g1, hW]; rfl
    · show (Mat.addMM _ _ _ _ _ _ _).nc = _; rw [g2, hWc]
    · show ∑ l ∈ range A.U.nc, A.U.get i l * (Mat.addMM .N tb α A.V B 0 W).get l j = _
      rw [sum_congr rfl fun l hl => by rw [g3 l (by rw [hW]; exact mem_range.1 hl) j (by rw [hWc]; exact hj), zero_mul, add_zero]]
      beta_reduce
      rw [← sum_congr rfl fun l _ => (mul_left_comm α (A.U.get i l) _), ← mul_sum]
      congr 1
      exact sum_swap (fun l => A.U.get i l) (fun l k => A.V.get l k) (fun k => opE tb B.get k j) _ _
  · rw [if_neg e]
    have er : ∀ a b : ℕ, opRows ta a b = b := fun a b => if_neg e
    have ec : ∀ a b : ℕ, opCols ta a b = a := fun a b => if_neg e
    obtain ⟨g1, g2, g3, -⟩ := C35_matrix_matrix_product ta tb α A.U B 0 W ⟨by rw [er, hW]; rfl, hWc, by rw [ec] at hin ⊢; exact hin⟩
    obtain ⟨t1, t2, t3⟩ := opT_get ta e A.V
    rw [ec] at g3
    rw [er, ec]
    have hf : LR.factMulMat ta A = Mat.opT ta A.V := if_neg e
    rw [hf]
    refine ⟨?_, t1, ?_, fun i hi j hj => ?_⟩
    · show (Mat.addMM _ _ _ _ _ _ _).nr = (Mat.opT ta A.V).nc; rw [g1, hW, t2, hvw]; rfl
    · show (Mat.addMM _ _ _ _ _ _ _).nc = _; rw [g2, hWc]
    · show ∑ l ∈ range (Mat.opT ta A.V).nc, (Mat.opT ta A.V).get i l * (Mat.addMM ta tb α A.U B 0 W).get l j = _
      rw [t2, sum_congr rfl fun l hl => by rw [g3 l (by rw [hW]; exact (hvw.symm ▸ mem_range.1 hl : l < A.U.nc)) j (by rw [hWc]; exact hj), zero_mul, add_zero,
        t3 i hi l (mem_range.1 hl)]]
      beta_reduce
      rw [← sum_congr rfl fun l _ => (mul_left_comm α (opE ta A.V.get i l) _), ← mul_sum]
      congr 1
      rw [sum_swap (fun l => opE ta A.V.get i l) (fun l k => opE ta A.U.get l k) (fun k => opE tb B.get k j)]
      refine sum_congr rfl fun k _ => ?_
      rw [opE_entry e, hvw]; rfl

/-- Factors of `alpha op(A) op(UV)`. -/
def LR.factMatMul (tb : Trans) (B : LR R) : Mat R := if tb = .N then B.V else Mat.opT tb B.U

/-- If `W = alpha op(M) op(U)` (or `alpha op(M) op(V)` when `B` is transposed) then `W` and `factMatMul` are factors of `alpha op(M) op(UV)`. -/
theorem factMatMul_spec (tb : Trans) (α : R) (E : ℕ → ℕ → R) (k m : ℕ) (B : LR R) (W : Mat R) (hB : B.WF) (hW : W.nr = m) (hWc : W.nc = B.rank)
    (hg : ∀ i < m, ∀ l < B.rank, W.get i l = α * ∑ q ∈ range k, E i q * opE tb (if tb = .N then B.U else B.V).get q l) :
    LR.IsMat ⟨W, LR.factMatMul tb B⟩ m (opCols tb B.nr B.nc) (fun i j => α * ∑ q ∈ range k, E i q * opE tb B.entry q j) := by
  have hvw : B.V.nr = B.U.nc := hB
  by_cases e : tb = .N
  · subst e
    rw [if_pos rfl] at hg
    have hf : LR.factMatMul .N B = B.V := if_pos rfl
    rw [hf]
    refine ⟨by show B.V.nr = W.nc; rw [hWc, hvw]; rfl, hW, rfl, fun i hi j hj => ?_⟩
    show ∑ l ∈ range W.nc, W.get i l * B.V.get l j = _
    rw [hWc, sum_congr rfl fun l hl => by rw [hg i hi l (mem_range.1 hl), mul_assoc]]
    rw [← mul_sum]
    congr 1
    exact (sum_swap (fun q => E i q) (fun q l => B.U.get q l) (fun l => B.V.get l j) _ _).symm
  · have ec : ∀ a b : ℕ, opCols tb a b = a := fun a b => if_neg e
    rw [if_neg e] at hg
    have hf : LR.factMatMul tb B = Mat.opT tb B.U := if_neg e
    obtain ⟨t1, t2, t3⟩ := opT_get tb e B.U
    rw [hf, ec]
    refine ⟨by show (Mat.opT tb B.U).nr = W.nc; rw [hWc, t1]; rfl, hW, t2, fun i hi j hj => ?_⟩
    show ∑ l ∈ range W.nc, W.get i l * (Mat.opT tb B.U).get l j = _
    rw [hWc, sum_congr rfl fun l hl => by rw [hg i hi l (mem_range.1 hl), t3 l (mem_range.1 hl) j hj, mul_assoc]]
    rw [← mul_sum]
    congr 1
    rw [← sum_swap (fun q => E i q) (fun q l => opE tb B.V.get q l) (fun l => opE tb B.U.get l j)]
    refine sum_congr rfl fun k _ => ?_
    rw [opE_entry e]

section result
variable [DecidableEq R] (rc : LR R → LR R)

omit [StarRing R] [DecidableEq R] in
/-- Sum of a product and of `beta C` in concatenated factors. -/
theorem cat_prod {U1 V1 : Mat R} {m n : ℕ} {M : ℕ → ℕ → R} {C : LR R} (β : R) (h1 : LR.IsMat ⟨U1, V1⟩ m n M) (hC : C.WF) (hr : C.nr = m) (hc : C.nc = n) :
    LR.IsMat ⟨U1.hcat C.U, V1.vcat (Mat.scale β C.V)⟩ C.nr C.nc (fun i j => M i j + β * C.entry i j) := by
  obtain ⟨a1, a2, a3, a4⟩ := h1
  have hr' : U1.nr = C.U.nr := a2.trans hr.symm
  have hc' : V1.nc = C.V.nc := a3.trans hc.symm
  have h := cat_isMat (U1 := U1) (V1 := V1) (U2 := C.U) (V2 := Mat.scale β C.V) a1 hC hr'.symm hc'
  rw [hr', hc'] at h
  refine IsMat.congr' h fun i hi j hj => ?_
  beta_reduce
  rw [a4 i (by rw [← hr]; exact hi) j (by rw [← hc]; exact hj), entry_scaleV β C hC i hj]

/-- **C28** `add_lrmat_matrix_product` into a low-rank matrix: the result is the exact `alpha op(UV) op(B) + beta C`, as it is or recompressed. -/
theorem C28_lrmat_matrix_lowrank_partial (ta tb : Trans) (α : R) (A : LR R) (B : Mat R) (β : R) (C : LR R) (hA : A.WF) (hC : C.WF)
    (hr : A.rank ≠ 0 ∨ β = 1) (h : ConformSz ta tb A.nr A.nc B.nr B.nc C.nr C.nc) :
    ∃ P : LR R, P.IsMat C.nr C.nc (prodE ta tb α A.entry B.get (opCols ta A.nr A.nc) β C.entry) ∧
      (LR.mulMatLR rc ta tb α A B β C = P ∨ (0 < P.rank ∧ LR.mulMatLR rc ta tb α A B β C = rc P)) := by
  obtain ⟨h1, h2, h3⟩ := h
  by_cases h0 : A.rank = 0
  · have hb : β = 1 := hr.resolve_left (fun hh => hh h0)
    refine ⟨C, ⟨hC, rfl, rfl, fun i _ j _ => ?_⟩, Or.inl (if_neg (fun hh => hh h0))⟩
    unfold prodE
    simp [opE_zero (entry_rank_zero h0), hb]
  · have hvw : A.V.nr = A.U.nc := hA
    unfold LR.mulMatLR
    rw [if_pos h0]
    have hn : (if tb = .N then B.nc else B.nr) = opCols tb B.nr B.nc := rfl
    simp only [hn]
    by_cases hz : β = 0 ∨ C.rank = 0
    · rw [if_pos hz]
      have key := fun (W : Mat R) (hW : W.nr = A.rank) (hWc : W.nc = opCols tb B.nr B.nc) => factMulMat_spec ta tb α A B W hA h3 hW hWc
      have he : ∀ i < C.nr, ∀ j < C.nc, (α * ∑ l ∈ range (opCols ta A.nr A.nc), opE ta A.entry i l * opE tb B.get l j) =
          prodE ta tb α A.entry B.get (opCols ta A.nr A.nc) β C.entry i j := by
        intro i _ j _
        unfold prodE
        rcases hz with hz | hz
        · rw [hz, zero_mul, add_zero]
        · rw [entry_rank_zero hz, mul_zero, add_zero]
      have : ∃ P : LR R, P.IsMat C.nr C.nc (prodE ta tb α A.entry B.get (opCols ta A.nr A.nc) β C.entry) ∧
          (if ta = .N then (⟨A.U, Mat.addMM ta tb α A.V B 0 (C.V.resize A.V.nr (opCols tb B.nr B.nc) 0)⟩ : LR R)
            else ⟨Mat.opT ta A.V, Mat.addMM ta tb α A.U B 0 (C.V.resize A.U.nc (opCols tb B.nr B.nc) 0)⟩) = P ∧ 0 < P.rank := by
        refine ⟨_, ?_, rfl, ?_⟩
        swap
        · by_cases e : ta = .N
          · rw [if_pos e]; exact Nat.pos_of_ne_zero h0
          · rw [if_neg e]; show 0 < (Mat.opT ta A.V).nc; rw [(opT_get ta e A.V).2.1, hvw]; exact Nat.pos_of_ne_zero h0
        by_cases e : ta = .N
        · have := key (C.V.resize A.V.nr (opCols tb B.nr B.nc) 0) hvw rfl
          rw [LR.factMulMat, if_pos e, if_pos e] at this
          rw [if_pos e]
          rw [← h1, ← h2] at this
          rw [← h2]
          exact IsMat.congr' this he
        · have := key (C.V.resize A.U.nc (opCols tb B.nr B.nc) 0) rfl rfl
          rw [LR.factMulMat, if_neg e, if_neg e] at this
          rw [if_neg e]
          rw [← h1, ← h2] at this
          rw [← h2]
          exact IsMat.congr' this he
      obtain ⟨P, hP, hPe, hpos⟩ := this
      rw [hPe]
      refine ⟨P, hP, ?_⟩
      split_ifs
      · exact Or.inr ⟨hpos, rfl⟩
      · exact Or.inl rfl
    · rw [if_neg hz]
      have hk := factMulMat_spec ta tb α A B (Mat.mk' A.V.nr (opCols tb B.nr B.nc) 0) hA h3 hvw rfl
      have hcat := cat_prod β hk hC h1 h2
      refine ⟨_, hcat, Or.inr ⟨Nat.lt_of_lt_of_le (Nat.pos_of_ne_zero fun h => hz (Or.inr h)) (Nat.le_add_left C.U.nc _), ?_⟩⟩
      unfold LR.factMulMat
      by_cases e : ta = .N
      · simp only [if_pos e]
      · simp only [if_neg e]

/-- **C28** `add_matrix_lrmat_product` into a low-rank matrix: the result is the exact `alpha op(A) op(UV) + beta C`, as it is or recompressed. -/
theorem C28_matrix_lrmat_lowrank_partial (ta tb : Trans) (α : R) (A : Mat R) (B : LR R) (β : R) (C : LR R) (hB : B.WF) (hC : C.WF)
    (hr : B.rank ≠ 0 ∨ β = 1) (h : ConformSz ta tb A.nr A.nc B.nr B.nc C.nr C.nc) :
    ∃ P : LR R, P.IsMat C.nr C.nc (prodE ta tb α A.get B.entry (opCols ta A.nr A.nc) β C.entry) ∧
      (LR.matMulLR rc ta tb α A B β C = P ∨ (0 < P.rank ∧ LR.matMulLR rc ta tb α A B β C = rc P)) := by
  obtain ⟨h1, h2, h3⟩ := h
  have hvw : B.V.nr = B.U.nc := hB
  by_cases h0 : B.rank = 0
  · have hb : β = 1 := hr.resolve_left (fun hh => hh h0)
    refine ⟨C, ⟨hC, rfl, rfl, fun i _ j _ => ?_⟩, Or.inl (if_neg (fun hh => hh h0))⟩
    unfold prodE
    simp [opE_zero (entry_rank_zero h0), hb]
  · unfold LR.matMulLR
    rw [if_pos h0]
    have hn : (if ta = .N then A.nr else A.nc) = C.nr := h1.symm
    have hk2 : (if tb = .N then B.U.nc else B.V.nr) = B.rank := by split_ifs; exacts [rfl, hvw]
    simp only [hn, hk2]
    -- the left factor
    have key : ∀ W0 : Mat R, W0.nr = C.nr → W0.nc = B.rank → LR.IsMat
        ⟨Mat.addMM ta tb α A (if tb = .N then B.U else B.V) 0 W0, LR.factMatMul tb B⟩ C.nr (opCols tb B.nr B.nc)
        (fun i j => α * ∑ q ∈ range (opCols ta A.nr A.nc), opE ta A.get i q * opE tb B.entry q j) := by
      intro W0 hW hWc
      have hconf : Conform ta tb A (if tb = .N then B.U else B.V) W0 := by
        by_cases e : tb = .N
        · rw [if_pos e]; subst e; exact ⟨hW.trans h1, hWc, h3⟩
        · rw [if_neg e]
          refine ⟨hW.trans h1, ?_, ?_⟩
          · rw [hWc, opCols, if_neg e]; exact hvw.symm
          · rw [h3, opRows, opRows, if_neg e, if_neg e]; rfl
      obtain ⟨g1, g2, g3, -⟩ := C35_matrix_matrix_product ta tb α A (if tb = .N then B.U else B.V) 0 W0 hconf
      refine factMatMul_spec tb α (fun i q => opE ta A.get i q) (opCols ta A.nr A.nc) C.nr B _ hB (g1.trans hW) (g2.trans hWc) ?_
      intro i hi l hl
      rw [g3 i (by rw [hW]; exact hi) l (by rw [hWc]; exact hl), zero_mul, add_zero]
    by_cases hz : β = 0 ∨ C.rank = 0
    · rw [if_pos hz]
      have hk := key (C.U.resize C.nr B.rank 0) rfl rfl
      have he : ∀ i < C.nr, ∀ j < opCols tb B.nr B.nc, (α * ∑ l ∈ range (opCols ta A.nr A.nc), opE ta A.get i l * opE tb B.entry l j) =
          prodE ta tb α A.get B.entry (opCols ta A.nr A.nc) β C.entry i j := by
        intro i _ j _
        unfold prodE
        rcases hz with hz | hz
        · rw [hz, zero_mul, add_zero]
        · rw [entry_rank_zero hz, mul_zero, add_zero]
      refine ⟨_, h2 ▸ IsMat.congr' hk he, Or.inl ?_⟩
      unfold LR.factMatMul
      by_cases e : tb = .N
      · simp only [if_pos e]
      · simp only [if_neg e]
    · rw [if_neg hz]
      have hk := key (Mat.mk' C.nr B.rank 0) rfl rfl
      refine ⟨_, cat_prod β hk hC rfl h2, Or.inr ⟨Nat.lt_of_lt_of_le (Nat.pos_of_ne_zero fun h => hz (Or.inr h)) (Nat.le_add_left C.U.nc _), ?_⟩⟩
      unfold LR.factMatMul
      by_cases e : tb = .N
      · subst e; rfl
      · simp only [if_neg e]

/-- **C28** `add_lrmat_lrmat_product` into a low-rank matrix: the result is the exact `alpha op(U₁V₁) op(U₂V₂) + beta C`, as it is or recompressed. -/
theorem C28_lrmat_lrmat_lowrank_partial (ta tb : Trans) (α : R) (A B : LR R) (β : R) (C : LR R) (hA : A.WF) (hB : B.WF) (hC : C.WF)
    (hr : (A.rank ≠ 0 ∧ B.rank ≠ 0) ∨ β = 1) (h : ConformSz ta tb A.nr A.nc B.nr B.nc C.nr C.nc) :
    ∃ P : LR R, P.IsMat C.nr C.nc (prodE ta tb α A.entry B.entry (opCols ta A.nr A.nc) β C.entry) ∧
      (LR.mulLRLR rc ta tb α A B β C = P ∨ (0 < P.rank ∧ LR.mulLRLR rc ta tb α A B β C = rc P)) := by
  obtain ⟨h1, h2, h3⟩ := h
  have hvw : B.V.nr = B.U.nc := hB
  have hava : A.V.nr = A.U.nc := hA
  by_cases h0 : A.rank ≠ 0 ∧ B.rank ≠ 0
  swap
  · have hb : β = 1 := hr.resolve_left h0
    refine ⟨C, ⟨hC, rfl, rfl, fun i _ j _ => ?_⟩, Or.inl (if_neg h0)⟩
    unfold prodE
    rw [not_and_or, not_not, not_not] at h0
    rcases h0 with h0 | h0 <;> simp [opE_zero (entry_rank_zero h0), hb]
  · unfold LR.mulLRLR
    rw [if_pos h0]
    have hn : (if ta = .N then A.U.nr else A.V.nc) = C.nr := h1.symm
    have hk2 : (if tb = .N then B.U.nc else B.V.nr) = B.rank := by split_ifs; exacts [rfl, hvw]
    simp only [hn, hk2]
    have key : ∀ W0 : Mat R, W0.nr = C.nr → W0.nc = B.rank →
        let W := A.mulMat ta tb α (if tb = .N then B.U else B.V) 0 W0
        W.nr = C.nr ∧ W.nc = B.rank ∧ LR.IsMat ⟨W, LR.factMatMul tb B⟩ C.nr (opCols tb B.nr B.nc)
        (fun i j => α * ∑ q ∈ range (opCols ta A.nr A.nc), opE ta A.entry i q * opE tb B.entry q j) := by
      intro W0 hW hWc
      have hconf : ConformSz ta tb A.nr A.nc (if tb = .N then B.U else B.V).nr (if tb = .N then B.U else B.V).nc W0.nr W0.nc := by
        by_cases e : tb = .N
        · rw [if_pos e]; subst e; exact ⟨hW.trans h1, hWc, h3⟩
        · rw [if_neg e]
          refine ⟨hW.trans h1, ?_, ?_⟩
          · rw [hWc, opCols, if_neg e]; exact hvw.symm
          · rw [h3, opRows, opRows, if_neg e, if_neg e]; rfl
      obtain ⟨g1, g2, g3, -⟩ := mulMat_spec ta tb α A (if tb = .N then B.U else B.V) 0 W0 hA h0.1 hconf
      refine ⟨g1.trans hW, g2.trans hWc, ?_⟩
      refine factMatMul_spec tb α (fun i q => opE ta A.entry i q) (opCols ta A.nr A.nc) C.nr B _ hB (g1.trans hW) (g2.trans hWc) ?_
      intro i hi l hl
      rw [g3 i (by rw [hW]; exact hi) l (by rw [hWc]; exact hl), prodE, zero_mul, add_zero]
    by_cases hz : β = 0 ∨ C.rank = 0
    · rw [if_pos hz]
      have hk := (key (C.U.resize C.nr B.rank 0) rfl rfl).2.2
      have he : ∀ i < C.nr, ∀ j < opCols tb B.nr B.nc, (α * ∑ l ∈ range (opCols ta A.nr A.nc), opE ta A.entry i l * opE tb B.entry l j) =
          prodE ta tb α A.entry B.entry (opCols ta A.nr A.nc) β C.entry i j := by
        intro i _ j _
        unfold prodE
        rcases hz with hz | hz
        · rw [hz, zero_mul, add_zero]
        · rw [entry_rank_zero hz, mul_zero, add_zero]
      refine ⟨_, h2 ▸ IsMat.congr' hk he, Or.inl ?_⟩
      unfold LR.factMatMul
      by_cases e : tb = .N
      · subst e; rfl
      · simp only [if_neg e]
    · rw [if_neg hz]
      obtain ⟨w1, w2, hk⟩ := key ⟨C.U.nr, B.U.nc, (Mat.mk' C.U.nr (B.rank + C.U.nc) 0).data⟩ rfl rfl
      have hp := cat_prod β hk hC rfl h2
      generalize hW : A.mulMat ta tb α (if tb = .N then B.U else B.V) 0 ⟨C.U.nr, B.U.nc, (Mat.mk' C.U.nr (B.rank + C.U.nc) 0).data⟩ = W at *
      -- the same entries as the concatenation
      have hu : (if tb = .N then A.mulMat ta .N α B.U 0 (⟨C.U.nr, B.U.nc, (Mat.mk' C.U.nr (B.rank + C.U.nc) 0).data⟩ : Mat R)
          else A.mulMat ta tb α B.V 0 ⟨C.U.nr, B.U.nc, (Mat.mk' C.U.nr (B.rank + C.U.nc) 0).data⟩) = W := by
        rw [← hW]
        by_cases e : tb = .N
        · subst e; rfl
        · simp only [if_neg e]
      rw [hu]
      refine ⟨_, ?_, Or.inr ⟨Nat.lt_of_lt_of_le (Nat.pos_of_ne_zero fun h => hz (Or.inr h)) (Nat.le_add_left C.U.nc _), rfl⟩⟩
      have hwu : C.U.nr * B.U.nc = W.nr * W.nc := by rw [w1, w2]; rfl
      have hget : ∀ i < C.U.nr, ∀ l < B.rank + C.U.nc,
          Mat.get ⟨C.U.nr, B.rank + C.U.nc, copyTo (C.U.nc * C.U.nr) C.U.data 0 W.data (C.U.nr * B.U.nc)⟩ i l = (W.hcat C.U).get i l := by
        intro i hi l hl
        rw [hcat_get W C.U w1.symm (show i < W.nr by rw [w1]; exact hi) (by rw [w2]; exact hl)]
        show copyTo (C.U.nc * C.U.nr) C.U.data 0 W.data (C.U.nr * B.U.nc) (i + l * C.U.nr) = _
        have hbr : B.U.nc = B.rank := rfl
        by_cases hc : l < B.U.nc
        · have := mat_idx_lt hi hc
          rw [if_pos (by rw [w2]; exact hc), copyTo_out (by omega)]
          show _ = W.data (i + l * W.nr)
          rw [w1]; rfl
        · obtain ⟨q, rfl⟩ := Nat.exists_eq_add_of_le (Nat.le_of_not_lt hc)
          have e1 : i + (B.U.nc + q) * C.U.nr = C.U.nr * B.U.nc + (i + q * C.U.nr) := by ring
          have e2 : i + q * C.U.nr < C.U.nr * C.U.nc := mat_idx_lt hi (by omega)
          rw [if_neg (by rw [w2]; omega), e1, copyTo_in ⟨by omega, by rw [Nat.mul_comm C.U.nc]; omega⟩, w2]
          show C.U.data _ = C.U.data _
          congr 1
          rw [← hbr, Nat.add_sub_cancel_left, Nat.add_sub_cancel_left, Nat.zero_add]
      have hV : (if tb = .N then B.V else Mat.opT tb B.U) = LR.factMatMul tb B := rfl
      rw [hV]
      obtain ⟨q1, q2, q3, q4⟩ := hp
      refine ⟨?_, rfl, q3, fun i hi j hj => ?_⟩
      · refine Eq.trans q1 ?_
        show W.nc + C.U.nc = B.rank + C.U.nc
        rw [w2]
      · refine Eq.trans ?_ (q4 i hi j hj)
        show ∑ l ∈ range (B.rank + C.U.nc), _ = ∑ l ∈ range (W.nc + C.U.nc), _
        rw [w2]
        refine sum_congr rfl fun l hl => ?_
        congr 1
        exact hget i hi l (mem_range.1 hl)

end result

/-! ## C32: sum of low-rank matrices on nested blocks -/

omit [StarRing R] in
/-- A loop which copies an `n × m` block at row `r0`, column `c0`. -/
theorem block_get (m n ld r0 c0 : ℕ) (idx : ℕ → ℕ → ℕ) (f : ℕ → ℕ → R) (out : Buf R) (hfit : r0 + m ≤ ld)
    (hidx : ∀ j k, idx j k = (j + c0) * ld + r0 + k) {i j : ℕ} (hi : i < ld) :
    loop2 n m idx f out (i + j * ld) = if (c0 ≤ j ∧ j < c0 + n) ∧ (r0 ≤ i ∧ i < r0 + m) then f (j - c0) (i - r0) else out (i + j * ld) := by
  obtain ⟨g1, g2⟩ := loop2_get n m idx f out (by
    intro a _ b hb a' _ b' hb' he
    rw [hidx, hidx] at he
    have := rm_inj (mu := ld) (i := r0 + b) (i' := r0 + b') (j := a + c0) (j' := a' + c0) (by omega) (by omega) (by omega)
    omega)
  by_cases hc : (c0 ≤ j ∧ j < c0 + n) ∧ (r0 ≤ i ∧ i < r0 + m)
  · rw [if_pos hc, ← g1 (j - c0) (by omega) (i - r0) (by omega)]
    congr 1
    rw [hidx, Nat.sub_add_cancel hc.1.1]; omega
  · rw [if_neg hc]
    refine g2 _ fun a ha b hb he => hc ?_
    rw [hidx] at he
    have := rm_inj (mu := ld) (i := r0 + b) (i' := i) (j := a + c0) (j' := j) (by omega) hi (by omega)
    omega

omit [StarRing R] in
theorem resize_get (A : Mat R) (m n : ℕ) {i j : ℕ} (hi : i < m) (hj : j < n) : (A.resize m n 0).data (i + j * m) = 0 :=
  if_pos (mat_idx_lt hi hj)

omit [StarRing R] in
theorem mk'_get (m n : ℕ) (v : R) {i j : ℕ} (hi : i < m) (hj : j < n) : (Mat.mk' m n v).data (i + j * m) = v := if_pos (mat_idx_lt hi hj)

/-- Global index `a` in a cluster given by offset and size. -/
def InCl (c : ℕ × ℕ) (a : ℕ) : Prop := c.1 ≤ a ∧ a < c.1 + c.2

instance (c : ℕ × ℕ) (a : ℕ) : Decidable (InCl c a) := by unfold InCl; infer_instance

/-- The cluster `b` lies in the cluster `a`. -/
def SubIv (b a : ℕ × ℕ) : Prop := a.1 ≤ b.1 ∧ b.1 + b.2 ≤ a.1 + a.2

theorem containsIv_iff (a b : ℕ × ℕ) : containsIv a b = true ↔ SubIv b a := by
  unfold containsIv SubIv
  simp only [Bool.and_eq_true, decide_eq_true_eq]
  constructor <;> intro h <;> constructor <;> omega

omit [StarRing R] in
/-- **C32** Sum of two low-rank matrices living on blocks `xt × xs` and `yt × ys`, one of which contains the other: in the numbering of the
clusters, the result has on the block of `Y` the entries of `Y` plus those of `X` where `X` is defined. It is exact, and handed to the
recompression unless `Y` had rank 0. -/
theorem C32_sum (rc : LR R → LR R) (X Y : LR R) (xt xs yt ys : ℕ × ℕ) (hX : X.WF) (hY : Y.WF)
    (hxt : X.nr = xt.2) (hxs : X.nc = xs.2) (hyt : Y.nr = yt.2) (hys : Y.nc = ys.2)
    (hsub : (SubIv xt yt ∧ SubIv xs ys) ∨ (SubIv yt xt ∧ SubIv ys xs)) :
    ∃ P : LR R, P.WF ∧ P.nr = Y.nr ∧ P.nc = Y.nc ∧ P.rank = X.rank + Y.rank ∧
      (∀ a b, InCl yt a → InCl ys b → P.entry (a - yt.1) (b - ys.1) = Y.entry (a - yt.1) (b - ys.1) +
        if InCl xt a ∧ InCl xs b then X.entry (a - xt.1) (b - xs.1) else 0) ∧
      LR.addLR rc X xt xs Y yt ys = if Y.rank = 0 then P else rc P := by
  have hxw : X.V.nr = X.U.nc := hX
  have hyw : Y.V.nr = Y.U.nc := hY
  have xtn : X.U.nr = xt.2 := hxt
  have xsn : X.V.nc = xs.2 := hxs
  have ytn : Y.U.nr = yt.2 := hyt
  have ysn : Y.V.nc = ys.2 := hys
  unfold LR.addLR
  by_cases hc : SubIv xt yt ∧ SubIv xs ys
  · have h1 : (containsIv yt xt && containsIv ys xs) = true := by
      rw [Bool.and_eq_true, containsIv_iff, containsIv_iff]; exact hc
    rw [if_pos h1]
    obtain ⟨⟨t1, t2⟩, s1, s2⟩ := hc
    dsimp only
    by_cases hz : Y.rank = 0
    · rw [if_pos hz]
      refine ⟨_, ?_, ?_, ?_, ?_, ?_, (if_pos hz).symm⟩
      · rfl
      · rfl
      · rfl
      · rw [hz]; rfl
      · intro a b ha hb
        obtain ⟨a1, a2⟩ := ha
        obtain ⟨b1, b2⟩ := hb
        rw [entry_rank_zero hz, zero_add]
        show ∑ l ∈ range X.rank, loop2 _ _ _ _ _ (a - yt.1 + l * Y.U.nr) * loop2 _ _ _ _ _ (l + (b - ys.1) * X.rank) = _
        have hu : ∀ l < X.rank, loop2 X.U.nc X.U.nr (fun i k => i * Y.U.nr + (xt.1 - yt.1) + k) (fun i k => X.U.data (X.U.nr * i + k))
            (Y.U.resize Y.U.nr X.rank 0).data (a - yt.1 + l * Y.U.nr) = if InCl xt a then X.U.get (a - xt.1) l else 0 := by
          intro l hl
          rw [block_get X.U.nr X.U.nc Y.U.nr (xt.1 - yt.1) 0 _ _ _ (by omega) (fun j k => by simp) (by omega)]
          by_cases hin : InCl xt a
          · obtain ⟨q1, q2⟩ := hin
            have hl' : l < X.U.nc := hl
            rw [if_pos (show InCl xt a from ⟨q1, q2⟩), if_pos ⟨by omega, by omega⟩]
            show X.U.data _ = X.U.data _
            congr 1
            rw [Nat.mul_comm, Nat.sub_zero]; omega
          · rw [if_neg hin, if_neg (by unfold InCl at hin; omega)]
            exact resize_get _ _ _ (by omega) hl
        have hv : ∀ l < X.rank, loop2 X.V.nc X.V.nr (fun j k => (j + (xs.1 - ys.1)) * X.rank + k) (fun j k => X.V.data (j * X.V.nr + k))
            (Y.V.resize X.rank Y.V.nc 0).data (l + (b - ys.1) * X.rank) = if InCl xs b then X.V.get l (b - xs.1) else 0 := by
          intro l hl
          have hl' : l < X.V.nr := by rw [hxw]; exact hl
          rw [block_get X.V.nr X.V.nc X.rank 0 (xs.1 - ys.1) _ _ _ (by rw [hxw]; exact le_of_eq (Nat.zero_add _))
            (fun j k => by simp) hl]
          by_cases hin : InCl xs b
          · obtain ⟨q1, q2⟩ := hin
            rw [if_pos (show InCl xs b from ⟨q1, q2⟩), if_pos ⟨by omega, by omega⟩]
            show X.V.data _ = X.V.data _
            rw [show b - ys.1 - (xs.1 - ys.1) = b - xs.1 by omega, Nat.sub_zero, Nat.add_comm]
          · rw [if_neg hin, if_neg (by unfold InCl at hin; omega)]
            exact resize_get _ _ _ hl (by omega)
        refine (sum_congr rfl fun l hl => congrArg₂ (fun u v : R => u * v) (hu l (mem_range.1 hl)) (hv l (mem_range.1 hl))).trans ?_
        beta_reduce
        by_cases q1 : InCl xt a
        · by_cases q2 : InCl xs b
          · simp only [if_pos q1, if_pos q2, if_pos (And.intro q1 q2)]; rfl
          · simp only [if_neg q2, if_neg (fun h : InCl xt a ∧ InCl xs b => q2 h.2), mul_zero, sum_const_zero]
        · simp only [if_neg q1, if_neg (fun h : InCl xt a ∧ InCl xs b => q1 h.1), zero_mul, sum_const_zero]
    · rw [if_neg hz]
      refine ⟨_, ?_, ?_, ?_, ?_, ?_, (if_neg hz).symm⟩
      · show Y.V.nr + X.V.nr = X.U.nc + Y.U.nc; omega
      · rfl
      · rfl
      · rfl
      · intro a b ha hb
        obtain ⟨a1, a2⟩ := ha
        obtain ⟨b1, b2⟩ := hb
        show ∑ l ∈ range (X.U.nc + Y.U.nc), loop2 _ _ _ _ _ (a - yt.1 + l * Y.U.nr) * loop2 _ _ _ _ _ (l + (b - ys.1) * (Y.V.nr + X.V.nr)) = _
        have hu : ∀ l < X.U.nc + Y.U.nc, loop2 X.U.nc X.U.nr (fun i k => Y.U.nc * Y.U.nr + i * Y.U.nr + (xt.1 - yt.1) + k)
            (fun i k => X.U.data (X.U.nr * i + k)) (copyTo (Y.U.nc * Y.U.nr) Y.U.data 0 (Mat.mk' Y.U.nr (X.U.nc + Y.U.nc) 0).data 0)
            (a - yt.1 + l * Y.U.nr) = if l < Y.U.nc then Y.U.get (a - yt.1) l else if InCl xt a then X.U.get (a - xt.1) (l - Y.U.nc) else 0 := by
          intro l hl
          rw [block_get X.U.nr X.U.nc Y.U.nr (xt.1 - yt.1) Y.U.nc _ _ _ (by omega) (fun j k => by ring) (by omega)]
          by_cases hlt : l < Y.U.nc
          · have := mat_idx_lt (i := a - yt.1) (nr := Y.U.nr) (by omega) hlt
            rw [if_pos hlt, if_neg (by omega), copyTo_in ⟨by omega, by rw [Nat.mul_comm Y.U.nc]; omega⟩]
            show Y.U.data _ = Y.U.data _
            rw [Nat.zero_add, Nat.sub_zero]
          · rw [if_neg hlt]
            by_cases hin : InCl xt a
            · obtain ⟨q1, q2⟩ := hin
              rw [if_pos (show InCl xt a from ⟨q1, q2⟩), if_pos ⟨by omega, by omega⟩]
              show X.U.data _ = X.U.data _
              congr 1
              rw [Nat.mul_comm]; omega
            · have h3 : Y.U.nc * Y.U.nr ≤ l * Y.U.nr := Nat.mul_le_mul_right _ (by omega)
              rw [if_neg hin, if_neg (by unfold InCl at hin; omega), copyTo_out (by omega)]
              exact mk'_get _ _ _ (by omega) hl
        have hv : ∀ l < X.U.nc + Y.U.nc, loop2 X.V.nc X.V.nr (fun j k => (j + (xs.1 - ys.1)) * (Y.V.nr + X.V.nr) + Y.V.nr + k)
            (fun j k => X.V.data (j * X.V.nr + k))
            (loop2 Y.V.nc Y.V.nr (fun j k => j * (Y.V.nr + X.V.nr) + k) (fun j k => Y.V.data (j * Y.V.nr + k)) (Mat.mk' (Y.V.nr + X.V.nr) Y.V.nc 0).data)
            (l + (b - ys.1) * (Y.V.nr + X.V.nr)) =
            if l < Y.U.nc then Y.V.get l (b - ys.1) else if InCl xs b then X.V.get (l - Y.U.nc) (b - xs.1) else 0 := by
          intro l hl
          rw [block_get X.V.nr X.V.nc (Y.V.nr + X.V.nr) Y.V.nr (xs.1 - ys.1) _ _ _ (le_refl _)
            (fun j k => by ring) (by omega)]
          rw [block_get Y.V.nr Y.V.nc (Y.V.nr + X.V.nr) 0 0 _ _ _ (by omega) (fun j k => by ring) (by omega)]
          by_cases hlt : l < Y.U.nc
          · rw [if_pos hlt, if_neg (by omega), if_pos ⟨by omega, by omega⟩]
            show Y.V.data _ = Y.V.data _
            rw [Nat.sub_zero, Nat.sub_zero, Nat.add_comm]
          · rw [if_neg hlt]
            by_cases hin : InCl xs b
            · obtain ⟨q1, q2⟩ := hin
              rw [if_pos (show InCl xs b from ⟨q1, q2⟩), if_pos ⟨by omega, by omega⟩]
              show X.V.data _ = X.V.data _
              rw [show b - ys.1 - (xs.1 - ys.1) = b - xs.1 by omega, hyw, Nat.add_comm]
            · rw [if_neg hin, if_neg (by unfold InCl at hin; omega), if_neg (by omega)]
              exact mk'_get _ _ _ (by omega) (by omega)
        refine (sum_congr rfl fun l hl => congrArg₂ (fun u v : R => u * v) (hu l (mem_range.1 hl)) (hv l (mem_range.1 hl))).trans ?_
        beta_reduce
        rw [Nat.add_comm, sum_range_add]
        congr 1
        · refine sum_congr rfl fun l hl => ?_
          have hl' : l < Y.U.nc := mem_range.1 hl
          rw [if_pos hl', if_pos hl']
        · have hn : ∀ l, ¬ (Y.U.nc + l < Y.U.nc) := fun l => by omega
          simp only [if_neg (hn _), Nat.add_sub_cancel_left]
          by_cases q1 : InCl xt a
          · by_cases q2 : InCl xs b
            · simp only [if_pos q1, if_pos q2, if_pos (And.intro q1 q2)]; rfl
            · simp only [if_neg q2, if_neg (fun h : InCl xt a ∧ InCl xs b => q2 h.2), mul_zero, sum_const_zero]
          · simp only [if_neg q1, if_neg (fun h : InCl xt a ∧ InCl xs b => q1 h.1), zero_mul, sum_const_zero]
  · have hc2 := hsub.resolve_left hc
    have h1 : ¬ (containsIv yt xt && containsIv ys xs) = true := by
      rw [Bool.and_eq_true, containsIv_iff, containsIv_iff]; exact hc
    have h2 : (containsIv xt yt && containsIv xs ys) = true := by
      rw [Bool.and_eq_true, containsIv_iff, containsIv_iff]; exact hc2
    rw [if_neg h1, if_pos h2]
    obtain ⟨⟨t1, t2⟩, s1, s2⟩ := hc2
    dsimp only
    by_cases hz : Y.rank = 0
    · rw [if_pos hz]
      refine ⟨_, ?_, ?_, ?_, ?_, ?_, (if_pos hz).symm⟩
      · rfl
      · rfl
      · rfl
      · rw [hz]; rfl
      · intro a b ha hb
        obtain ⟨a1, a2⟩ := ha
        obtain ⟨b1, b2⟩ := hb
        have hina : InCl xt a := ⟨by omega, by omega⟩
        have hinb : InCl xs b := ⟨by omega, by omega⟩
        rw [entry_rank_zero hz, zero_add, if_pos ⟨hina, hinb⟩]
        obtain ⟨q1, q2⟩ := hina
        obtain ⟨q3, q4⟩ := hinb
        show ∑ l ∈ range X.rank, loop2 X.U.nc Y.U.nr _ _ _ (a - yt.1 + l * Y.U.nr) * loop2 Y.V.nc X.V.nr _ _ _ (l + (b - ys.1) * X.rank) = _
        refine sum_congr rfl fun l hl => ?_
        have hl' : l < X.U.nc := mem_range.1 hl
        have hlv : l < X.V.nr := by omega
        rw [block_get Y.U.nr X.U.nc Y.U.nr 0 0 _ _ _ (by omega) (fun j k => by simp [Mat.resize]) (by omega),
          block_get X.V.nr Y.V.nc X.rank 0 0 _ _ _ (by rw [hxw]; exact le_of_eq (Nat.zero_add _)) (fun j k => by simp [Mat.resize]) hl',
          if_pos ⟨by omega, by omega⟩, if_pos ⟨by omega, by omega⟩]
        show X.U.data _ * X.V.data _ = X.U.data _ * X.V.data _
        congr 2
        · rw [Nat.sub_zero, Nat.sub_zero, Nat.mul_comm]; omega
        · rw [Nat.sub_zero, Nat.sub_zero, show b - ys.1 + (ys.1 - xs.1) = b - xs.1 by omega, Nat.add_comm]
    · rw [if_neg hz]
      refine ⟨_, ?_, ?_, ?_, ?_, ?_, (if_neg hz).symm⟩
      · show Y.V.nr + X.V.nr = X.U.nc + Y.U.nc; omega
      · rfl
      · rfl
      · rfl
      · intro a b ha hb
        obtain ⟨a1, a2⟩ := ha
        obtain ⟨b1, b2⟩ := hb
        have hina : InCl xt a := ⟨by omega, by omega⟩
        have hinb : InCl xs b := ⟨by omega, by omega⟩
        rw [if_pos ⟨hina, hinb⟩]
        obtain ⟨q1, q2⟩ := hina
        obtain ⟨q3, q4⟩ := hinb
        show ∑ l ∈ range (X.U.nc + Y.U.nc), loop2 _ _ _ _ _ (a - yt.1 + l * Y.U.nr) * loop2 _ _ _ _ _ (l + (b - ys.1) * (Y.V.nr + X.V.nr)) = _
        have hu : ∀ l < X.U.nc + Y.U.nc, loop2 X.U.nc Y.U.nr (fun i k => Y.U.nc * Y.U.nr + i * Y.U.nr + k)
            (fun i k => X.U.data (X.U.nr * i + (yt.1 - xt.1) + k)) (copyTo (Y.U.nc * Y.U.nr) Y.U.data 0 (Mat.mk' Y.U.nr (X.U.nc + Y.U.nc) 0).data 0)
            (a - yt.1 + l * Y.U.nr) = if l < Y.U.nc then Y.U.get (a - yt.1) l else X.U.get (a - xt.1) (l - Y.U.nc) := by
          intro l hl
          rw [block_get Y.U.nr X.U.nc Y.U.nr 0 Y.U.nc _ _ _ (by omega) (fun j k => by ring) (by omega)]
          by_cases hlt : l < Y.U.nc
          · have := mat_idx_lt (i := a - yt.1) (nr := Y.U.nr) (by omega) hlt
            rw [if_pos hlt, if_neg (by omega), copyTo_in ⟨by omega, by rw [Nat.mul_comm Y.U.nc]; omega⟩]
            show Y.U.data _ = Y.U.data _
            rw [Nat.zero_add, Nat.sub_zero]
          · rw [if_neg hlt, if_pos ⟨by omega, by omega⟩]
            show X.U.data _ = X.U.data _
            congr 1
            rw [Nat.mul_comm]; omega
        have hv : ∀ l < X.U.nc + Y.U.nc, loop2 Y.V.nc X.V.nr (fun j k => j * (Y.V.nr + X.V.nr) + Y.V.nr + k)
            (fun j k => X.V.data ((j + (ys.1 - xs.1)) * X.V.nr + k))
            (loop2 Y.V.nc Y.V.nr (fun j k => j * (Y.V.nr + X.V.nr) + k) (fun j k => Y.V.data (j * Y.V.nr + k)) (Mat.mk' (Y.V.nr + X.V.nr) Y.V.nc 0).data)
            (l + (b - ys.1) * (Y.V.nr + X.V.nr)) =
            if l < Y.U.nc then Y.V.get l (b - ys.1) else X.V.get (l - Y.U.nc) (b - xs.1) := by
          intro l hl
          rw [block_get X.V.nr Y.V.nc (Y.V.nr + X.V.nr) Y.V.nr 0 _ _ _ (le_refl _)
            (fun j k => by ring) (by omega)]
          rw [block_get Y.V.nr Y.V.nc (Y.V.nr + X.V.nr) 0 0 _ _ _ (by omega) (fun j k => by ring) (by omega)]
          by_cases hlt : l < Y.U.nc
          · rw [if_pos hlt, if_neg (by omega), if_pos ⟨by omega, by omega⟩]
            show Y.V.data _ = Y.V.data _
            rw [Nat.sub_zero, Nat.sub_zero, Nat.add_comm]
          · rw [if_neg hlt, if_pos ⟨by omega, by omega⟩]
            show X.V.data _ = X.V.data _
            rw [Nat.sub_zero, show b - ys.1 + (ys.1 - xs.1) = b - xs.1 by omega, hyw, Nat.add_comm]
        refine (sum_congr rfl fun l hl => congrArg₂ (fun u v : R => u * v) (hu l (mem_range.1 hl)) (hv l (mem_range.1 hl))).trans ?_
        beta_reduce
        rw [Nat.add_comm, sum_range_add]
        congr 1
        · refine sum_congr rfl fun l hl => ?_
          have hl' : l < Y.U.nc := mem_range.1 hl
          rw [if_pos hl', if_pos hl']
        · have hn : ∀ l, ¬ (Y.U.nc + l < Y.U.nc) := fun l => by omega
          simp only [if_neg (hn _), Nat.add_sub_cancel_left]
          rfl

omit [StarRing R] in
/-- **C32** If neither block contains the other, the sum is refused: `Y` is unchanged (an error is logged). -/
theorem C32_disjoint_refused (rc : LR R → LR R) (X Y : LR R) (xt xs yt ys : ℕ × ℕ)
    (h1 : ¬ (SubIv xt yt ∧ SubIv xs ys)) (h2 : ¬ (SubIv yt xt ∧ SubIv ys xs)) : LR.addLR rc X xt xs Y yt ys = Y := by
  unfold LR.addLR
  rw [if_neg, if_neg]
  · rw [Bool.and_eq_true, containsIv_iff, containsIv_iff]; exact h2
  · rw [Bool.and_eq_true, containsIv_iff, containsIv_iff]; exact h1

/-! ### Examples -/

/-- Rank 2, `3 × 2`. -/
def exLR : LR ℤ := ⟨⟨3, 2, fun p => p + 1⟩, ⟨2, 2, fun p => 2 * p - 1⟩⟩

/-- Rank 0, `3 × 2`. -/
def exLR0 : LR ℤ := ⟨⟨3, 0, fun _ => 0⟩, ⟨0, 2, fun _ => 0⟩⟩

example : (exLR.mulMat .N .T 2 ⟨4, 2, fun p => (p : ℤ)⟩ 3 ⟨3, 4, fun p => (p : ℤ)⟩).get 2 3 =
    prodE .N .T 2 exLR.entry (Mat.get ⟨4, 2, fun p => (p : ℤ)⟩) 2 3 (Mat.get ⟨3, 4, fun p => (p : ℤ)⟩) 2 3 :=
  (C28_lrmat_matrix_partial .N .T 2 exLR ⟨4, 2, fun p => (p : ℤ)⟩ 3 ⟨3, 4, fun p => (p : ℤ)⟩ rfl (Or.inl (by decide)) ⟨rfl, rfl, rfl⟩).2.2.1 2 (by decide) 3 (by decide)

example : (LR.matMul .T .N 2 ⟨3, 4, fun p => (p : ℤ)⟩ exLR 3 ⟨4, 2, fun p => (p : ℤ)⟩).get 2 1 =
    prodE .T .N 2 (Mat.get ⟨3, 4, fun p => (p : ℤ)⟩) exLR.entry 3 3 (Mat.get ⟨4, 2, fun p => (p : ℤ)⟩) 2 1 :=
  (C28_matrix_lrmat_partial .T .N 2 ⟨3, 4, fun p => (p : ℤ)⟩ exLR 3 ⟨4, 2, fun p => (p : ℤ)⟩ rfl (Or.inl (by decide)) ⟨rfl, rfl, rfl⟩).2.2.1 2 (by decide) 1 (by decide)

example : (exLR.mulLR .N .T 2 exLR 3 ⟨3, 3, fun p => (p : ℤ)⟩).get 2 1 = prodE .N .T 2 exLR.entry exLR.entry 2 3 (Mat.get ⟨3, 3, fun p => (p : ℤ)⟩) 2 1 :=
  (C28_lrmat_lrmat_partial .N .T 2 exLR exLR 3 ⟨3, 3, fun p => (p : ℤ)⟩ rfl rfl (Or.inl (by decide)) ⟨rfl, rfl, rfl⟩).2.2.1 2 (by decide) 1 (by decide)

/-- Rank 1, `2 × 2`. -/
def exLR1 : LR ℤ := ⟨⟨2, 1, fun p => p + 3⟩, ⟨1, 2, fun p => 5 - p⟩⟩

example : ∃ P : LR ℤ, P.IsMat 3 2 (prodE .N .T 2 exLR.entry exLR1.entry 2 3 exLR.entry) ∧
    (LR.mulLRLR id .N .T 2 exLR exLR1 3 exLR = P ∨ (0 < P.rank ∧ LR.mulLRLR id .N .T 2 exLR exLR1 3 exLR = id P)) :=
  C28_lrmat_lrmat_lowrank_partial id .N .T 2 exLR exLR1 3 exLR rfl rfl rfl (Or.inl (by decide)) ⟨rfl, rfl, rfl⟩

example : ∃ P : LR ℤ, P.IsMat 2 2 (prodE .T .N 2 exLR.entry exLR.U.get 3 3 exLR1.entry) ∧
    (LR.mulMatLR id .T .N 2 exLR exLR.U 3 exLR1 = P ∨ (0 < P.rank ∧ LR.mulMatLR id .T .N 2 exLR exLR.U 3 exLR1 = id P)) :=
  C28_lrmat_matrix_lowrank_partial id .T .N 2 exLR exLR.U 3 exLR1 rfl rfl (Or.inl (by decide)) ⟨rfl, rfl, rfl⟩

example : ∃ P : LR ℤ, P.IsMat 2 2 (prodE .T .N 2 exLR.U.get exLR.entry 3 3 exLR1.entry) ∧
    (LR.matMulLR id .T .N 2 exLR.U exLR 3 exLR1 = P ∨ (0 < P.rank ∧ LR.matMulLR id .T .N 2 exLR.U exLR 3 exLR1 = id P)) :=
  C28_matrix_lrmat_lowrank_partial id .T .N 2 exLR.U exLR 3 exLR1 rfl rfl (Or.inl (by decide)) ⟨rfl, rfl, rfl⟩

example : (∃ P : LR ℤ, P.WF ∧ P.nr = 3 ∧ P.nc = 2 ∧ P.rank = 3 ∧
    (∀ a b, InCl (4, 3) a → InCl (7, 2) b → P.entry (a - 4) (b - 7) = exLR.entry (a - 4) (b - 7) +
      if InCl (5, 2) a ∧ InCl (7, 2) b then exLR1.entry (a - 5) (b - 7) else 0) ∧
    LR.addLR id exLR1 (5, 2) (7, 2) exLR (4, 3) (7, 2) = if exLR.rank = 0 then P else id P) ∧
    (LR.addLR id exLR1 (5, 2) (7, 2) exLR (4, 3) (7, 2)).entry 1 1 = exLR.entry 1 1 + exLR1.entry 0 1 :=
  ⟨C32_sum id exLR1 exLR (5, 2) (7, 2) (4, 3) (7, 2) rfl rfl rfl rfl rfl rfl (Or.inl ⟨⟨by decide, by decide⟩, by decide, by decide⟩),
    by decide +kernel⟩

/-- **C28, defect** A low-rank matrix of rank 0 is a zero matrix: the result should be `beta C`. The products leave `C` as it is. -/
theorem C28_rank_zero_defect :
    exLR0.WF ∧ (∀ i j, exLR0.entry i j = 0) ∧
    (exLR0.mulMat .N .N 1 ⟨2, 2, fun _ => 1⟩ 0 ⟨3, 2, fun _ => 5⟩).get 0 0 ≠ prodE .N .N 1 exLR0.entry (fun _ _ => 1) 2 0 (fun _ _ => 5) 0 0 ∧
    (LR.matMul .N .N 1 ⟨2, 3, fun _ => 1⟩ exLR0 0 ⟨2, 2, fun _ => 5⟩).get 0 0 ≠ prodE .N .N 1 (fun _ _ => 1) exLR0.entry 3 0 (fun _ _ => 5) 0 0 ∧
    lrmatVec .N 1 exLR0.nr exLR0.nc exLR0.rank exLR0.U.get exLR0.V.get (fun _ => 1) 0 (fun _ => 5) 0 ≠
      1 * (∑ j ∈ range 2, exLR0.entry 0 j * 1) + 0 * 5 := by
  refine ⟨rfl, fun i j => rfl, by decide +kernel, by decide +kernel, by decide +kernel⟩

end Htool
