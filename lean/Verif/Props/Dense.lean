import Verif.Dense
import Mathlib.NumberTheory.Zsqrtd.GaussianInt

/-! # Properties C33 and C35: dense matrices -/

namespace Htool
open Finset
variable {R : Type*}

/-! ## C33: container laws

The logical matrix is the function `(i, j) ↦ A.get i j` on `i < nr`, `j < nc`. -/

/-- **C33.** A stored entry is read back, the others are unchanged, and all accesses are inside the storage. -/
theorem C33_set_get (A : Mat R) (i j : ℕ) (x : R) :
    (A.set i j x).get i j = x ∧
    (∀ k l, i < A.nr → k < A.nr → (k, l) ≠ (i, j) → (A.set i j x).get k l = A.get k l) ∧
    (i < A.nr → j < A.nc → i + j * A.nr < A.nr * A.nc) := by
  refine ⟨by simp [Mat.set, Mat.get], fun k l hi hk hne => ?_, mat_idx_lt⟩
  show Function.update A.data _ x _ = _
  rw [Function.update_of_ne]
  · rfl
  · intro h
    obtain ⟨rfl, rfl⟩ := rm_inj hk hi h
    exact hne rfl

/-- **C33.** `get_row(i)` has one entry per column, the entries of the row. -/
theorem C33_get_row (A : Mat R) (i : ℕ) : (A.getRow i).length = A.nc ∧ ∀ j < A.nc, (A.getRow i)[j]? = some (A.get i j) := by
  rw [Mat.getRow, Mat.stridedSlice_eq]
  refine ⟨by simp, fun j hj => by simp [hj, Mat.get]⟩

/-- **C33.** `get_col(j)` has one entry per row, the entries of the column. -/
theorem C33_get_col (A : Mat R) (j : ℕ) : (A.getCol j).length = A.nr ∧ ∀ i < A.nr, (A.getCol j)[i]? = some (A.get i j) := by
  rw [Mat.getCol, Mat.stridedSlice_eq]
  refine ⟨by simp, fun i hi => ?_⟩
  simp [hi, Mat.get, Nat.add_comm]

/-- **C33.** `set_row(r, a)` replaces row `r` and nothing else. -/
theorem C33_set_row [Zero R] (A : Mat R) (r : ℕ) (hr : r < A.nr) (a : List R) :
    (A.setRow r a).nr = A.nr ∧ (A.setRow r a).nc = A.nc ∧
    ∀ i < A.nr, ∀ j < A.nc, (A.setRow r a).get i j = if i = r then a.getD j 0 else A.get i j := by
  refine ⟨rfl, rfl, fun i hi j hj => ?_⟩
  show (A.setStrided r A.nc A.nr a).data (i + j * A.nr) = _
  rw [Mat.setStrided_eq]
  obtain ⟨h1, h2⟩ := foldl_update_get (fun k => r + k * A.nr) (fun k => a.getD k 0) A.data A.nc
    (fun k _ l _ h => (rm_inj hr hr h).2)
  by_cases e : i = r
  · subst e; rw [if_pos rfl]; exact h1 j hj
  · rw [if_neg e]
    exact h2 _ (fun k _ h => e (rm_inj hr hi h).1.symm)

/-- **C33.** `set_col(c, a)` replaces column `c` and nothing else. -/
theorem C33_set_col [Zero R] (A : Mat R) (c : ℕ) (a : List R) :
    (A.setCol c a).nr = A.nr ∧ (A.setCol c a).nc = A.nc ∧
    ∀ i < A.nr, ∀ j < A.nc, (A.setCol c a).get i j = if j = c then a.getD i 0 else A.get i j := by
  refine ⟨rfl, rfl, fun i hi j hj => ?_⟩
  show (A.setStrided (c * A.nr) A.nr 1 a).data (i + j * A.nr) = _
  rw [Mat.setStrided_eq]
  obtain ⟨h1, h2⟩ := foldl_update_get (fun k => c * A.nr + k * 1) (fun k => a.getD k 0) A.data A.nr
    (fun k _ l _ h => by simpa using h)
  by_cases e : j = c
  · subst e
    rw [if_pos rfl]
    have := h1 i hi
    simp only [Nat.mul_one] at this
    rw [Nat.add_comm i]
    simpa using this
  · rw [if_neg e]
    refine h2 _ (fun k hk h => e ?_)
    exact (rm_inj hk hi (by rw [← h]; ring)).2.symm

/-- **C33.** Reading back a row just written. -/
theorem C33_row_round_trip [Zero R] (A : Mat R) (r : ℕ) (hr : r < A.nr) (a : List R) (ha : a.length = A.nc) :
    (A.setRow r a).getRow r = a := by
  obtain ⟨h0, h1, h2⟩ := C33_set_row A r hr a
  obtain ⟨g1, g2⟩ := C33_get_row (A.setRow r a) r
  apply List.ext_getElem?
  intro j
  by_cases hj : j < A.nc
  · rw [g2 j (by omega), h2 r hr j hj, if_pos rfl, List.getD_eq_getElem _ _ (by omega), List.getElem?_eq_getElem]
  · rw [List.getElem?_eq_none (by omega), List.getElem?_eq_none (by omega)]

/-- **C33.** Reading back a column just written. -/
theorem C33_col_round_trip [Zero R] (A : Mat R) (c : ℕ) (hc : c < A.nc) (a : List R) (ha : a.length = A.nr) :
    (A.setCol c a).getCol c = a := by
  obtain ⟨h0, h1, h2⟩ := C33_set_col A c a
  obtain ⟨g1, g2⟩ := C33_get_col (A.setCol c a) c
  apply List.ext_getElem?
  intro i
  by_cases hi : i < A.nr
  · rw [g2 i (by omega), h2 i hi c hc, if_pos rfl, List.getD_eq_getElem _ _ (by omega), List.getElem?_eq_getElem]
  · rw [List.getElem?_eq_none (by omega), List.getElem?_eq_none (by omega)]

/-- **C33.** `transpose(A, B)` with `B` of the transposed size. -/
theorem C33_transpose (A B : Mat R) (h1 : B.nr = A.nc) :
    (Mat.transpose A B).nr = B.nr ∧ (Mat.transpose A B).nc = B.nc ∧
    ∀ i < A.nr, ∀ j < A.nc, (Mat.transpose A B).get j i = A.get i j := by
  rw [Mat.transpose_eq]
  refine ⟨rfl, rfl, fun i hi j hj => ?_⟩
  exact (loop2_get A.nr A.nc (fun i j => j + i * B.nr) A.get B.data
    (fun i _ j hj i' _ j' hj' h => (rm_inj (by omega) (by omega) h).symm)).1 i hi j hj

/-- **C33.** Transposing twice gives the matrix back. -/
theorem C33_transpose_involutive (A B C : Mat R) (h1 : B.nr = A.nc) (h2 : B.nc = A.nr) (h3 : C.nr = A.nr) :
    ∀ i < A.nr, ∀ j < A.nc, (Mat.transpose (Mat.transpose A B) C).get i j = A.get i j := by
  obtain ⟨g1, g2, g3⟩ := C33_transpose A B h1
  obtain ⟨k1, k2, k3⟩ := C33_transpose (Mat.transpose A B) C (by omega)
  intro i hi j hj
  rw [k3 j (by omega) i (by omega), g3 i hi j hj]

/-- **C33.** After `resize` the matrix has the requested size and every entry is the given value. -/
theorem C33_resize (A : Mat R) (nbr nbc : ℕ) (v : R) :
    (A.resize nbr nbc v).nr = nbr ∧ (A.resize nbr nbc v).nc = nbc ∧ ∀ i < nbr, ∀ j < nbc, (A.resize nbr nbc v).get i j = v :=
  ⟨rfl, rfl, fun i hi j hj => by
    show (if i + j * nbr < nbr * nbc then v else A.data (i + j * nbr)) = v
    rw [if_pos (mat_idx_lt hi hj)]⟩

section ring
variable [CommRing R]

/-- **C33.** The arithmetic operators compute the entrywise operations. -/
theorem C33_operators (A B : Mat R) (a : R) (h1 : A.nr = B.nr) (h2 : A.nc = B.nc) :
    (∀ i < A.nr, ∀ j < A.nc, (A.add B).get i j = A.get i j + B.get i j) ∧
    (∀ i < A.nr, ∀ j < A.nc, (A.sub B).get i j = A.get i j - B.get i j) ∧
    (∀ i < A.nr, ∀ j < A.nc, (A.smul a).get i j = A.get i j * a) ∧
    (∀ i < A.nr, ∀ j < A.nc, (A.scale a).get i j = a * A.get i j) ∧
    ((A.add B).nr, (A.add B).nc) = (A.nr, A.nc) ∧ ((A.sub B).nr, (A.sub B).nc) = (A.nr, A.nc) ∧
    ((A.smul a).nr, (A.smul a).nc) = (A.nr, A.nc) := by
  refine ⟨fun i hi j hj => ?_, fun i hi j hj => ?_, fun i hi j hj => ?_, fun i hi j hj => ?_, ?_, ?_, ?_⟩
  · exact (Mat.fill_get _).2.2 i (by omega) j (by omega)
  · exact (Mat.fill_get _).2.2 i (by omega) j (by omega)
  · exact (Mat.fill_get _).2.2 i hi j hj
  · show (if i + j * A.nr < A.nc * A.nr then _ else _) = _
    rw [if_pos (by have := mat_idx_lt hi hj; rw [Nat.mul_comm A.nc]; exact this)]; rfl
  · rw [Prod.mk.injEq]; exact ⟨(Mat.fill_get _).1.trans h1.symm, (Mat.fill_get _).2.1.trans h2.symm⟩
  · rw [Prod.mk.injEq]; exact ⟨(Mat.fill_get _).1.trans h1.symm, (Mat.fill_get _).2.1.trans h2.symm⟩
  · rw [Prod.mk.injEq]; exact ⟨(Mat.fill_get _).1, (Mat.fill_get _).2.1⟩

/-- **C33.** `operator*` with a vector and with a matrix are the matrix products. -/
theorem C33_products (A B : Mat R) (x : Buf R) :
    (∀ i < A.nr, A.mulVec x i = ∑ k ∈ range A.nc, A.get i k * x k) ∧
    ((A.mul B).nr = A.nr ∧ (A.mul B).nc = B.nc ∧
      ∀ i < A.nr, ∀ j < B.nc, (A.mul B).get i j = ∑ k ∈ range A.nc, A.get i k * B.get k j) :=
  ⟨Mat.mulVec_get A x, Mat.mul_get A B⟩

end ring

/-- **C33.** `argmax` returns the indices of an entry of largest modulus, the first one in storage order. -/
theorem C33_argmax {K : Type*} [LinearOrder K] (ab : R → K) (A : Mat R) (hr : 0 < A.nr) (hc : 0 < A.nc) :
    (A.argmax ab).1 < A.nr ∧ (A.argmax ab).2 < A.nc ∧
    (∀ i < A.nr, ∀ j < A.nc, ab (A.get i j) ≤ ab (A.get (A.argmax ab).1 (A.argmax ab).2)) ∧
    ∀ i < A.nr, ∀ j < A.nc, (j < (A.argmax ab).2 ∨ j = (A.argmax ab).2 ∧ i < (A.argmax ab).1) →
      ab (A.get i j) < ab (A.get (A.argmax ab).1 (A.argmax ab).2) := by
  obtain ⟨h1, h2, h3⟩ := Mat.maxElement_spec ab A.data (Nat.mul_pos hc hr)
  set p := Mat.maxElement ab A.data (A.nc * A.nr) with hp
  have e1 : A.argmax ab = (p % A.nr, p / A.nr) := rfl
  have e2 : A.get (p % A.nr) (p / A.nr) = A.data p := by
    show A.data (p % A.nr + p / A.nr * A.nr) = _
    rw [Nat.mul_comm, Nat.mod_add_div]
  rw [e1]
  refine ⟨Nat.mod_lt _ hr, Nat.div_lt_of_lt_mul (by rw [Nat.mul_comm]; exact h1), fun i hi j hj => ?_, fun i hi j hj hlt => ?_⟩
  · rw [e2]
    exact h2 _ (by have := mat_idx_lt hi hj; rw [Nat.mul_comm A.nc]; exact this)
  · rw [e2]
    apply h3
    have hmod := Nat.mod_add_div p A.nr
    have hlt' := Nat.mod_lt p hr
    simp only at hlt
    rcases hlt with hl | ⟨rfl, hl⟩
    · have : (j + 1) * A.nr ≤ p / A.nr * A.nr := Nat.mul_le_mul_right _ hl
      have e3 : p / A.nr * A.nr = A.nr * (p / A.nr) := Nat.mul_comm _ _
      have e4 : (j + 1) * A.nr = j * A.nr + A.nr := by ring
      omega
    · have e3 : p / A.nr * A.nr = A.nr * (p / A.nr) := Nat.mul_comm _ _
      omega

/-- **C33.** `normFrob` accumulates the sum of the squared moduli. -/
theorem C33_normFrob {K : Type*} [CommSemiring K] (ab : R → K) (A : Mat R) :
    A.frobSq ab = ∑ i ∈ range A.nr, ∑ j ∈ range A.nc, ab (A.get i j) ^ 2 := Mat.frobSq_eq ab A

/-- Non-vacuity of C33: a 2 × 3 matrix; its transpose, a row, a product and its largest entry. -/
def exMat : Mat ℤ := ⟨2, 3, fun i => [1, -2, 3, 4, -7, 6].getD i 0⟩

example : exMat.getRow 1 = [-2, 4, 6] ∧ exMat.getCol 1 = [3, 4] ∧ exMat.argmax (fun x : ℤ => |x|) = (0, 2) ∧
    (Mat.transpose exMat (Mat.mk' 3 2 0)).getCol 1 = [-2, 4, 6] ∧
    (exMat.mul (Mat.transpose exMat (Mat.mk' 3 2 0))).getRow 0 = [59, -32] ∧ exMat.frobSq (fun x : ℤ => x) = 115 := by
  decide +kernel

/-! ## C35: BLAS wrappers -/

section blas
variable [CommRing R] [StarRing R]

/-- The shapes of `op(A)`, `op(B)` and `C` agree. -/
structure Conform (ta tb : Trans) (A B C : Mat R) : Prop where
  rows : C.nr = opRows ta A.nr A.nc
  cols : C.nc = opCols tb B.nr B.nc
  inner : opCols ta A.nr A.nc = opRows tb B.nr B.nc

theorem gemm_pos {ta tb : Trans} {m n k : ℕ} {α : R} {A : Buf R} {lda : ℕ} {B : Buf R} {ldb : ℕ} {β : R} {C : Buf R} {i j ldc : ℕ}
    (hl : i < ldc) (hi : i < m) (hj : j < n) : gemm ta tb m n k α A lda B ldb β C ldc (i + j * ldc) =
      α * (∑ l ∈ range k, opE ta (ldM lda A) i l * opE tb (ldM ldb B) l j) + β * C (i + j * ldc) := by
  have e1 : (i + j * ldc) % ldc = i := by rw [Nat.add_mul_mod_self_right, Nat.mod_eq_of_lt hl]
  have e2 : (i + j * ldc) / ldc = j := by
    rw [Nat.add_mul_div_right _ _ (by omega), Nat.div_eq_of_lt hl, Nat.zero_add]
  simp only [gemm, e1, e2]
  rw [if_pos ⟨hi, hj⟩]

theorem opE_get (tr : Trans) (A : Mat R) {ld : ℕ} (h : ld = A.nr) (i j : ℕ) : opE tr (ldM ld A.data) i j = opE tr A.get i j := by
  subst h
  cases tr <;> simp only [opE, ldM, Mat.get, Nat.mul_comm]

/-- **C35.** `add_matrix_matrix_product` computes `alpha op(A) op(B) + beta C` for all combinations of `op`, and touches nothing
outside `C`. -/
theorem C35_matrix_matrix_product (ta tb : Trans) (α : R) (A B : Mat R) (β : R) (C : Mat R) (h : Conform ta tb A B C) :
    (Mat.addMM ta tb α A B β C).nr = C.nr ∧ (Mat.addMM ta tb α A B β C).nc = C.nc ∧
    (∀ i < C.nr, ∀ j < C.nc, (Mat.addMM ta tb α A B β C).get i j =
      α * (∑ l ∈ range (opCols ta A.nr A.nc), opE ta A.get i l * opE tb B.get l j) + β * C.get i j) ∧
    ∀ p, C.nr * C.nc ≤ p → (Mat.addMM ta tb α A B β C).data p = C.data p := by
  obtain ⟨hr, hc, hk⟩ := h
  have hlda : (if ta = .N then C.nr else if ta = .N then A.nc else A.nr) = A.nr := by
    cases ta <;> simp [opRows] at hr ⊢; exact hr
  have hldb : (if tb = .N then (if ta = .N then A.nc else A.nr) else C.nc) = B.nr := by
    cases tb <;> simp [opCols, opRows] at hc hk ⊢
    · exact hk
    · exact hc
    · exact hc
  refine ⟨rfl, rfl, fun i hi j hj => ?_, fun p hp => ?_⟩
  · show gemm ta tb C.nr C.nc _ α A.data _ B.data _ β C.data C.nr (i + j * C.nr) = _
    rw [gemm_pos hi hi hj]
    congr 2
    refine sum_congr rfl fun l _ => ?_
    simp only [mmArgs]
    rw [opE_get ta A hlda, opE_get tb B hldb]
  · show gemm ta tb C.nr C.nc _ α A.data _ B.data _ β C.data C.nr p = _
    simp only [gemm]
    rw [if_neg]
    rintro ⟨h1, h2⟩
    have : p < C.nr * C.nc := by
      have h3 : 0 < C.nr := by omega
      rwa [Nat.div_lt_iff_lt_mul h3, Nat.mul_comm] at h2
    omega

/-- Entry `(i, l)` of `op(X)` read by `gemm` from storage with leading dimension `ld`. -/
def readIdx (tr : Trans) (ld i l : ℕ) : ℕ := if tr = .N then i + ld * l else l + ld * i

theorem ldM_readIdx (tr : Trans) (ld : ℕ) (b : Buf R) (i l : ℕ) :
    opE tr (ldM ld b) i l = if tr = .C then star (b (readIdx tr ld i l)) else b (readIdx tr ld i l) := by
  cases tr <;> simp [opE, ldM, readIdx]

/-- **C35 (bounds).** With conforming shapes every entry read by the BLAS call is inside the storage of `A`, resp. `B`, every entry
written is inside that of `C`, and the leading dimensions satisfy the requirements of BLAS when the sizes are positive. -/
theorem C35_accesses_in_bounds (ta tb : Trans) (A B C : Mat R) (h : Conform ta tb A B C) :
    let a := mmArgs ta tb A C
    (∀ i < a.m, ∀ l < a.k, readIdx ta a.lda i l < A.nr * A.nc) ∧
    (∀ l < a.k, ∀ j < a.n, readIdx tb a.ldb l j < B.nr * B.nc) ∧
    (∀ i < a.m, ∀ j < a.n, i + j * a.ldc < C.nr * C.nc) ∧
    (if ta = .N then a.m else a.k) ≤ a.lda ∧ (if tb = .N then a.k else a.n) ≤ a.ldb ∧ a.m ≤ a.ldc := by
  obtain ⟨hr, hc, hk⟩ := h
  simp only [mmArgs]
  have key : ∀ {nr nc i l : ℕ}, i < nr → l < nc → i + nr * l < nr * nc := fun hi hl => by
    have := mat_idx_lt hi hl; rwa [Nat.mul_comm _ (_ : ℕ)] at this
  refine ⟨fun i hi l hl => ?_, fun l hl j hj => ?_, fun i hi j hj => mat_idx_lt hi hj, ?_, ?_, le_refl _⟩
  · cases ta <;> simp [readIdx, opRows] at hr hl ⊢
    · rw [hr]; exact key (by omega) hl
    · exact key hl (by omega)
    · exact key hl (by omega)
  · have hK : (if ta = .N then A.nc else A.nr) = opCols ta A.nr A.nc := rfl
    rw [hK] at hl ⊢
    rw [hk] at hl ⊢
    cases tb
    · simp only [readIdx, opCols, opRows, if_true] at hc hl ⊢
      exact key (by omega) (by omega)
    · simp only [readIdx, opCols, opRows, reduceCtorEq, if_false] at hc hl ⊢
      rw [hc]; exact key (by omega) (by omega)
    · simp only [readIdx, opCols, opRows, reduceCtorEq, if_false] at hc hl ⊢
      rw [hc]; exact key (by omega) (by omega)
  · cases ta <;> simp
  · cases tb <;> simp

/-- Non-vacuity: shapes `2 × 3`, `3 × 2`. -/
example : Conform .N .N exMat (Mat.transpose exMat (Mat.mk' 3 2 0)) (Mat.mk' 2 2 5) ∧
    (Mat.addMM .N .N 1 exMat (Mat.transpose exMat (Mat.mk' 3 2 0)) 2 (Mat.mk' 2 2 5)).getRow 0 = [69, -22] ∧
    Conform .T .T exMat (Mat.mk' 4 2 1) (Mat.mk' 3 4 0) := by
  refine ⟨⟨?_, ?_, ?_⟩, ?_, ⟨?_, ?_, ?_⟩⟩ <;> decide +kernel

/-- **C35.** The symmetric wrapper: `A` (square, one triangle stored) multiplies from the left or from the right. -/
theorem C35_symmetric_product (side : Side) (u : UploType) (α : R) (A B : Mat R) (β : R) (C : Mat R)
    (hB : B.nr = C.nr) (hA : A.nr = if side = .L then C.nr else C.nc) :
    ∀ i < C.nr, ∀ j < C.nc, (Mat.addSymMM side u α A B β C).get i j = α * (match side with
        | .L => ∑ l ∈ range C.nr, symE u A.get i l * B.get l j
        | .R => ∑ l ∈ range C.nc, B.get i l * symE u A.get l j) + β * C.get i j := by
  intro i hi j hj
  have e1 : (i + j * C.nr) % C.nr = i := by rw [Nat.add_mul_mod_self_right, Nat.mod_eq_of_lt hi]
  have e2 : (i + j * C.nr) / C.nr = j := by
    rw [Nat.add_mul_div_right _ _ (by omega), Nat.div_eq_of_lt hi, Nat.zero_add]
  have eA : ldM (if side = .L then C.nr else C.nc) A.data = A.get := by
    funext i j; rw [← hA]; simp only [ldM, Mat.get, Nat.mul_comm]
  have eB : ldM C.nr B.data = B.get := by
    funext i j; rw [← hB]; simp only [ldM, Mat.get, Nat.mul_comm]
  show symm side u C.nr C.nc α A.data _ B.data C.nr β C.data C.nr (i + j * C.nr) = _
  simp only [symm, e1, e2, eA, eB]
  rw [if_pos ⟨hi, hj⟩]
  cases side <;> rfl

/-- **C35.** The hermitian wrapper. -/
theorem C35_hermitian_product (side : Side) (u : UploType) (α : R) (A B : Mat R) (β : R) (C : Mat R)
    (hB : B.nr = C.nr) (hA : A.nr = if side = .L then C.nr else C.nc) :
    ∀ i < C.nr, ∀ j < C.nc, (Mat.addHerMM side u α A B β C).get i j = α * (match side with
        | .L => ∑ l ∈ range C.nr, herE u A.get i l * B.get l j
        | .R => ∑ l ∈ range C.nc, B.get i l * herE u A.get l j) + β * C.get i j := by
  intro i hi j hj
  have e1 : (i + j * C.nr) % C.nr = i := by rw [Nat.add_mul_mod_self_right, Nat.mod_eq_of_lt hi]
  have e2 : (i + j * C.nr) / C.nr = j := by
    rw [Nat.add_mul_div_right _ _ (by omega), Nat.div_eq_of_lt hi, Nat.zero_add]
  have eA : ldM (if side = .L then C.nr else C.nc) A.data = A.get := by
    funext i j; rw [← hA]; simp only [ldM, Mat.get, Nat.mul_comm]
  have eB : ldM C.nr B.data = B.get := by
    funext i j; rw [← hB]; simp only [ldM, Mat.get, Nat.mul_comm]
  show hemm side u C.nr C.nc α A.data _ B.data C.nr β C.data C.nr (i + j * C.nr) = _
  simp only [hemm, e1, e2, eA, eB]
  rw [if_pos ⟨hi, hj⟩]
  cases side <;> rfl

/-- Row-major buffer seen as a matrix with `nc` columns. -/
def rowM (nc : ℕ) (b : Buf R) (i j : ℕ) : R := b (i * nc + j)

/-- **C35 (row major).** `in` holds `B` and `out` holds `C` in row-major order (`B` has `mu` columns if `transb = 'N'`, `mu` rows
otherwise): the wrapper computes `alpha op(A) op(B) + beta C`. -/
theorem C35_row_major_product {cplx : Bool} (hreal : cplx = false → ∀ x : R, star x = x) (ta tb : Trans) (α : R) (A : Mat R)
    (inp : Buf R) (β : R) (out : Buf R) (mu : ℕ) :
    ∀ i < opRows ta A.nr A.nc, ∀ c < mu, rowM mu (Mat.addMMRM cplx ta tb α A inp β out mu) i c =
      α * (∑ l ∈ range (opCols ta A.nr A.nc), opE ta A.get i l *
        opE tb (rowM (if tb = .N then mu else opCols ta A.nr A.nc) inp) l c) + β * rowM mu out i c := by
  intro i hi c hc
  show gemm _ _ _ _ _ α _ _ _ _ β out _ (i * mu + c) = _
  rw [Nat.add_comm]
  simp only [rmArgs]
  rw [gemm_pos hc hc (show i < if ta = .N then A.nr else A.nc from hi)]
  have hK : (if ta = .N then A.nc else A.nr) = opCols ta A.nr A.nc := rfl
  rw [hK]
  congr 1
  · congr 1
    refine sum_congr rfl fun l hl => ?_
    rw [mem_range] at hl
    rw [mul_comm]
    congr 1
    · -- the A factor
      cases ta
      · simp only [opE, ldM, if_true, reduceCtorEq, and_false, if_false, Mat.get, Nat.mul_comm]
      · simp [opE, ldM, Mat.get, opCols, Nat.mul_comm]
      · simp only [opRows, opCols] at hi hl
        simp only [reduceCtorEq, if_false] at hi hl
        cases cplx
        · simp only [Bool.false_eq_true, false_and, reduceCtorEq, if_false, opE, ldM, Mat.get]
          rw [hreal rfl, Nat.mul_comm]; rfl
        · simp only [opE, ldM, Mat.get, reduceCtorEq, and_self, if_true, if_false, conjBuf]
          rw [if_pos (by have := mat_idx_lt hl hi; rwa [Nat.mul_comm i] at this), Nat.mul_comm]; rfl
    · cases tb
      · simp only [opE, ldM, rowM, if_true, reduceCtorEq, and_false, if_false]
        congr 1; ring
      · simp only [opE, ldM, rowM, reduceCtorEq, and_false, if_false]
        congr 1; ring
      · cases cplx
        · simp only [opE, ldM, rowM, reduceCtorEq, and_false, if_false, Bool.false_eq_true, false_and]
          rw [hreal rfl]
          congr 1; ring
        · simp only [opE, ldM, rowM, reduceCtorEq, and_self, if_true, if_false, conjBuf]
          rw [if_pos (by
            have := mat_idx_lt hl hc
            rw [Nat.mul_comm c] at this
            rwa [Nat.mul_comm mu])]
          congr 2; ring
  · congr 1
    show out (c + i * mu) = out (i * mu + c)
    rw [Nat.add_comm]

/-- **C35 (row major, symmetric).** `side = 'L'`: `C = alpha A B + beta C`, `side = 'R'`: `C = alpha B A + beta C`, for row-major `B` and
`C` with `mu` columns, resp. rows. -/
theorem C35_row_major_symmetric (side : Side) (u : UploType) (α : R) (A : Mat R) (inp : Buf R) (β : R) (out : Buf R) (mu : ℕ) :
    (side = .L → ∀ i < A.nr, ∀ c < mu, rowM mu (Mat.addSymMMRM side u α A inp β out mu) i c =
      α * (∑ l ∈ range A.nr, symE u A.get i l * rowM mu inp l c) + β * rowM mu out i c) ∧
    (side = .R → ∀ c < mu, ∀ i < A.nr, rowM A.nr (Mat.addSymMMRM side u α A inp β out mu) c i =
      α * (∑ l ∈ range A.nr, rowM A.nr inp c l * symE u A.get l i) + β * rowM A.nr out c i) := by
  have eA : ldM A.nr A.data = A.get := by funext i j; simp only [ldM, Mat.get, Nat.mul_comm]
  have sy : ∀ i j, symE u A.get i j = symE u A.get j i := by
    intro i j
    rcases lt_trichotomy i j with h | h | h
    · cases u <;> simp [symE, h.le, not_le.2 h]
    · subst h; rfl
    · cases u <;> simp [symE, h.le, not_le.2 h]
  constructor
  · rintro rfl i hi c hc
    have hn : A.nr ≠ 0 := by omega
    have e1 : (i * mu + c) % mu = c := by rw [Nat.add_comm, Nat.add_mul_mod_self_right, Nat.mod_eq_of_lt hc]
    have e2 : (i * mu + c) / mu = i := by
      rw [Nat.add_comm, Nat.add_mul_div_right _ _ (by omega), Nat.div_eq_of_lt hc, Nat.zero_add]
    show (Mat.addSymMMRM .L u α A inp β out mu) (i * mu + c) = _
    simp only [Mat.addSymMMRM, reduceCtorEq, if_false]
    rw [if_pos hn]
    simp only [symm, e1, e2, eA]
    rw [if_pos ⟨hc, hi⟩]
    congr 2
    refine sum_congr rfl fun l _ => ?_
    rw [mul_comm, sy l i]
    congr 1
    show inp (c + mu * l) = inp (l * mu + c)
    congr 1; ring
  · rintro rfl c hc i hi
    have hn : A.nr ≠ 0 := by omega
    have e1 : (c * A.nr + i) % A.nr = i := by rw [Nat.add_comm, Nat.add_mul_mod_self_right, Nat.mod_eq_of_lt hi]
    have e2 : (c * A.nr + i) / A.nr = c := by
      rw [Nat.add_comm, Nat.add_mul_div_right _ _ (by omega), Nat.div_eq_of_lt hi, Nat.zero_add]
    show (Mat.addSymMMRM .R u α A inp β out mu) (c * A.nr + i) = _
    simp only [Mat.addSymMMRM, if_true]
    rw [if_pos hn]
    simp only [symm, e1, e2, eA]
    rw [if_pos ⟨hi, hc⟩]
    congr 2
    refine sum_congr rfl fun l _ => ?_
    rw [mul_comm, sy i l]
    congr 1
    show inp (l + A.nr * c) = inp (c * A.nr + l)
    congr 1; ring

/-- **C35 (row major, hermitian).** Same for a hermitian `A` with real diagonal. -/
theorem C35_row_major_hermitian (side : Side) (u : UploType) (α : R) (A : Mat R) (hsq : A.nc = A.nr)
    (hd : ∀ i < A.nr, star (A.get i i) = A.get i i) (inp : Buf R) (β : R) (out : Buf R) (mu : ℕ) :
    (side = .L → ∀ i < A.nr, ∀ c < mu, rowM mu (Mat.addHerMMRM side u α A inp β out mu) i c =
      α * (∑ l ∈ range A.nr, herE u A.get i l * rowM mu inp l c) + β * rowM mu out i c) ∧
    (side = .R → ∀ c < mu, ∀ i < A.nr, rowM A.nr (Mat.addHerMMRM side u α A inp β out mu) c i =
      α * (∑ l ∈ range A.nr, rowM A.nr inp c l * herE u A.get l i) + β * rowM A.nr out c i) := by
  have eA : ldM A.nr A.data = A.get := by funext i j; simp only [ldM, Mat.get, Nat.mul_comm]
  have sy : ∀ i j, i < A.nr → star (herE u A.get i j) = herE u A.get j i := by
    intro i j hi
    rcases lt_trichotomy i j with h | h | h
    · cases u <;> simp [herE, h.le, not_le.2 h]
    · subst h; cases u <;> simp [herE, hd i hi]
    · cases u <;> simp [herE, h.le, not_le.2 h]
  constructor
  · rintro rfl i hi c hc
    have hn : A.nr ≠ 0 := by omega
    have e1 : (i * mu + c) % mu = c := by rw [Nat.add_comm, Nat.add_mul_mod_self_right, Nat.mod_eq_of_lt hc]
    have e2 : (i * mu + c) / mu = i := by
      rw [Nat.add_comm, Nat.add_mul_div_right _ _ (by omega), Nat.div_eq_of_lt hc, Nat.zero_add]
    have hb : ∀ l < A.nr, l * mu + c < A.nr * mu := fun l hl => by
      have := mat_idx_lt hc hl; rw [Nat.add_comm, Nat.mul_comm A.nr]; exact this
    show (Mat.addHerMMRM .L u α A inp β out mu) (i * mu + c) = _
    simp only [Mat.addHerMMRM, reduceCtorEq, if_false]
    rw [if_pos hn]
    simp only [hsq]
    rw [conjBuf, if_pos (hb i hi)]
    simp only [hemm, e1, e2, eA]
    rw [if_pos ⟨hc, hi⟩, conjBuf, if_pos (hb i hi)]
    rw [star_add, star_mul', star_mul', star_star, star_star, star_star, star_sum]
    congr 2
    refine sum_congr rfl fun l hl => ?_
    rw [mem_range] at hl
    have e3 : c + mu * l = l * mu + c := by ring
    simp only [ldM]
    rw [e3, if_pos (hb l hl), star_mul', star_star, sy l i hl, mul_comm]
    rfl
  · rintro rfl c hc i hi
    have hn : A.nr ≠ 0 := by omega
    have e1 : (c * A.nr + i) % A.nr = i := by rw [Nat.add_comm, Nat.add_mul_mod_self_right, Nat.mod_eq_of_lt hi]
    have e2 : (c * A.nr + i) / A.nr = c := by
      rw [Nat.add_comm, Nat.add_mul_div_right _ _ (by omega), Nat.div_eq_of_lt hi, Nat.zero_add]
    have hb : ∀ l < A.nr, c * A.nr + l < A.nr * mu := fun l hl => by
      have := mat_idx_lt hl hc; rw [Nat.add_comm]; exact this
    show (Mat.addHerMMRM .R u α A inp β out mu) (c * A.nr + i) = _
    simp only [Mat.addHerMMRM, if_true]
    rw [if_pos hn]
    simp only [hsq]
    rw [conjBuf, if_pos (hb i hi)]
    simp only [hemm, e1, e2, eA]
    rw [if_pos ⟨hi, hc⟩, conjBuf, if_pos (hb i hi)]
    rw [star_add, star_mul', star_mul', star_star, star_star, star_star, star_sum]
    congr 2
    refine sum_congr rfl fun l hl => ?_
    rw [mem_range] at hl
    have e3 : l + A.nr * c = c * A.nr + l := by ring
    simp only [ldM]
    rw [e3, if_pos (hb l hl), star_mul', star_star, sy i l hi, mul_comm]
    rfl

/-- Non-vacuity for the hermitian row-major product: a 2 × 2 hermitian matrix over the Gaussian integers, lower triangle stored. -/
example : let A : Mat GaussianInt := ⟨2, 2, fun i => [⟨2, 0⟩, ⟨1, 1⟩, ⟨99, 99⟩, ⟨3, 0⟩].getD i 0⟩
    A.nc = A.nr ∧ (∀ i < A.nr, star (A.get i i) = A.get i i) ∧
    Mat.addHerMMRM .L .L 1 A (fun i => if i = 1 then ⟨0, 1⟩ else 0) 0 (fun _ => 7) 1 0 = ⟨1, 1⟩ := by
  decide +kernel

omit [CommRing R] [StarRing R] in
theorem pos_lt_of {m n p : ℕ} (h : p % m < m ∧ p / m < n) : p < m * n := by
  have h1 := Nat.div_add_mod p m
  have h2 : m * (p / m + 1) ≤ m * n := Nat.mul_le_mul_left _ h.2
  rw [Nat.mul_succ] at h2
  omega

/-- **C35 (nothing else is written).** The shape of the output is kept by the symmetric and hermitian products, and no product writes outside of its output. -/
theorem C35_frame {cplx : Bool} (ta tb : Trans) (side : Side) (u : UploType) (α : R) (A B : Mat R) (β : R) (C : Mat R) (inp out : Buf R) (mu : ℕ) :
    ((Mat.addSymMM side u α A B β C).nr = C.nr ∧ (Mat.addSymMM side u α A B β C).nc = C.nc ∧
      ∀ p, C.nr * C.nc ≤ p → (Mat.addSymMM side u α A B β C).data p = C.data p) ∧
    ((Mat.addHerMM side u α A B β C).nr = C.nr ∧ (Mat.addHerMM side u α A B β C).nc = C.nc ∧
      ∀ p, C.nr * C.nc ≤ p → (Mat.addHerMM side u α A B β C).data p = C.data p) ∧
    (∀ p, opRows ta A.nr A.nc * mu ≤ p → Mat.addMMRM cplx ta tb α A inp β out mu p = out p) ∧
    (∀ p, A.nr * mu ≤ p → Mat.addSymMMRM side u α A inp β out mu p = out p) ∧
    (A.nc = A.nr → ∀ p, A.nr * mu ≤ p → Mat.addHerMMRM side u α A inp β out mu p = out p) := by
  refine ⟨⟨rfl, rfl, fun p hp => ?_⟩, ⟨rfl, rfl, fun p hp => ?_⟩, fun p hp => ?_, fun p hp => ?_, fun hsq p hp => ?_⟩
  · exact if_neg fun h => absurd (pos_lt_of h) (not_lt.2 hp)
  · exact if_neg fun h => absurd (pos_lt_of h) (not_lt.2 hp)
  · refine if_neg fun h => absurd (pos_lt_of (m := mu) (n := opRows ta A.nr A.nc) h) (not_lt.2 ?_)
    rwa [Nat.mul_comm]
  · unfold Mat.addSymMMRM
    split
    · cases side
      · refine if_neg fun h => absurd (pos_lt_of (m := mu) (n := A.nr) h) (not_lt.2 ?_)
        rwa [Nat.mul_comm]
      · exact if_neg fun h => absurd (pos_lt_of (m := A.nr) (n := mu) h) (not_lt.2 hp)
    · rfl
  · unfold Mat.addHerMMRM
    split
    · have hc : ∀ b : Buf R, conjBuf (A.nc * mu) b p = b p := fun b => if_neg (by rw [hsq]; omega)
      dsimp only
      rw [hc]
      cases side
      · refine (if_neg fun h => absurd (pos_lt_of (m := mu) (n := A.nr) h) (not_lt.2 ?_)).trans (hc out)
        rwa [Nat.mul_comm]
      · exact (if_neg fun h => absurd (pos_lt_of (m := A.nr) (n := mu) h) (not_lt.2 hp)).trans (hc out)
    · rfl

end blas
end Htool
