import Verif.LrStats
import Verif.Props.Accuracy

/-! # C71: statistics and errors of low-rank matrices -/

namespace Htool
open Finset

/-! ## Specification -/

/-- Number of coefficients stored by a low-rank matrix: those of its two factors. -/
def LR.stored {R : Type*} (A : LR R) : ℕ := A.U.nr * A.U.nc + A.V.nr * A.V.nc

/-- Number of coefficients of the matrix represented. -/
def LR.full {R : Type*} (A : LR R) : ℕ := A.U.nr * A.V.nc

/-- The matrix given by the first `r` columns of `U` and the first `r` rows of `V`. -/
def LR.trunc {R : Type*} [CommRing R] (A : LR R) (r i j : ℕ) : R := ∑ l ∈ range r, A.U.get i l * A.V.get l j

/-! ## Lemmas -/

section errors
variable {𝕜 : Type*} [RCLike 𝕜]

theorem errEntry_spec (A : LR 𝕜) (r j k : ℕ) (aux : Buf 𝕜) :
    errEntry A r j k aux (j + k * A.U.nr) = aux (j + k * A.U.nr) - A.trunc r j k ∧ ∀ p, p ≠ j + k * A.U.nr → errEntry A r j k aux p = aux p := by
  unfold errEntry LR.trunc
  induction r with
  | zero => simp
  | succ r ih =>
    rw [List.range_succ, List.foldl_append, sum_range_succ]
    constructor
    · simp only [List.foldl_cons, List.foldl_nil, Function.update_self, ih.1]
      ring
    · intro p hp
      simp only [List.foldl_cons, List.foldl_nil]
      rw [Function.update_of_ne hp, ih.2 p hp]

/-- One row. -/
theorem errRow_spec (A : LR 𝕜) (r j : ℕ) (hj : j < A.U.nr) (f : Buf 𝕜) (n : ℕ) (s : ℝ × ℝ × Buf 𝕜)
    (hs : ∀ k, s.2.2 (j + k * A.U.nr) = f (j + k * A.U.nr)) :
    let e := (List.range n).foldl (fun s k => (s.1 + ‖s.2.2 (j + k * A.U.nr)‖ ^ 2, s.2.1 + ‖errEntry A r j k s.2.2 (j + k * A.U.nr)‖ ^ 2, errEntry A r j k s.2.2)) s
    e.1 = s.1 + ∑ k ∈ range n, ‖f (j + k * A.U.nr)‖ ^ 2 ∧ e.2.1 = s.2.1 + ∑ k ∈ range n, ‖f (j + k * A.U.nr) - A.trunc r j k‖ ^ 2 ∧
      (∀ k, n ≤ k → e.2.2 (j + k * A.U.nr) = f (j + k * A.U.nr)) ∧ ∀ i, i ≠ j → i < A.U.nr → ∀ k, e.2.2 (i + k * A.U.nr) = s.2.2 (i + k * A.U.nr) := by
  induction n with
  | zero => simpa using hs
  | succ n ih =>
    simp only at ih ⊢
    rw [List.range_succ, List.foldl_append, sum_range_succ, sum_range_succ]
    obtain ⟨i1, i2, i3, i4⟩ := ih
    simp only [List.foldl_cons, List.foldl_nil]
    generalize List.foldl _ s (List.range n) = e at *
    obtain ⟨q1, q2⟩ := errEntry_spec A r j n e.2.2
    refine ⟨by rw [i1, i3 n le_rfl]; ring, by rw [i2, q1, i3 n le_rfl]; ring, fun k hk => ?_, fun i hi hi' k => ?_⟩
    · rw [q2, i3 k (by omega)]
      intro h
      have := (mat_idx_inj hj hj h).2
      omega
    · rw [q2, i4 i hi hi' k]
      intro h
      exact hi (mat_idx_inj hi' hj h).1

theorem errLoop_spec (A : LR 𝕜) (r : ℕ) (f : Buf 𝕜) :
    (errLoop A r f).1 = ∑ j ∈ range A.U.nr, ∑ k ∈ range A.V.nc, ‖f (j + k * A.U.nr)‖ ^ 2 ∧
    (errLoop A r f).2.1 = ∑ j ∈ range A.U.nr, ∑ k ∈ range A.V.nc, ‖f (j + k * A.U.nr) - A.trunc r j k‖ ^ 2 := by
  unfold errLoop
  have key : ∀ m ≤ A.U.nr,
      let e := (List.range m).foldl (fun s j => (List.range A.V.nc).foldl (fun s k => (s.1 + ‖s.2.2 (j + k * A.U.nr)‖ ^ 2,
        s.2.1 + ‖errEntry A r j k s.2.2 (j + k * A.U.nr)‖ ^ 2, errEntry A r j k s.2.2)) s) ((0 : ℝ), (0 : ℝ), f)
      e.1 = ∑ j ∈ range m, ∑ k ∈ range A.V.nc, ‖f (j + k * A.U.nr)‖ ^ 2 ∧
      e.2.1 = ∑ j ∈ range m, ∑ k ∈ range A.V.nc, ‖f (j + k * A.U.nr) - A.trunc r j k‖ ^ 2 ∧
      ∀ i, m ≤ i → i < A.U.nr → ∀ k, e.2.2 (i + k * A.U.nr) = f (i + k * A.U.nr) := by
    intro m
    induction m with
    | zero => intro _; simp
    | succ m ih =>
      intro hm
      obtain ⟨i1, i2, i3⟩ := ih (by omega)
      simp only at i1 i2 i3 ⊢
      rw [List.range_succ, List.foldl_append, sum_range_succ, sum_range_succ]
      simp only [List.foldl_cons, List.foldl_nil]
      generalize List.foldl _ ((0 : ℝ), (0 : ℝ), f) (List.range m) = e at *
      obtain ⟨q1, q2, -, q4⟩ := errRow_spec A r m (by omega) f A.V.nc e (fun k => i3 m le_rfl (by omega) k)
      refine ⟨by rw [q1, i1], by rw [q2, i2], fun i hi hi' k => ?_⟩
      rw [q4 i (by omega) hi' k, i3 i (by omega) hi' k]
  obtain ⟨k1, k2, -⟩ := key A.U.nr le_rfl
  exact ⟨k1, k2⟩

/-- The loops on the block of a generator. -/
theorem errLoop_block (A : LR 𝕜) (gen : ℕ → ℕ → 𝕜) (t s : ℕ × ℕ) (ht : A.U.nr = t.2) (hs : A.V.nc = s.2) (r : ℕ) :
    (errLoop A r (copySub gen t.2 s.2 t.1 s.1 (fun _ => 0))).1 = frob t.2 s.2 (genBlock gen t s) ^ 2 ∧
    (errLoop A r (copySub gen t.2 s.2 t.1 s.1 (fun _ => 0))).2.1 = frob t.2 s.2 (fun i j => genBlock gen t s i j - A.trunc r i j) ^ 2 := by
  obtain ⟨h1, h2⟩ := errLoop_spec A r (copySub gen t.2 s.2 t.1 s.1 (fun _ => 0))
  rw [h1, h2, frob_sq, frob_sq, ht, hs]
  have e : ∀ j ∈ range t.2, ∀ k ∈ range s.2, copySub gen t.2 s.2 t.1 s.1 (fun _ => 0) (j + k * t.2) = genBlock gen t s j k := by
    intro i hi j hj
    have hi := mem_range.1 hi
    have hj := mem_range.1 hj
    unfold copySub
    rw [if_pos (mat_idx_lt hi hj), Nat.add_mul_mod_self_right, Nat.mod_eq_of_lt hi, Nat.add_mul_div_right _ _ (by omega), Nat.div_eq_of_lt hi, Nat.zero_add]
    rfl
  exact ⟨sum_congr rfl fun j hj => sum_congr rfl fun k hk => by rw [e j hj k hk], sum_congr rfl fun j hj => sum_congr rfl fun k hk => by rw [e j hj k hk]⟩

end errors

/-! ## Statistics -/

section sizes
variable {R : Type*}

/-- **C71** The compression ratio is the number of coefficients of the block divided by the number of coefficients stored, when the rank is not zero and the
block is small enough for `int`. -/
theorem C71_compression_ratio_partial (A : LR R) (hA : A.V.nr = A.U.nc) (hM : 0 < A.U.nr) (hN : 0 < A.V.nc) (hK : 0 < A.U.nc) (h1 : A.full < 2 ^ 31) (h2 : A.stored < 2 ^ 31) :
    A.compressionRatio = .num ((A.full : ℚ) / (A.stored : ℚ)) := by
  have e : A.stored = A.U.nc * (A.U.nr + A.V.nc) := by unfold LR.stored; rw [hA]; ring
  have h3 : A.U.nr + A.V.nc < 2 ^ 31 := by
    rw [e] at h2
    exact lt_of_le_of_lt (Nat.le_mul_of_pos_left _ hK) h2
  unfold LR.compressionRatio
  simp only
  rw [e] at h2
  rw [if_pos ⟨h1, h2, h3⟩, e]
  unfold Num.div
  rw [if_neg (by rw [Nat.cast_eq_zero]; exact (Nat.mul_pos hK (by omega)).ne')]
  rfl

/-- **C71** The space saving is one minus the number of coefficients stored divided by the number of coefficients of the block, whatever the sizes. -/
theorem C71_space_saving (A : LR R) (hA : A.V.nr = A.U.nc) (hM : 0 < A.U.nr) (hN : 0 < A.V.nc) :
    A.spaceSaving = .num (1 - (A.stored : ℚ) / (A.full : ℚ)) := by
  unfold LR.spaceSaving
  rw [if_neg (by omega)]
  congr 2
  have a : (A.U.nr : ℚ) ≠ 0 := Nat.cast_ne_zero.2 hM.ne'
  have b : (A.V.nc : ℚ) ≠ 0 := Nat.cast_ne_zero.2 hN.ne'
  unfold LR.stored LR.full
  rw [hA]
  push_cast
  field_simp
  ring

/-- **C71** Where the ratio is a number, it is the inverse of one minus the space saving; and a block which is worth compressing (`k (m + n) ≤ m n`, the test of
the compressors) has a ratio of at least one and does not lose space. -/
theorem C71_consistent (A : LR R) (hA : A.V.nr = A.U.nc) (hM : 0 < A.U.nr) (hN : 0 < A.V.nc) {x y : ℚ} (hx : A.compressionRatio = .num x) (hy : A.spaceSaving = .num y) :
    x * (1 - y) = 1 ∧ (A.U.nc * (A.U.nr + A.V.nc) ≤ A.U.nr * A.V.nc ↔ 1 ≤ x) ∧ (A.U.nc * (A.U.nr + A.V.nc) ≤ A.U.nr * A.V.nc ↔ 0 ≤ y) := by
  rw [C71_space_saving A hA hM hN] at hy
  cases hy
  have e : A.stored = A.U.nc * (A.U.nr + A.V.nc) := by unfold LR.stored; rw [hA]; ring
  have hF : (0 : ℚ) < (A.full : ℚ) := Nat.cast_pos.2 (Nat.mul_pos hM hN)
  unfold LR.compressionRatio Num.div at hx
  simp only at hx
  split_ifs at hx with h1 h2
  cases hx
  have hS : (0 : ℚ) < (A.stored : ℚ) := by
    rw [e]
    exact lt_of_le_of_ne (Nat.cast_nonneg _) (Ne.symm h2)
  rw [← e] at *
  change _ ∧ (A.stored ≤ A.full ↔ 1 ≤ (A.full : ℚ) / A.stored) ∧ (A.stored ≤ A.full ↔ _)
  have hle : (A.stored ≤ A.full) ↔ ((A.stored : ℚ) ≤ A.full) := by exact_mod_cast Iff.rfl
  refine ⟨?_, ?_, ?_⟩
  · change (A.full : ℚ) / A.stored * _ = 1
    field_simp
    ring
  · rw [hle, le_div_iff₀ hS, one_mul]
  · rw [hle, sub_nonneg, div_le_one hF]

/-- A low-rank matrix of sizes `m`, `n` and rank `k`. -/
def lrSizes (m n k : ℕ) : LR ℤ := ⟨⟨m, k, fun _ => 0⟩, ⟨k, n, fun _ => 0⟩⟩

example : (lrSizes 30 20 4).compressionRatio = .num 3 ∧ (lrSizes 30 20 4).spaceSaving = .num (2 / 3) := by
  have h : (lrSizes 30 20 4).compressionRatio = _ := C71_compression_ratio_partial (lrSizes 30 20 4) rfl (by decide) (by decide) (by decide) (by decide) (by decide)
  have h' : (lrSizes 30 20 4).spaceSaving = _ := C71_space_saving (lrSizes 30 20 4) rfl (by decide) (by decide)
  rw [h, h', show (lrSizes 30 20 4).full = 600 from rfl, show (lrSizes 30 20 4).stored = 200 from rfl]
  norm_num

/-- The full statement: the ratio is the quotient of the numbers of coefficients for every low-rank matrix of nonzero rank. -/
def C71_compression_ratio_statement : Prop :=
  ∀ A : LR ℤ, A.V.nr = A.U.nc → 0 < A.U.nr → 0 < A.V.nc → 0 < A.U.nc → A.compressionRatio = .num ((A.full : ℚ) / (A.stored : ℚ))

/-- **C71, defect** The compression ratio of a block of `65536 × 65536` coefficients overflows `int`, although its space saving is computed. -/
theorem C71_compression_ratio_statement_false : ¬ C71_compression_ratio_statement := by
  intro h
  have := h (lrSizes 65536 65536 1) rfl (by decide) (by decide) (by decide)
  have e : (lrSizes 65536 65536 1).compressionRatio = .undef := by
    unfold LR.compressionRatio lrSizes
    rw [if_neg (by norm_num)]
  rw [e] at this
  cases this

/-- **C71, defect** The ratio of a matrix of rank zero, the result of a compressor for a block of zeros, is not a number. -/
theorem C71_compression_ratio_rank_zero (A : LR R) (hK : A.U.nc = 0) (h : A.full < 2 ^ 31) (h' : A.U.nr + A.V.nc < 2 ^ 31) : A.compressionRatio = .notFinite := by
  unfold LR.compressionRatio Num.div
  simp only [hK, Nat.zero_mul]
  rw [if_pos ⟨h, by norm_num, h'⟩]
  simp

example : (lrSizes 3 4 0).compressionRatio = .notFinite ∧ (lrSizes 3 4 0).spaceSaving = .num 1 := by decide +kernel

end sizes

/-! ## Errors -/

section errs
variable {𝕜 : Type*} [RCLike 𝕜] (A : LR 𝕜) (gen : ℕ → ℕ → 𝕜) (t s : ℕ × ℕ)

/-- **C71** The absolute error is the Frobenius norm of the difference between the block and the product of the first `reqrank` columns of `U` and rows of `V`. -/
theorem C71_absolute_error (ht : A.U.nr = t.2) (hs : A.V.nc = s.2) (r : ℕ) (hr : r ≤ A.rank) :
    frobeniusAbsoluteError A gen t s r = .num (frob t.2 s.2 fun i j => genBlock gen t s i j - A.trunc r i j) := by
  unfold frobeniusAbsoluteError errRank
  rw [if_neg (by rw [if_neg (by omega), ht, hs]; omega), if_neg (by omega), Int.toNat_natCast, (errLoop_block A gen t s ht hs r).2,
    Real.sqrt_sq (frob_nonneg _ _ _)]

/-- **C71** The relative error is the Frobenius norm of the difference divided by that of the block, when the block is not zero. -/
theorem C71_relative_error_partial (ht : A.U.nr = t.2) (hs : A.V.nc = s.2) (r : ℕ) (hr : r ≤ A.rank) (h0 : ∃ i < t.2, ∃ j < s.2, gen (t.1 + i) (s.1 + j) ≠ 0) :
    frobeniusRelativeError A gen t s r =
      .num (frob t.2 s.2 (fun i j => genBlock gen t s i j - A.trunc r i j) / frob t.2 s.2 (genBlock gen t s)) := by
  have hpos : frob t.2 s.2 (genBlock gen t s) ^ 2 ≠ 0 := by
    obtain ⟨i, hi, j, hj, h⟩ := h0
    rw [frob_sq]
    refine ne_of_gt (lt_of_lt_of_le (pow_pos (norm_pos_iff.2 h) 2) ?_)
    exact (single_le_sum (f := fun k => ‖genBlock gen t s i k‖ ^ 2) (fun k _ => sq_nonneg _) (mem_range.2 hj)).trans
      (single_le_sum (f := fun i => ∑ k ∈ range s.2, ‖genBlock gen t s i k‖ ^ 2) (fun i _ => sum_nonneg fun k _ => sq_nonneg _) (mem_range.2 hi))
  have er : errRank A (r : ℤ) = r := by unfold errRank; rw [if_neg (by omega)]
  unfold frobeniusRelativeError
  rw [er, if_neg (by rw [ht, hs]; omega), Int.toNat_natCast]
  simp only
  rw [(errLoop_block A gen t s ht hs r).1, (errLoop_block A gen t s ht hs r).2, if_neg hpos, ← div_pow,
    Real.sqrt_sq (div_nonneg (frob_nonneg _ _ _) (frob_nonneg _ _ _))]

/-- **C71** Without requested rank, both errors are those of the matrix represented. -/
theorem C71_default_rank (ht : A.U.nr = t.2) (hs : A.V.nc = s.2) :
    frobeniusAbsoluteError A gen t s (-1) = .num (frob t.2 s.2 fun i j => genBlock gen t s i j - A.entry i j) ∧
    ((∃ i < t.2, ∃ j < s.2, gen (t.1 + i) (s.1 + j) ≠ 0) → frobeniusRelativeError A gen t s (-1) =
      .num (frob t.2 s.2 (fun i j => genBlock gen t s i j - A.entry i j) / frob t.2 s.2 (genBlock gen t s))) := by
  have e : errRank A (-1) = errRank A (A.rank : ℤ) := by
    unfold errRank
    rw [if_pos rfl, if_neg (by omega)]
  constructor
  · have := C71_absolute_error A gen t s ht hs A.rank le_rfl
    unfold frobeniusAbsoluteError at this ⊢
    rw [e, this]
    rfl
  · intro h0
    have := C71_relative_error_partial A gen t s ht hs A.rank le_rfl h0
    unfold frobeniusRelativeError at this ⊢
    rw [e, this]
    rfl

/-- **C71, defect** The relative error of the block of zeros is not a number, even for the exact approximation. -/
theorem C71_relative_error_zero_block (ht : A.U.nr = t.2) (hs : A.V.nc = s.2) (r : ℕ) (hr : r ≤ A.rank) (h0 : ∀ i < t.2, ∀ j < s.2, gen (t.1 + i) (s.1 + j) = 0) :
    frobeniusRelativeError A gen t s r = .notFinite := by
  have er : errRank A (r : ℤ) = r := by unfold errRank; rw [if_neg (by omega)]
  unfold frobeniusRelativeError
  rw [er, if_neg (by rw [ht, hs]; omega), Int.toNat_natCast]
  simp only
  rw [(errLoop_block A gen t s ht hs r).1, frob_congr (f := genBlock gen t s) (g := fun _ _ => 0) (fun i hi j hj => h0 i hi j hj), frob_zero, if_pos (by norm_num)]

/-- The full statement: the relative error is a number which vanishes when the approximation is exact. -/
def C71_relative_error_statement : Prop :=
  ∀ (A : LR ℝ) (gen : ℕ → ℕ → ℝ) (t s : ℕ × ℕ), A.U.nr = t.2 → A.V.nc = s.2 → A.V.nr = A.U.nc →
    (∀ i < t.2, ∀ j < s.2, A.entry i j = gen (t.1 + i) (s.1 + j)) → frobeniusRelativeError A gen t s (-1) = .num 0

theorem C71_relative_error_statement_false : ¬ C71_relative_error_statement := by
  intro h
  have h1 := h ⟨⟨2, 0, fun _ => 0⟩, ⟨0, 3, fun _ => 0⟩⟩ (fun _ _ => 0) (0, 2) (0, 3) rfl rfl rfl (fun i _ j _ => by simp [LR.entry, LR.rank])
  have h2 := C71_relative_error_zero_block (⟨⟨2, 0, fun _ => 0⟩, ⟨0, 3, fun _ => 0⟩⟩ : LR ℝ) (fun _ _ => 0) (0, 2) (0, 3) rfl rfl 0 (Nat.zero_le _) (fun _ _ _ _ => rfl)
  have e : frobeniusRelativeError (⟨⟨2, 0, fun _ => 0⟩, ⟨0, 3, fun _ => 0⟩⟩ : LR ℝ) (fun _ _ => 0) (0, 2) (0, 3) (-1) =
      frobeniusRelativeError (⟨⟨2, 0, fun _ => 0⟩, ⟨0, 3, fun _ => 0⟩⟩ : LR ℝ) (fun _ _ => 0) (0, 2) (0, 3) (0 : ℕ) := by
    unfold frobeniusRelativeError
    rfl
  rw [e, h2] at h1
  cases h1

/-- **C71** The relative error of what the `SVD` compressor returns for a block which is not zero is at most the tolerance. -/
theorem C71_svd_compressor (gesvd : Mat 𝕜 → SVDOut 𝕜) (ht : 0 < t.2) (hs : 0 < s.2) (h : IsSVD (blockMat gen t s) (gesvd (blockMat gen t s))) {eps : ℝ} (he : 0 ≤ eps)
    (U V : Mat 𝕜) (h0 : ∃ i < t.2, ∃ j < s.2, gen (t.1 + i) (s.1 + j) ≠ 0) :
    let r := svdGen gesvd gen t s eps (-1) U V
    r.1 = -1 ∨ ∃ e, frobeniusRelativeError ⟨r.2.1, r.2.2⟩ gen t s (-1) = .num e ∧ e ≤ eps := by
  intro r
  obtain ⟨k, -, -, -, ⟨-, h1⟩ | ⟨-, -, -, h2, h3⟩⟩ := (C31_svd_generator gesvd gen t s ht hs h eps (-1) U V).1 rfl
  · exact Or.inl (congrArg Prod.fst h1)
  · refine Or.inr ⟨_, (C71_default_rank ⟨r.2.1, r.2.2⟩ gen t s h2.2.1 h2.2.2.1).2 h0, ?_⟩
    have hle := h3.le he
    rcases (frob_nonneg t.2 s.2 (genBlock gen t s)).eq_or_lt with h | h
    · rw [← h, div_zero]; exact he
    · rw [div_le_iff₀ h]; exact hle

/-- **C71** The relative error of what `fullACA` returns with a tolerance is at most the tolerance, unless every coefficient is within `1e-15`. -/
theorem C71_fullACA_compressor (ht : 0 < t.2) (hs : 0 < s.2) {eps : ℝ} (he : 0 ≤ eps) {reqrank : ℤ} (hr : reqrank < 0)
    (U V : Mat 𝕜) (h0 : ∃ i < t.2, ∃ j < s.2, gen (t.1 + i) (s.1 + j) ≠ 0) :
    ∃ rk U' V', fullACA (rcModulus 𝕜) gen t s eps reqrank U V = some (rk, U', V') ∧ (0 < rk →
      ∃ e, frobeniusRelativeError ⟨U', V'⟩ gen t s (-1) = .num e ∧ (e ≤ eps ∨ ∀ i < t.2, ∀ j < s.2, ‖gen (t.1 + i) (s.1 + j) - LR.entry ⟨U', V'⟩ i j‖ < 1 / 10 ^ 15)) := by
  obtain ⟨rk, U', V', h1, h2⟩ := C29_fullACA (rcModulus 𝕜) gen t s ht hs eps reqrank (by omega) U V
  refine ⟨rk, U', V', h1, fun hk => ?_⟩
  rcases h2.cases with ⟨h, -⟩ | ⟨h, -⟩ | ⟨k, Is, Js, -, -, u1, -, -, v2, -, -, -, hacc⟩
  · omega
  · omega
  · refine ⟨_, (C71_default_rank ⟨U', V'⟩ gen t s u1 v2).2 h0, ?_⟩
    rcases hacc with h | ⟨h, -⟩ | ⟨-, h⟩
    · exact Or.inr h
    · omega
    · left
      have hn : ∀ f : ℕ → ℕ → 𝕜, frob t.2 s.2 f ^ 2 = normSq (rcModulus 𝕜) t.2 s.2 f := fun f => frob_sq _ _ _
      rw [← hn, ← hn, ← mul_pow] at h
      have hle := (sq_le_sq₀ (frob_nonneg _ _ _) (mul_nonneg he (frob_nonneg _ _ _))).1 h
      rcases (frob_nonneg t.2 s.2 (genBlock gen t s)).eq_or_lt with h | h
      · rw [← h, div_zero]; exact he
      · rw [div_le_iff₀ h]; exact hle

/-- The hypotheses are met: rank one factors of a block of ones with a wrong coefficient. -/
example : ∃ (A : LR ℝ) (gen : ℕ → ℕ → ℝ), A.U.nr = 2 ∧ A.V.nc = 2 ∧ A.rank = 1 ∧ (∃ i < 2, ∃ j < 2, gen (0 + i) (0 + j) ≠ 0) ∧
    frobeniusRelativeError A gen (0, 2) (0, 2) (-1) = .num (1 / 2) ∧ frobeniusRelativeError A gen (0, 2) (0, 2) (0 : ℕ) = .num 1 := by
  have hne : ∃ i < 2, ∃ j < 2, (fun _ _ => (1 : ℝ)) (0 + i) (0 + j) ≠ 0 := ⟨0, by decide, 0, by decide, one_ne_zero⟩
  refine ⟨⟨⟨2, 1, fun _ => 1⟩, ⟨1, 2, fun p => if p = 0 then 1 else 1 + 1 / √2⟩⟩, fun _ _ => 1, rfl, rfl, rfl, hne, ?_, ?_⟩
  · rw [(C71_default_rank _ _ _ _ rfl rfl).2 hne]
    congr 1
    have e1 : frob 2 2 (genBlock (fun _ _ => (1 : ℝ)) (0, 2) (0, 2)) = 2 := by
      unfold frob genBlock
      simp only [sum_range_succ, range_zero, sum_empty, norm_one]
      rw [show (0 + (0 + 1 ^ 2 + 1 ^ 2) + (0 + 1 ^ 2 + 1 ^ 2) : ℝ) = 2 ^ 2 by norm_num, Real.sqrt_sq (by norm_num)]
    have e2 : frob 2 2 (fun i j => genBlock (fun _ _ => (1 : ℝ)) (0, 2) (0, 2) i j -
        LR.entry ⟨⟨2, 1, fun _ => 1⟩, ⟨1, 2, fun p => if p = 0 then 1 else 1 + 1 / √2⟩⟩ i j) = 1 := by
      unfold frob genBlock LR.entry LR.rank Mat.get
      simp [sum_range_succ]
    rw [e1, e2]
  · rw [C71_relative_error_partial _ _ _ _ rfl rfl 0 (Nat.zero_le _) hne]
    congr 1
    have : ∀ (B : LR ℝ), frob 2 2 (fun i j => genBlock (fun _ _ => (1 : ℝ)) (0, 2) (0, 2) i j - B.trunc 0 i j) =
        frob 2 2 (genBlock (fun _ _ => (1 : ℝ)) (0, 2) (0, 2)) := fun B => frob_congr fun i _ j _ => by simp [LR.trunc]
    rw [this]
    refine div_self ?_
    unfold frob genBlock
    simp [sum_range_succ]

/-- **C71, defect** A requested rank larger than the rank reads after the end of the factors. -/
theorem C71_rank_too_large (h0 : 0 < A.U.nr * A.V.nc) (r : ℤ) (hr : (A.rank : ℤ) < r) :
    frobeniusAbsoluteError A gen t s r = .undef ∧ frobeniusRelativeError A gen t s r = .undef := by
  have e : errRank A r = r := by unfold errRank; rw [if_neg (by omega)]
  unfold frobeniusAbsoluteError frobeniusRelativeError
  rw [e]
  exact ⟨if_pos (Or.inr ⟨hr, h0⟩), if_pos (Or.inr ⟨hr, h0⟩)⟩

end errs
end Htool
