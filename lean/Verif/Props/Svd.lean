import Verif.Svd
import Verif.Props.Aca
import Mathlib.Analysis.InnerProductSpace.PiL2

/-! # Truncated singular value decomposition and recompression (C31, C55) -/

namespace Htool

open Finset
variable {𝕜 : Type*} [RCLike 𝕜]

/-! ## Specification -/

/-- Frobenius norm of an `M × N` matrix. -/
noncomputable def frob (M N : ℕ) (B : ℕ → ℕ → 𝕜) : ℝ := √(∑ i ∈ range M, ∑ j ∈ range N, ‖B i j‖ ^ 2)

/-- The first `r` terms of a singular value decomposition. -/
noncomputable def svdSum (o : SVDOut 𝕜) (r i j : ℕ) : 𝕜 := ∑ l ∈ range r, o.u.get i l * (o.s l : 𝕜) * o.vt.get l j

/-- The first `r` columns of `Q`, with `M` rows, are orthonormal. -/
def OrthoCols (M r : ℕ) (Q : ℕ → ℕ → 𝕜) : Prop :=
  ∀ l < r, ∀ l' < r, ∑ i ∈ range M, star (Q i l) * Q i l' = if l = l' then 1 else 0

/-- Contract of `gesvd("A", "A", …)` (LAPACK): `A = u S vt`, with `u` and `vt` orthogonal (unitary) and the singular values nonnegative and in
decreasing order. -/
structure IsSVD (A : Mat 𝕜) (o : SVDOut 𝕜) : Prop where
  unr : o.u.nr = A.nr
  unc : o.u.nc = A.nr
  vnr : o.vt.nr = A.nc
  vnc : o.vt.nc = A.nc
  nonneg : ∀ l < min A.nr A.nc, 0 ≤ o.s l
  mono : ∀ l l', l ≤ l' → l' < min A.nr A.nc → o.s l' ≤ o.s l
  ortho_u : OrthoCols A.nr A.nr o.u.get
  ortho_v : OrthoCols A.nc A.nc (fun j l => o.vt.get l j)
  prod : ∀ i < A.nr, ∀ j < A.nc, A.get i j = svdSum o (min A.nr A.nc) i j

/-- Contract of `geqrf` and `mqr('L', 'N')` for a matrix with more rows than columns: `A = Q R`, where `R` is in the upper triangle of the result and
the product by `Q` is available. -/
structure IsQR (A : Mat 𝕜) (o : OrthOut 𝕜) : Prop where
  ex : ∃ Q : ℕ → ℕ → 𝕜, OrthoCols A.nr A.nr Q ∧
    (∀ i < A.nr, ∀ j < A.nc, A.get i j = ∑ l ∈ range A.nc, Q i l * if l ≤ j then o.fac.get l j else 0) ∧
    ∀ C : Mat 𝕜, C.nr = A.nr → (o.apply C).nr = A.nr ∧ (o.apply C).nc = C.nc ∧
      ∀ i < A.nr, ∀ j < C.nc, (o.apply C).get i j = ∑ l ∈ range A.nr, Q i l * C.get l j

/-- Contract of `gelqf` and `mlq('R', 'N')` for a matrix with more columns than rows: `A = L Q`. -/
structure IsLQ (A : Mat 𝕜) (o : OrthOut 𝕜) : Prop where
  ex : ∃ Q : ℕ → ℕ → 𝕜, OrthoCols A.nc A.nc (fun j l => Q l j) ∧
    (∀ i < A.nr, ∀ j < A.nc, A.get i j = ∑ l ∈ range A.nr, (if l ≤ i then o.fac.get i l else 0) * Q l j) ∧
    ∀ C : Mat 𝕜, C.nc = A.nc → (o.apply C).nc = A.nc ∧ (o.apply C).nr = C.nr ∧
      ∀ i < C.nr, ∀ j < A.nc, (o.apply C).get i j = ∑ l ∈ range A.nc, C.get i l * Q l j

/-! ## Norms -/

theorem frob_congr {M N : ℕ} {f g : ℕ → ℕ → 𝕜} (h : ∀ i < M, ∀ j < N, f i j = g i j) : frob M N f = frob M N g := by
  unfold frob
  congr 1
  exact sum_congr rfl fun i hi => sum_congr rfl fun j hj => by rw [h i (mem_range.1 hi) j (mem_range.1 hj)]

theorem frob_nonneg (M N : ℕ) (f : ℕ → ℕ → 𝕜) : 0 ≤ frob M N f := Real.sqrt_nonneg _

theorem frob_swap (M N : ℕ) (f : ℕ → ℕ → 𝕜) : frob M N f = frob N M (fun i j => f j i) := by
  unfold frob; rw [sum_comm]

theorem frob_eq_norm (M N : ℕ) (f : ℕ → ℕ → 𝕜) :
    frob M N f = ‖(WithLp.toLp 2 (fun p : Fin M × Fin N => f p.1 p.2) : EuclideanSpace 𝕜 (Fin M × Fin N))‖ := by
  rw [EuclideanSpace.norm_eq, frob]
  congr 1
  rw [Fintype.sum_prod_type, sum_range]
  exact sum_congr rfl fun i _ => by rw [sum_range]

theorem frob_add_le (M N : ℕ) (f g : ℕ → ℕ → 𝕜) : frob M N (fun i j => f i j + g i j) ≤ frob M N f + frob M N g := by
  rw [frob_eq_norm M N f, frob_eq_norm M N g, frob_eq_norm]
  refine le_of_eq_of_le ?_ (norm_add_le _ _)
  rfl

theorem frob_sub_comm (M N : ℕ) (f g : ℕ → ℕ → 𝕜) : frob M N (fun i j => f i j - g i j) = frob M N (fun i j => g i j - f i j) := by
  unfold frob
  congr 1
  exact sum_congr rfl fun i _ => sum_congr rfl fun j _ => by rw [norm_sub_rev]

theorem frob_sub_le (M N : ℕ) (f g h : ℕ → ℕ → 𝕜) :
    frob M N (fun i j => f i j - h i j) ≤ frob M N (fun i j => f i j - g i j) + frob M N (fun i j => g i j - h i j) := by
  refine le_of_eq_of_le (frob_congr fun i _ j _ => ?_) (frob_add_le M N _ _)
  ring

theorem frob_zero (M N : ℕ) : frob M N (fun _ _ => (0 : 𝕜)) = 0 := by simp [frob]

/-- A matrix with orthonormal columns preserves the norm of vectors. -/
theorem iso_vec {M r : ℕ} {Q : ℕ → ℕ → 𝕜} (h : OrthoCols M r Q) (x : ℕ → 𝕜) :
    ∑ i ∈ range M, ‖∑ l ∈ range r, Q i l * x l‖ ^ 2 = ∑ l ∈ range r, ‖x l‖ ^ 2 := by
  have key : ((∑ i ∈ range M, ‖∑ l ∈ range r, Q i l * x l‖ ^ 2 : ℝ) : 𝕜) = ((∑ l ∈ range r, ‖x l‖ ^ 2 : ℝ) : 𝕜) := by
    push_cast
    have e1 : ∀ z : 𝕜, ((‖z‖ : ℝ) : 𝕜) ^ 2 = star z * z := fun z => (RCLike.conj_mul z).symm
    simp only [e1]
    have e2 : ∀ i, star (∑ l ∈ range r, Q i l * x l) * (∑ l ∈ range r, Q i l * x l) =
        ∑ l ∈ range r, ∑ l' ∈ range r, (star (x l) * x l') * (star (Q i l) * Q i l') := by
      intro i
      rw [star_sum, sum_mul_sum]
      exact sum_congr rfl fun l _ => sum_congr rfl fun l' _ => by rw [star_mul']; ring
    simp only [e2]
    rw [sum_comm]
    refine sum_congr rfl fun l hl => ?_
    rw [sum_comm]
    have e3 : ∀ l' ∈ range r, ∑ i ∈ range M, (star (x l) * x l') * (star (Q i l) * Q i l') = if l = l' then star (x l) * x l' else 0 := by
      intro l' hl'
      rw [← mul_sum, h l (mem_range.1 hl) l' (mem_range.1 hl')]
      split_ifs <;> simp
    rw [sum_congr rfl e3, sum_ite_eq, if_pos hl]
  exact_mod_cast key

/-- … and the Frobenius norm, on the left … -/
theorem iso_left {M r : ℕ} {Q : ℕ → ℕ → 𝕜} (h : OrthoCols M r Q) (N : ℕ) (X : ℕ → ℕ → 𝕜) :
    frob M N (fun i j => ∑ l ∈ range r, Q i l * X l j) = frob r N X := by
  rw [frob_swap M N, frob_swap r N]
  unfold frob
  congr 1
  exact sum_congr rfl fun j _ => iso_vec h (fun l => X l j)

/-- … and on the right, for orthonormal rows. -/
theorem iso_right {N r : ℕ} {Q : ℕ → ℕ → 𝕜} (h : OrthoCols N r (fun j l => Q l j)) (M : ℕ) (X : ℕ → ℕ → 𝕜) :
    frob M N (fun i j => ∑ l ∈ range r, X i l * Q l j) = frob M r X := by
  unfold frob
  congr 1
  refine sum_congr rfl fun i _ => ?_
  rw [← iso_vec h (fun l => X i l)]
  exact sum_congr rfl fun j _ => by
    beta_reduce
    rw [sum_congr rfl fun l _ => mul_comm (X i l) (Q l j)]

theorem OrthoCols.mono {M r r' : ℕ} {Q : ℕ → ℕ → 𝕜} (h : OrthoCols M r Q) (hr : r' ≤ r) : OrthoCols M r' Q :=
  fun l hl l' hl' => h l (by omega) l' (by omega)

/-! ## Singular values -/

theorem svdSum_sub {o : SVDOut 𝕜} {r n : ℕ} (hr : r ≤ n) (i j : ℕ) :
    svdSum o n i j - svdSum o r i j = ∑ l ∈ range n, o.u.get i l * ((if r ≤ l then (o.s l : 𝕜) else 0) * o.vt.get l j) := by
  unfold svdSum
  have z : ∑ l ∈ range r, o.u.get i l * ((if r ≤ l then (o.s l : 𝕜) else 0) * o.vt.get l j) = 0 := by
    refine sum_eq_zero fun l hl => ?_
    rw [if_neg (by have := mem_range.1 hl; omega)]; simp
  rw [← sum_range_add_sum_Ico _ hr, add_sub_cancel_left, ← sum_range_add_sum_Ico _ hr, z, zero_add]
  refine sum_congr rfl fun l hl => ?_
  rw [if_pos (mem_Ico.1 hl).1]; ring

/-- The norm of the discarded terms. -/
theorem frob_tail {A : Mat 𝕜} {o : SVDOut 𝕜} (h : IsSVD A o) {r : ℕ} (hr : r ≤ min A.nr A.nc) :
    frob A.nr A.nc (fun i j => A.get i j - svdSum o r i j) = √(∑ l ∈ Ico r (min A.nr A.nc), o.s l ^ 2) := by
  have e : frob A.nr A.nc (fun i j => A.get i j - svdSum o r i j) =
      frob A.nr A.nc (fun i j => ∑ l ∈ range (min A.nr A.nc), o.u.get i l * ((if r ≤ l then (o.s l : 𝕜) else 0) * o.vt.get l j)) :=
    frob_congr fun i hi j hj => by rw [h.prod i hi j hj, svdSum_sub hr]
  rw [e, iso_left (h.ortho_u.mono (min_le_left _ _))]
  unfold frob
  congr 1
  have hv : ∀ l < min A.nr A.nc, ∑ j ∈ range A.nc, ‖o.vt.get l j‖ ^ 2 = 1 := by
    intro l hl
    have := iso_vec (h.ortho_v.mono (min_le_right A.nr A.nc)) (fun q => if q = l then (1 : 𝕜) else 0)
    have e2 : ∀ j, ∑ q ∈ range (min A.nr A.nc), o.vt.get q j * (if q = l then (1 : 𝕜) else 0) = o.vt.get l j := by
      intro j
      simp only [mul_ite, mul_one, mul_zero]
      rw [sum_ite_eq', if_pos (mem_range.2 hl)]
    simp only [e2] at this
    rw [this]
    have e3 : ∀ q, ‖(if q = l then (1 : 𝕜) else 0)‖ ^ 2 = if q = l then (1 : ℝ) else 0 := by intro q; split_ifs <;> simp
    simp only [e3]
    rw [sum_ite_eq', if_pos (mem_range.2 hl)]
  rw [← sum_range_add_sum_Ico _ hr]
  have z : ∑ l ∈ range r, ∑ j ∈ range A.nc, ‖(if r ≤ l then (o.s l : 𝕜) else 0) * o.vt.get l j‖ ^ 2 = 0 := by
    refine sum_eq_zero fun l hl => sum_eq_zero fun j _ => ?_
    rw [if_neg (by have := mem_range.1 hl; omega)]; simp
  rw [z, zero_add]
  refine sum_congr rfl fun l hl => ?_
  have hl' := mem_Ico.1 hl
  have : ∀ j, ‖(if r ≤ l then (o.s l : 𝕜) else 0) * o.vt.get l j‖ ^ 2 = o.s l ^ 2 * ‖o.vt.get l j‖ ^ 2 := by
    intro j
    rw [if_pos hl'.1, norm_mul, mul_pow, RCLike.norm_ofReal, sq_abs]
  simp only [this]
  rw [← mul_sum, hv l hl'.2, mul_one]

theorem frob_svd {A : Mat 𝕜} {o : SVDOut 𝕜} (h : IsSVD A o) :
    frob A.nr A.nc A.get = √(∑ l ∈ range (min A.nr A.nc), o.s l ^ 2) := by
  have := frob_tail h (Nat.zero_le _)
  rw [← range_eq_Ico] at this
  rw [← this]
  exact frob_congr fun i _ j _ => by simp [svdSum]

theorem truncLoop_spec (s : ℕ → ℝ) (norm eps : ℝ) (n : ℕ) (j : ℕ) (hj : j < n) (error : ℝ) (he : error = ∑ l ∈ Ico j n, s l ^ 2)
    (hlow : j + 1 < n → norm ≠ 0 ∧ √(∑ l ∈ Ico (j + 1) n, s l ^ 2) / norm < eps) :
    let k := truncLoop s norm eps j error + 1
    k ≤ j + 1 ∧ (k < n → norm ≠ 0 ∧ √(∑ l ∈ Ico k n, s l ^ 2) / norm < eps) ∧
      (1 < k → ¬ (norm ≠ 0 ∧ √(∑ l ∈ Ico (k - 1) n, s l ^ 2) / norm < eps)) := by
  induction j generalizing error with
  | zero => exact ⟨le_rfl, hlow, fun h => absurd h (by simp [truncLoop])⟩
  | succ j ih =>
    dsimp only
    unfold truncLoop
    by_cases hc : norm ≠ 0 ∧ √error / norm < eps
    · rw [if_pos hc]
      have := ih (by omega) (error + |s j| ^ 2) (by rw [he, sq_abs, Finset.sum_eq_sum_Ico_succ_bot (by omega : j < n), add_comm]) (fun _ => by rw [← he]; exact hc)
      exact ⟨this.1.trans (by omega), this.2⟩
    · rw [if_neg hc]
      exact ⟨le_rfl, hlow, fun _ => by rw [Nat.add_sub_cancel, ← he]; exact hc⟩

/-- **C31** The truncated rank `k` is between 1 and the number of singular values; the relative error of the truncation is below the tolerance, unless
nothing is discarded; and no smaller positive rank has that property. The errors are the norms of the discarded singular values. -/
theorem C31_truncation (gesvd : Mat 𝕜 → SVDOut 𝕜) (A : Mat 𝕜) (h : IsSVD A (gesvd A)) (hr : 0 < A.nr) (hc : 0 < A.nc) (eps : ℝ) :
    let k := (svdTruncation gesvd A eps).1
    let err := fun r => frob A.nr A.nc (fun i j => A.get i j - svdSum (gesvd A) r i j)
    1 ≤ k ∧ k ≤ min A.nr A.nc ∧
    (k < min A.nr A.nc → err k < eps * frob A.nr A.nc A.get) ∧ (k = min A.nr A.nc → err k = 0) ∧
    (∀ r, 1 ≤ r → r < k → eps * frob A.nr A.nc A.get ≤ err r) ∧
    (∀ r ≤ min A.nr A.nc, err r = √(∑ l ∈ Ico r (min A.nr A.nc), (gesvd A).s l ^ 2)) ∧
    frob A.nr A.nc A.get = √(∑ l ∈ range (min A.nr A.nc), (gesvd A).s l ^ 2) := by
  intro k err
  have hn : 0 < min A.nr A.nc := lt_min hr hc
  have herr : ∀ r ≤ min A.nr A.nc, err r = √(∑ l ∈ Ico r (min A.nr A.nc), (gesvd A).s l ^ 2) := fun r hr => frob_tail h hr
  have hnorm := frob_svd h
  have hk : k = truncLoop (gesvd A).s (frob A.nr A.nc A.get) eps (min A.nr A.nc - 1) (0 + |(gesvd A).s (min A.nr A.nc - 1)| ^ 2) + 1 := by
    show truncRank _ _ _ = _
    unfold truncRank
    rw [hnorm]
    simp only [sq]
  obtain ⟨h1, h2, h3⟩ := truncLoop_spec (gesvd A).s (frob A.nr A.nc A.get) eps (min A.nr A.nc) (min A.nr A.nc - 1) (by omega)
    (0 + |(gesvd A).s (min A.nr A.nc - 1)| ^ 2) (by
      rw [zero_add, sq_abs, Finset.sum_eq_sum_Ico_succ_bot (by omega : min A.nr A.nc - 1 < min A.nr A.nc),
        show min A.nr A.nc - 1 + 1 = min A.nr A.nc by omega, Ico_self, sum_empty, add_zero]) (fun hh => by omega)
  rw [← hk] at h1 h2 h3
  have hk1 : 1 ≤ k := by rw [hk]; omega
  refine ⟨hk1, by omega, fun hlt => ?_, fun he => ?_, fun r hr1 hrk => ?_, herr, hnorm⟩
  · obtain ⟨a, b⟩ := h2 hlt
    rw [herr k hlt.le]
    exact (div_lt_iff₀ (lt_of_le_of_ne (frob_nonneg _ _ _) (Ne.symm a))).1 b
  · rw [herr k he.le, he, Ico_self, sum_empty, Real.sqrt_zero]
  · have h4 := h3 (by omega)
    rw [herr r (by omega)]
    have hmono : √(∑ l ∈ Ico (k - 1) (min A.nr A.nc), (gesvd A).s l ^ 2) ≤ √(∑ l ∈ Ico r (min A.nr A.nc), (gesvd A).s l ^ 2) :=
      Real.sqrt_le_sqrt (sum_le_sum_of_subset_of_nonneg (Ico_subset_Ico (by omega) le_rfl) fun _ _ _ => sq_nonneg _)
    by_cases h0 : frob A.nr A.nc A.get = 0
    · rw [h0, mul_zero]; exact Real.sqrt_nonneg _
    · have h5 : ¬ √(∑ l ∈ Ico (k - 1) (min A.nr A.nc), (gesvd A).s l ^ 2) / frob A.nr A.nc A.get < eps := fun hh => h4 ⟨h0, hh⟩
      rw [div_lt_iff₀ (lt_of_le_of_ne (frob_nonneg _ _ _) (Ne.symm h0))] at h5
      exact (not_lt.1 h5).trans hmono

/-! ## Loops on the entries -/

/-- A sequence of updates of different entries of a matrix. -/
theorem foldl_set_list (ps : List (ℕ × ℕ)) (g : ℕ → ℕ → 𝕜 → 𝕜) (W : Mat 𝕜) (hnd : ps.Nodup) (hb : ∀ p ∈ ps, p.1 < W.nr) :
    let W' := ps.foldl (fun W p => W.set p.1 p.2 (g p.1 p.2 (W.get p.1 p.2))) W
    W'.nr = W.nr ∧ W'.nc = W.nc ∧ ∀ i < W.nr, ∀ j, W'.get i j = if (i, j) ∈ ps then g i j (W.get i j) else W.get i j := by
  induction ps generalizing W with
  | nil => exact ⟨rfl, rfl, fun _ _ _ => (if_neg (by simp)).symm⟩
  | cons p ps ih =>
    rw [List.nodup_cons] at hnd
    obtain ⟨a, b, c⟩ := ih (W.set p.1 p.2 (g p.1 p.2 (W.get p.1 p.2))) hnd.2 (fun q hq => hb q (by simp [hq]))
    refine ⟨a, b, fun i hi j => (c i hi j).trans ?_⟩
    have hp := hb p (by simp)
    by_cases e : (i, j) = p
    · subst e
      rw [if_neg hnd.1, if_pos (by simp)]
      exact Function.update_self (i + j * W.nr) (g i j (W.get i j)) W.data
    · have hne : i + j * W.nr ≠ p.1 + p.2 * W.nr := fun hh => e (by
        obtain ⟨x, y⟩ := mat_idx_inj hi hp hh
        exact Prod.ext x y)
      have hs : (W.set p.1 p.2 (g p.1 p.2 (W.get p.1 p.2))).get i j = W.get i j := by
        exact Function.update_of_ne hne (g p.1 p.2 (W.get p.1 p.2)) W.data
      rw [hs]
      refine if_congr ?_ rfl rfl
      simp [e]

theorem foldl_set_nest (I : List ℕ) (J : ℕ → List ℕ) (q : ℕ → ℕ → ℕ × ℕ) (g : ℕ → ℕ → 𝕜 → 𝕜) (W : Mat 𝕜) :
    I.foldl (fun W i => (J i).foldl (fun W j => W.set (q i j).1 (q i j).2 (g (q i j).1 (q i j).2 (W.get (q i j).1 (q i j).2))) W) W =
    (I.flatMap (fun i => (J i).map (q i))).foldl (fun W p => W.set p.1 p.2 (g p.1 p.2 (W.get p.1 p.2))) W := by
  rw [List.foldl_flatMap]
  congr 1
  funext W i
  rw [List.foldl_map]

theorem nodup_pairs (I : List ℕ) (J : ℕ → List ℕ) (hI : I.Nodup) (hJ : ∀ i, (J i).Nodup) :
    (I.flatMap (fun i => (J i).map (fun j => (i, j)))).Nodup ∧ (I.flatMap (fun i => (J i).map (fun j => (j, i)))).Nodup := by
  constructor
  · rw [List.nodup_flatMap]
    refine ⟨fun i _ => (hJ i).map (fun a b h => (Prod.mk.inj h).2), hI.imp ?_⟩
    intro a b hab x hx hy
    obtain ⟨y, -, rfl⟩ := List.mem_map.1 hx
    obtain ⟨z, -, hz⟩ := List.mem_map.1 hy
    exact hab (Prod.mk.inj hz).1.symm
  · rw [List.nodup_flatMap]
    refine ⟨fun i _ => (hJ i).map (fun a b h => (Prod.mk.inj h).1), hI.imp ?_⟩
    intro a b hab x hx hy
    obtain ⟨y, -, rfl⟩ := List.mem_map.1 hx
    obtain ⟨z, -, hz⟩ := List.mem_map.1 hy
    exact hab (Prod.mk.inj hz).2.symm

theorem upperOf_spec (r : ℕ) (A : Mat 𝕜) : (upperOf r A).nr = r ∧ (upperOf r A).nc = r ∧
    ∀ i < r, ∀ j < r, (upperOf r A).get i j = if i ≤ j then A.get i j else 0 := by
  have e := foldl_set_nest (List.range r) (fun j => List.range (j + 1)) (fun j i => (i, j)) (fun i j _ => A.get i j) (Mat.mk' r r (0 : 𝕜))
  obtain ⟨a, b, c⟩ := foldl_set_list _ (fun i j _ => A.get i j) (Mat.mk' r r (0 : 𝕜))
    (nodup_pairs (List.range r) (fun j => List.range (j + 1)) List.nodup_range (fun _ => List.nodup_range)).2 (by
      intro p hp
      simp only [List.mem_flatMap, List.mem_range, List.mem_map] at hp
      obtain ⟨j, hj, i, hi, rfl⟩ := hp
      show i < r; omega)
  rw [← e] at a b c
  refine ⟨a, b, fun i hi j hj => (c i hi j).trans ?_⟩
  have hm : (Mat.mk' r r (0 : 𝕜)).get i j = 0 := mk'_get r r 0 hi hj
  rw [hm]
  refine if_congr ?_ rfl rfl
  simp only [List.mem_flatMap, List.mem_range, List.mem_map, Prod.mk.injEq]
  exact ⟨fun ⟨j', hj', i', hi', h1, h2⟩ => by omega, fun h => ⟨j, hj, i, by omega, rfl, rfl⟩⟩

theorem lowerOf_spec (r : ℕ) (A : Mat 𝕜) : (lowerOf r A).nr = r ∧ (lowerOf r A).nc = r ∧
    ∀ i < r, ∀ j < r, (lowerOf r A).get i j = if j ≤ i then A.get i j else 0 := by
  have e := foldl_set_nest (List.range r) (fun j => List.range' j (r - j)) (fun j i => (i, j)) (fun i j _ => A.get i j) (Mat.mk' r r (0 : 𝕜))
  obtain ⟨a, b, c⟩ := foldl_set_list _ (fun i j _ => A.get i j) (Mat.mk' r r (0 : 𝕜))
    (nodup_pairs (List.range r) (fun j => List.range' j (r - j)) List.nodup_range (fun _ => List.nodup_range')).2 (by
      intro p hp
      simp only [List.mem_flatMap, List.mem_range, List.mem_map, List.mem_range'_1] at hp
      obtain ⟨j, hj, i, hi, rfl⟩ := hp
      show i < r; omega)
  rw [← e] at a b c
  refine ⟨a, b, fun i hi j hj => (c i hi j).trans ?_⟩
  have hm : (Mat.mk' r r (0 : 𝕜)).get i j = 0 := mk'_get r r 0 hi hj
  rw [hm]
  refine if_congr ?_ rfl rfl
  simp only [List.mem_flatMap, List.mem_range, List.mem_map, List.mem_range'_1, Prod.mk.injEq]
  exact ⟨fun ⟨j', hj', i', hi', h1, h2⟩ => by omega, fun h => ⟨j, hj, i, by omega, rfl, rfl⟩⟩

/-- Loop on the rectangle `[0, m) × [0, n)`. -/
theorem foldl_set_rect (m n : ℕ) (g : ℕ → ℕ → 𝕜 → 𝕜) (W : Mat 𝕜) (hm : m ≤ W.nr) :
    let W' := (List.range m).foldl (fun W i => (List.range n).foldl (fun W j => W.set i j (g i j (W.get i j))) W) W
    W'.nr = W.nr ∧ W'.nc = W.nc ∧ ∀ i < m, ∀ j, W'.get i j = if j < n then g i j (W.get i j) else W.get i j := by
  have e := foldl_set_nest (List.range m) (fun _ => List.range n) (fun i j => (i, j)) g W
  obtain ⟨a, b, c⟩ := foldl_set_list _ g W (nodup_pairs (List.range m) (fun _ => List.range n) List.nodup_range (fun _ => List.nodup_range)).1 (by
      intro p hp
      simp only [List.mem_flatMap, List.mem_range, List.mem_map] at hp
      obtain ⟨j, hj, i, hi, rfl⟩ := hp
      show j < W.nr; omega)
  rw [← e] at a b c
  refine ⟨a, b, fun i hi j => (c i (by omega) j).trans (if_congr ?_ rfl rfl)⟩
  simp only [List.mem_flatMap, List.mem_range, List.mem_map, Prod.mk.injEq]
  exact ⟨fun ⟨j', hj', i', hi', h1, h2⟩ => by omega, fun h => ⟨i, hi, j, h, rfl, rfl⟩⟩

/-- Columns copied and scaled one after the other. -/
theorem foldl_cols_scal (M m : ℕ) (hm : m ≤ M) (a : ℕ → 𝕜) (src : Buf 𝕜) (ld k : ℕ) (d : Buf 𝕜) {i l : ℕ} (hi : i < M) :
    (List.range k).foldl (fun d r => scalSeg M (r * M) (a r) (copyTo m src (r * ld) d (r * M))) d (i + l * M) =
      if l < k then a l * (if i < m then src (i + l * ld) else d (i + l * M)) else d (i + l * M) := by
  induction k with
  | zero => simp
  | succ k ih =>
    rw [List.range_succ, List.foldl_append]
    simp only [List.foldl_cons, List.foldl_nil]
    generalize hD : (List.range k).foldl (fun d r => scalSeg M (r * M) (a r) (copyTo m src (r * ld) d (r * M))) d = D at *
    unfold scalSeg
    by_cases e : l = k
    · subst e
      rw [if_pos (by omega), if_pos (by omega)]
      rw [if_neg (lt_irrefl l)] at ih
      congr 1
      by_cases h : i < m
      · rw [if_pos h, copyTo_in (by omega)]; congr 1; omega
      · rw [if_neg h, copyTo_out (by omega), ih]
    · have hne : ¬ (k * M ≤ i + l * M ∧ i + l * M < k * M + M) := by
        rcases Nat.lt_or_gt_of_ne e with hlt | hgt
        · have : (l + 1) * M ≤ k * M := Nat.mul_le_mul_right _ (by omega)
          rw [Nat.add_mul] at this; omega
        · have : (k + 1) * M ≤ l * M := Nat.mul_le_mul_right _ (by omega)
          rw [Nat.add_mul] at this; omega
      rw [if_neg hne, copyTo_out (by omega), ih]
      exact if_congr (by omega) rfl rfl

theorem foldl_cols_copy (k : ℕ) (src : Buf 𝕜) (ld n : ℕ) (d : Buf 𝕜) {i l : ℕ} (hi : i < k) :
    (List.range n).foldl (fun d r => copyTo k src (r * ld) d (r * k)) d (i + l * k) = if l < n then src (i + l * ld) else d (i + l * k) := by
  induction n with
  | zero => simp
  | succ n ih =>
    rw [List.range_succ, List.foldl_append]
    simp only [List.foldl_cons, List.foldl_nil]
    by_cases e : l = n
    · subst e
      rw [if_pos (by omega), copyTo_in (by omega)]; congr 1; omega
    · have hne : ¬ (n * k ≤ i + l * k ∧ i + l * k < n * k + k) := by
        rcases Nat.lt_or_gt_of_ne e with hlt | hgt
        · have : (l + 1) * k ≤ n * k := Nat.mul_le_mul_right _ (by omega)
          rw [Nat.add_mul] at this; omega
        · have : (n + 1) * k ≤ l * k := Nat.mul_le_mul_right _ (by omega)
          rw [Nat.add_mul] at this; omega
      rw [copyTo_out hne, ih]
      exact if_congr (by omega) rfl rfl

theorem sqrtFactors_spec (o : SVDOut 𝕜) (k M N m n : ℕ) (U V : Mat 𝕜) (hm : m ≤ M) (hn : n ≤ N) :
    let L := sqrtFactors o k M N m n U V
    L.U.nr = M ∧ L.U.nc = k ∧ L.V.nr = k ∧ L.V.nc = N ∧
    (∀ i < M, ∀ l < k, L.U.get i l = if i < m then ((√(o.s l) : ℝ) : 𝕜) * o.u.get i l else 0) ∧
    ∀ l < k, ∀ j < N, L.V.get l j = if j < n then ((√(o.s l) : ℝ) : 𝕜) * o.vt.get l j else 0 := by
  intro L
  obtain ⟨a, b, c⟩ := foldl_set_rect k n (fun r _ x => ((√(o.s r) : ℝ) : 𝕜) * x) { V.resize k N 0 with
    data := (List.range n).foldl (fun d r => copyTo k o.vt.data (r * o.vt.nr) d (r * k)) (V.resize k N 0).data } (le_refl k)
  refine ⟨rfl, rfl, a, b, fun i hi l hl => ?_, fun l hl j hj => (c l hl j).trans ?_⟩
  · show (List.range k).foldl (fun d r => scalSeg M (r * M) ((√(o.s r) : ℝ) : 𝕜) (copyTo m o.u.data (r * o.u.nr) d (r * M))) (U.resize M k 0).data (i + l * M) = _
    rw [foldl_cols_scal M m hm _ _ _ _ _ hi, if_pos hl]
    by_cases h : i < m
    · rw [if_pos h, if_pos h]; rfl
    · rw [if_neg h, if_neg h, resize_get U M k hi hl, mul_zero]
  · have e : Mat.get { V.resize k N 0 with data := (List.range n).foldl (fun d r => copyTo k o.vt.data (r * o.vt.nr) d (r * k)) (V.resize k N 0).data } l j =
        if j < n then o.vt.get l j else (0 : 𝕜) := by
      show (List.range n).foldl (fun d r => copyTo k o.vt.data (r * o.vt.nr) d (r * k)) (V.resize k N 0).data (l + j * k) = _
      rw [foldl_cols_copy k _ _ _ _ hl, resize_get V k N hl hj]; rfl
    rw [e]
    by_cases h : j < n
    · rw [if_pos h, if_pos h, if_pos h]
    · rw [if_neg h, if_neg h, if_neg h]

theorem sqrt_mul_sqrt {x : ℝ} (h : 0 ≤ x) (a b : 𝕜) : (((√x : ℝ) : 𝕜) * a) * (((√x : ℝ) : 𝕜) * b) = a * (x : 𝕜) * b := by
  have : ((√x : ℝ) : 𝕜) * ((√x : ℝ) : 𝕜) = (x : 𝕜) := by rw [← RCLike.ofReal_mul, Real.mul_self_sqrt h]
  linear_combination (a * b) * this

/-- The product of the two factors is the truncated decomposition. -/
theorem sqrtFactors_entry (o : SVDOut 𝕜) (k M N m n : ℕ) (U V : Mat 𝕜) (hm : m ≤ M) (hn : n ≤ N) (hs : ∀ l < k, 0 ≤ o.s l) {i j : ℕ} (hi : i < m)
    (hj : j < n) : (sqrtFactors o k M N m n U V).entry i j = svdSum o k i j := by
  obtain ⟨a, b, c, d, e, f⟩ := sqrtFactors_spec o k M N m n U V hm hn
  show ∑ l ∈ range (sqrtFactors o k M N m n U V).U.nc, _ = _
  rw [b]
  refine sum_congr rfl fun l hl => ?_
  have hl' := mem_range.1 hl
  rw [e i (by omega) l hl', f l hl' j (by omega), if_pos hi, if_pos hj, sqrt_mul_sqrt (hs l hl')]

/-! ## The SVD compressor -/

/-- `E'` is equal to the `M × N` matrix `E`, or its relative error is below the tolerance, in Frobenius norm. -/
def Approx (eps : ℝ) (M N : ℕ) (E E' : ℕ → ℕ → 𝕜) : Prop :=
  (∀ i < M, ∀ j < N, E' i j = E i j) ∨ frob M N (fun i j => E i j - E' i j) < eps * frob M N E

theorem Approx.le {eps : ℝ} (he : 0 ≤ eps) {M N : ℕ} {E E' : ℕ → ℕ → 𝕜} (h : Approx eps M N E E') :
    frob M N (fun i j => E i j - E' i j) ≤ eps * frob M N E := by
  rcases h with h | h
  · rw [frob_congr (g := fun _ _ => 0) fun i hi j hj => by rw [h i hi j hj, sub_self], frob_zero]
    exact mul_nonneg he (frob_nonneg _ _ _)
  · exact h.le

/-- The truncated decomposition of `A` approximates `A`. -/
theorem trunc_approx (gesvd : Mat 𝕜 → SVDOut 𝕜) (A : Mat 𝕜) (h : IsSVD A (gesvd A)) (hr : 0 < A.nr) (hc : 0 < A.nc) (eps : ℝ) :
    Approx eps A.nr A.nc A.get (svdSum (gesvd A) (svdTruncation gesvd A eps).1) := by
  obtain ⟨h1, h2, h3, h4, -⟩ := C31_truncation gesvd A h hr hc eps
  rcases Nat.lt_or_ge (svdTruncation gesvd A eps).1 (min A.nr A.nc) with hlt | hge
  · exact Or.inr (h3 hlt)
  · exact Or.inl fun i hi j hj => by rw [h.prod i hi j hj, show (svdTruncation gesvd A eps).1 = min A.nr A.nc by omega]

/-- The assembled block. -/
def blockMat (gen : ℕ → ℕ → 𝕜) (t s : ℕ × ℕ) : Mat 𝕜 := { Mat.mk' t.2 s.2 0 with data := copySub gen t.2 s.2 t.1 s.1 (Mat.mk' t.2 s.2 0).data }

theorem blockMat_get (gen : ℕ → ℕ → 𝕜) (t s : ℕ × ℕ) {i j : ℕ} (hi : i < t.2) (hj : j < s.2) : (blockMat gen t s).get i j = genBlock gen t s i j := by
  show copySub gen t.2 s.2 t.1 s.1 _ (i + j * t.2) = _
  unfold copySub
  rw [if_pos (mat_idx_lt hi hj), Nat.add_mul_mod_self_right, Nat.mod_eq_of_lt hi, Nat.add_mul_div_right _ _ (by omega), Nat.div_eq_of_lt hi, Nat.zero_add]
  rfl

/-- **C31** The SVD compressor without requested rank fails when the smallest rank which reaches the tolerance is not worth it, leaving the factors as
they were; otherwise it returns factors of that rank, with a relative error below the tolerance in Frobenius norm. With a requested rank, it returns
factors of that rank (at most the smallest size), equal to the truncated decomposition. -/
theorem C31_svd_generator (gesvd : Mat 𝕜 → SVDOut 𝕜) (gen : ℕ → ℕ → 𝕜) (t s : ℕ × ℕ) (ht : 0 < t.2) (hs : 0 < s.2)
    (h : IsSVD (blockMat gen t s) (gesvd (blockMat gen t s))) (eps : ℝ) (rank : ℤ) (U V : Mat 𝕜) :
    let r := svdGen gesvd gen t s eps rank U V
    let B := genBlock gen t s
    let o := gesvd (blockMat gen t s)
    (rank = -1 → ∃ k, 1 ≤ k ∧ k ≤ min t.2 s.2 ∧
      (∀ q, 1 ≤ q → q < k → eps * frob t.2 s.2 B ≤ frob t.2 s.2 (fun i j => B i j - svdSum o q i j)) ∧
      ((t.2 * s.2 < k * (t.2 + s.2) ∧ r = (-1, U, V)) ∨
        (k * (t.2 + s.2) ≤ t.2 * s.2 ∧ r.1 = k ∧ LR.rank ⟨r.2.1, r.2.2⟩ = k ∧ LR.IsMat ⟨r.2.1, r.2.2⟩ t.2 s.2 (svdSum o k) ∧
          Approx eps t.2 s.2 B (LR.entry ⟨r.2.1, r.2.2⟩)))) ∧
    (0 < rank → ∃ k : ℕ, (k : ℤ) = min rank (min (t.2 : ℤ) s.2) ∧ r.1 = k ∧ LR.rank ⟨r.2.1, r.2.2⟩ = k ∧
      LR.IsMat ⟨r.2.1, r.2.2⟩ t.2 s.2 (svdSum o k)) := by
  intro r B o
  -- factors of rank `k`
  have key : ∀ k : ℕ, 0 < k → r = ((k : ℤ), (List.range t.2).foldl (fun W i => (List.range k).foldl (fun W j => W.set i j (o.u.get i j * (o.s j : 𝕜))) W) (U.resize t.2 k 0),
      (List.range k).foldl (fun W i => (List.range s.2).foldl (fun W j => W.set i j (o.vt.get i j)) W) (V.resize k s.2 0)) →
      r.1 = k ∧ LR.rank ⟨r.2.1, r.2.2⟩ = k ∧ LR.IsMat ⟨r.2.1, r.2.2⟩ t.2 s.2 (svdSum o k) := by
    intro k hk hr
    obtain ⟨a1, a2, a3⟩ := foldl_set_rect t.2 k (fun i j _ => o.u.get i j * (o.s j : 𝕜)) (U.resize t.2 k 0) le_rfl
    obtain ⟨b1, b2, b3⟩ := foldl_set_rect k s.2 (fun i j _ => o.vt.get i j) (V.resize k s.2 0) le_rfl
    rw [hr]
    refine ⟨rfl, a2, b1.trans a2.symm, a1, b2, fun i hi j hj => ?_⟩
    show ∑ l ∈ range (Mat.nc _), _ = _
    rw [a2]
    refine sum_congr rfl fun l hl => ?_
    have hl' := mem_range.1 hl
    exact congrArg₂ (fun a b : 𝕜 => a * b) ((a3 i hi l).trans (if_pos hl')) ((b3 l hl' j).trans (if_pos hj))
  have hcongr : ∀ E : ℕ → ℕ → 𝕜, frob t.2 s.2 (fun i j => (blockMat gen t s).get i j - E i j) = frob t.2 s.2 (fun i j => B i j - E i j) := fun E =>
    frob_congr fun i hi j hj => by rw [blockMat_get gen t s hi hj]
  have hB : frob t.2 s.2 (blockMat gen t s).get = frob t.2 s.2 B := frob_congr fun i hi j hj => blockMat_get gen t s hi hj
  constructor
  · intro hrk
    obtain ⟨h1, h2, h3, h4, h5, -, -⟩ := C31_truncation gesvd (blockMat gen t s) h ht hs eps
    have hap := trunc_approx gesvd (blockMat gen t s) h ht hs eps
    have hdef : r = svdGen gesvd gen t s eps rank U V := rfl
    unfold svdGen at hdef
    dsimp only at hdef
    rw [show ({ Mat.mk' t.2 s.2 0 with data := copySub gen t.2 s.2 t.1 s.1 (Mat.mk' t.2 s.2 0).data } : Mat 𝕜) = blockMat gen t s from rfl, if_pos hrk] at hdef
    have ho : (svdTruncation gesvd (blockMat gen t s) eps).2 = o := rfl
    rw [ho] at hdef
    generalize (svdTruncation gesvd (blockMat gen t s) eps).1 = k at *
    refine ⟨k, h1, h2, fun q hq1 hq2 => ?_, ?_⟩
    · have := h5 q hq1 hq2
      beta_reduce at this
      rw [show (blockMat gen t s).nr = t.2 from rfl, show (blockMat gen t s).nc = s.2 from rfl, hcongr, hB] at this
      exact this
    · by_cases hcost : t.2 * s.2 < k * (t.2 + s.2)
      · rw [if_pos hcost, if_neg (by omega)] at hdef
        exact Or.inl ⟨hcost, hdef⟩
      · rw [if_neg hcost, if_pos (by omega), show ((k : ℤ)).toNat = k from by omega] at hdef
        obtain ⟨g1, g2, g3⟩ := key k (by omega) hdef
        refine Or.inr ⟨not_lt.1 hcost, g1, g2, g3, ?_⟩
        rcases hap with ha | ha
        · exact Or.inl fun i hi j hj => by
            rw [g3.2.2.2 i hi j hj]
            exact (ha i hi j hj).trans (blockMat_get gen t s hi hj)
        · refine Or.inr ?_
          rw [show (blockMat gen t s).nr = t.2 from rfl, show (blockMat gen t s).nc = s.2 from rfl, hcongr, hB] at ha
          refine lt_of_eq_of_lt (frob_congr fun i hi j hj => ?_) ha
          rw [g3.2.2.2 i hi j hj]
  · intro hpos
    have hm : ∃ k : ℕ, 0 < k ∧ (k : ℤ) = min rank (min (t.2 : ℤ) s.2) := ⟨(min rank (min (t.2 : ℤ) s.2)).toNat, by omega, by omega⟩
    obtain ⟨k, hk, hke⟩ := hm
    have hdef : r = svdGen gesvd gen t s eps rank U V := rfl
    unfold svdGen at hdef
    dsimp only at hdef
    rw [show ({ Mat.mk' t.2 s.2 0 with data := copySub gen t.2 s.2 t.1 s.1 (Mat.mk' t.2 s.2 0).data } : Mat 𝕜) = blockMat gen t s from rfl, if_neg (show ¬ rank = -1 by omega),
      ← hke, if_pos (show (0 : ℤ) < (k : ℤ) by omega), show ((k : ℤ)).toNat = k from by omega] at hdef
    exact ⟨k, hke, key k hk hdef⟩

/-! ## Recompression -/

theorem triple_sum (k r r' : ℕ) (Q P X Y : ℕ → ℕ → 𝕜) (i j : ℕ) :
    ∑ l ∈ range k, (∑ q ∈ range r, Q i q * X q l) * (∑ p ∈ range r', Y l p * P p j) =
      ∑ q ∈ range r, Q i q * ∑ p ∈ range r', (∑ l ∈ range k, X q l * Y l p) * P p j := by
  simp only [sum_mul_sum, mul_sum, sum_mul]
  rw [sum_comm]
  refine Eq.trans ?_ sum_comm
  refine sum_congr rfl fun p _ => ?_
  rw [sum_comm]
  exact sum_congr rfl fun p _ => sum_congr rfl fun l _ => by ring

/-- The LAPACK routines satisfy their contracts. -/
structure LapackOK (gesvd : Mat 𝕜 → SVDOut 𝕜) (geqrf gelqf : Mat 𝕜 → OrthOut 𝕜) : Prop where
  svd : ∀ A, IsSVD A (gesvd A)
  qr : ∀ A : Mat 𝕜, A.nc ≤ A.nr → IsQR A (geqrf A)
  lq : ∀ A : Mat 𝕜, A.nr ≤ A.nc → IsLQ A (gelqf A)

/-- **C55** Recompression keeps the sizes, does not increase the rank, which is also at most the sizes, and changes the matrix by less than the
tolerance, relatively and in Frobenius norm (or not at all). -/
theorem C55_recompression {gesvd : Mat 𝕜 → SVDOut 𝕜} {geqrf gelqf : Mat 𝕜 → OrthOut 𝕜} (hl : LapackOK gesvd geqrf gelqf) (eps : ℝ) (L : LR 𝕜) (hL : L.WF)
    (hrk : 0 < L.rank) (hr : 0 < L.nr) (hc : 0 < L.nc) :
    let L' := recompress gesvd geqrf gelqf eps L
    L'.WF ∧ L'.nr = L.nr ∧ L'.nc = L.nc ∧ 1 ≤ L'.rank ∧ L'.rank ≤ min L.rank (min L.nr L.nc) ∧ Approx eps L.nr L.nc L.entry L'.entry := by
  intro L'
  have hdef : L' = recompress gesvd geqrf gelqf eps L := rfl
  have hvw : L.V.nr = L.U.nc := hL
  unfold recompress at hdef
  dsimp only at hdef
  by_cases hbig : min L.U.nr L.V.nc < L.rank
  · rw [if_pos hbig] at hdef
    obtain ⟨g1, g2, g3, -⟩ := C35_matrix_matrix_product .N .N (1 : 𝕜) L.U L.V 1 (Mat.mk' L.U.nr L.V.nc 0) ⟨rfl, rfl, hvw.symm⟩
    generalize Mat.addMM .N .N (1 : 𝕜) L.U L.V 1 (Mat.mk' L.U.nr L.V.nc 0) = A at *
    have hAr : A.nr = L.nr := g1
    have hAc : A.nc = L.nc := g2
    have hA : ∀ i < L.nr, ∀ j < L.nc, A.get i j = L.entry i j := by
      intro i hi j hj
      rw [g3 i hi j hj, one_mul, one_mul, show (Mat.mk' L.U.nr L.V.nc (0 : 𝕜)).get i j = 0 from mk'_get _ _ _ hi hj, add_zero]
      rfl
    have hsvd := hl.svd A
    have hr' : 0 < A.nr := by omega
    have hc' : 0 < A.nc := by omega
    obtain ⟨h1, h2, -⟩ := C31_truncation gesvd A hsvd hr' hc' eps
    have hap := trunc_approx gesvd A hsvd hr' hc' eps
    have ho : (svdTruncation gesvd A eps).2 = gesvd A := rfl
    rw [ho, hsvd.unr, hsvd.vnc, hAr, hAc] at hdef
    generalize (svdTruncation gesvd A eps).1 = k at *
    obtain ⟨a1, a2, a3, a4, -, -⟩ := sqrtFactors_spec (gesvd A) k L.U.nr L.V.nc L.nr L.nc L.U L.V le_rfl le_rfl
    have hent : ∀ i < L.nr, ∀ j < L.nc, L'.entry i j = svdSum (gesvd A) k i j := fun i hi j hj => by
      rw [hdef]
      exact sqrtFactors_entry (gesvd A) k L.U.nr L.V.nc L.nr L.nc L.U L.V le_rfl le_rfl (fun l hl => hsvd.nonneg l (by omega)) hi hj
    rw [← hdef] at a1 a2 a3 a4
    have hnr : L.nr = L.U.nr := rfl
    have hnc : L.nc = L.V.nc := rfl
    refine ⟨a3.trans a2.symm, a1, a4, by show 1 ≤ L'.U.nc; omega, by show L'.U.nc ≤ _; omega, ?_⟩
    rw [hAr, hAc] at hap
    rcases hap with ha | ha
    · exact Or.inl fun i hi j hj => by rw [hent i hi j hj, ha i hi j hj, hA i hi j hj]
    · refine Or.inr ?_
      rw [frob_congr hA] at ha
      refine lt_of_eq_of_lt (frob_congr fun i hi j hj => ?_) ha
      rw [hent i hi j hj, hA i hi j hj]
  · rw [if_neg hbig] at hdef
    have hb1 : L.rank ≤ L.U.nr := by omega
    have hb2 : L.rank ≤ L.V.nc := by omega
    obtain ⟨Q, hQ, hU, hQa⟩ := (hl.qr L.U hb1).ex
    obtain ⟨P, hP, hV, hPa⟩ := (hl.lq L.V (by rw [hvw]; exact hb2)).ex
    obtain ⟨u1, u2, u3⟩ := upperOf_spec L.rank (geqrf L.U).fac
    obtain ⟨v1, v2, v3⟩ := lowerOf_spec L.rank (gelqf L.V).fac
    generalize upperOf L.rank (geqrf L.U).fac = R at *
    generalize lowerOf L.rank (gelqf L.V).fac = T at *
    obtain ⟨g1, g2, g3, -⟩ := C35_matrix_matrix_product .N .N (1 : 𝕜) R T 0 (Mat.mk' L.rank L.rank 0) ⟨u1.symm, v2.symm, u2.trans v1.symm⟩
    generalize Mat.addMM .N .N (1 : 𝕜) R T 0 (Mat.mk' L.rank L.rank 0) = A at *
    have hAr : A.nr = L.rank := g1
    have hAc : A.nc = L.rank := g2
    have hA : ∀ i < L.rank, ∀ j < L.rank, A.get i j = ∑ l ∈ range L.rank, R.get i l * T.get l j := by
      intro i hi j hj
      rw [g3 i hi j hj, one_mul, zero_mul, add_zero, show opCols .N R.nr R.nc = L.rank from u2]
      rfl
    have hsvd := hl.svd A
    have hr' : 0 < A.nr := by omega
    have hc' : 0 < A.nc := by omega
    obtain ⟨h1, h2, -⟩ := C31_truncation gesvd A hsvd hr' hc' eps
    have hap := trunc_approx gesvd A hsvd hr' hc' eps
    have ho : (svdTruncation gesvd A eps).2 = gesvd A := rfl
    rw [ho] at hdef
    generalize (svdTruncation gesvd A eps).1 = k at *
    obtain ⟨a1, a2, a3, a4, a5, a6⟩ := sqrtFactors_spec (gesvd A) k L.U.nr L.V.nc L.rank L.rank L.U L.V hb1 hb2
    generalize hW : sqrtFactors (gesvd A) k L.U.nr L.V.nc L.rank L.rank L.U L.V = W at *
    obtain ⟨q1, q2, q3⟩ := hQa W.U a1
    obtain ⟨p1, p2, p3⟩ := hPa W.V a4
    have hLU : L'.U = (geqrf L.U).apply W.U := by rw [hdef]
    have hLV : L'.V = (gelqf L.V).apply W.V := by rw [hdef]
    have hk : L'.rank = k := by show L'.U.nc = k; rw [hLU, q2, a2]
    -- entries of the result and of the original matrix
    have hent : ∀ i < L.nr, ∀ j < L.nc, L'.entry i j =
        ∑ q ∈ range L.rank, Q i q * ∑ p ∈ range L.rank, svdSum (gesvd A) k q p * P p j := by
      intro i hi j hj
      unfold LR.entry
      rw [hk, hLU, hLV]
      have e : ∀ l ∈ range k, ((geqrf L.U).apply W.U).get i l * ((gelqf L.V).apply W.V).get l j =
          (∑ q ∈ range L.rank, Q i q * (((√((gesvd A).s l) : ℝ) : 𝕜) * (gesvd A).u.get q l)) *
          (∑ p ∈ range L.rank, (((√((gesvd A).s l) : ℝ) : 𝕜) * (gesvd A).vt.get l p) * P p j) := by
        intro l hl
        have hl' := mem_range.1 hl
        rw [q3 i hi l (by omega), p3 l (by omega) j hj]
        congr 1
        · rw [← sum_range_add_sum_Ico _ hb1]
          rw [sum_eq_zero (s := Ico L.rank L.U.nr), add_zero]
          · exact sum_congr rfl fun q hq => by rw [a5 q (by have := mem_range.1 hq; omega) l hl', if_pos (mem_range.1 hq)]
          · intro q hq
            have := mem_Ico.1 hq
            rw [a5 q this.2 l hl', if_neg (by omega), mul_zero]
        · rw [← sum_range_add_sum_Ico _ hb2]
          rw [sum_eq_zero (s := Ico L.rank L.V.nc), add_zero]
          · exact sum_congr rfl fun q hq => by rw [a6 l hl' q (by have := mem_range.1 hq; omega), if_pos (mem_range.1 hq)]
          · intro q hq
            have := mem_Ico.1 hq
            rw [a6 l hl' q this.2, if_neg (by omega), zero_mul]
      rw [sum_congr rfl e, triple_sum k L.rank L.rank Q P (fun q l => ((√((gesvd A).s l) : ℝ) : 𝕜) * (gesvd A).u.get q l)
        (fun l p => ((√((gesvd A).s l) : ℝ) : 𝕜) * (gesvd A).vt.get l p)]
      refine sum_congr rfl fun q _ => congrArg (Q i q * ·) (sum_congr rfl fun p _ => congrArg (· * P p j) (sum_congr rfl fun l hl => ?_))
      exact sqrt_mul_sqrt (hsvd.nonneg l (by have := mem_range.1 hl; omega)) _ _
    have horig : ∀ i < L.nr, ∀ j < L.nc, L.entry i j = ∑ q ∈ range L.rank, Q i q * ∑ p ∈ range L.rank, A.get q p * P p j := by
      intro i hi j hj
      unfold LR.entry
      have e : ∀ l ∈ range L.rank, L.U.get i l * L.V.get l j = (∑ q ∈ range L.rank, Q i q * R.get q l) * (∑ p ∈ range L.rank, T.get l p * P p j) := by
        intro l hl
        have hl' := mem_range.1 hl
        rw [hU i hi l hl', hV l (by rw [hvw]; exact hl') j hj, hvw]
        congr 1
        · exact sum_congr rfl fun q hq => by rw [u3 q (mem_range.1 hq) l hl']
        · exact sum_congr rfl fun p hp => by rw [v3 l hl' p (mem_range.1 hp)]
      rw [sum_congr rfl e, triple_sum]
      refine sum_congr rfl fun q hq => congrArg (Q i q * ·) (sum_congr rfl fun p hp => congrArg (· * P p j) ?_)
      rw [hA q (mem_range.1 hq) p (mem_range.1 hp)]
    have hiso : ∀ X : ℕ → ℕ → 𝕜, frob L.nr L.nc (fun i j => ∑ q ∈ range L.rank, Q i q * ∑ p ∈ range L.rank, X q p * P p j) = frob L.rank L.rank X := by
      intro X
      have e1 := iso_left (hQ.mono hb1) L.nc (fun q j => ∑ p ∈ range L.rank, X q p * P p j)
      exact e1.trans (iso_right (hP.mono hb2) L.rank X)
    have hnr : L.nr = L.U.nr := rfl
    have hnc : L.nc = L.V.nc := rfl
    refine ⟨by show L'.V.nr = L'.U.nc; rw [hLV, hLU, q2, p2, a2, a3], by show L'.U.nr = _; rw [hLU, q1]; rfl, by show L'.V.nc = _; rw [hLV, p1]; rfl,
      by omega, by omega, ?_⟩
    rw [hAr, hAc] at hap
    rcases hap with ha | ha
    · refine Or.inl fun i hi j hj => ?_
      rw [hent i hi j hj, horig i hi j hj]
      refine sum_congr rfl fun q hq => congrArg (Q i q * ·) (sum_congr rfl fun p hp => congrArg (· * P p j) ?_)
      exact ha q (mem_range.1 hq) p (mem_range.1 hp)
    · refine Or.inr ?_
      rw [frob_congr horig, hiso]
      refine lt_of_eq_of_lt ?_ ha
      rw [← hiso]
      refine frob_congr fun i hi j hj => ?_
      rw [hent i hi j hj, horig i hi j hj, ← sum_sub_distrib]
      refine sum_congr rfl fun q _ => ?_
      rw [← mul_sub, ← sum_sub_distrib]
      exact congrArg (Q i q * ·) (sum_congr rfl fun p _ => by rw [sub_mul])

/-! ## Consequences for the low-rank products and sums -/

/-- Rounding a low-rank matrix of positive rank or keeping it approximates it. -/
theorem rc_approx {gesvd : Mat 𝕜 → SVDOut 𝕜} {geqrf gelqf : Mat 𝕜 → OrthOut 𝕜} (hl : LapackOK gesvd geqrf gelqf) (eps : ℝ) {m n : ℕ} (hm : 0 < m) (hn : 0 < n)
    {E : ℕ → ℕ → 𝕜} {P L : LR 𝕜} (hP : P.IsMat m n E) (h : L = P ∨ (0 < P.rank ∧ L = recompress gesvd geqrf gelqf eps P)) :
    L.WF ∧ L.nr = m ∧ L.nc = n ∧ Approx eps m n E L.entry := by
  obtain ⟨h1, h2, h3, h4⟩ := hP
  rcases h with rfl | ⟨hpos, rfl⟩
  · exact ⟨h1, h2, h3, Or.inl h4⟩
  · obtain ⟨g1, g2, g3, -, -, g4⟩ := C55_recompression hl eps P h1 hpos (by omega) (by omega)
    refine ⟨g1, g2.trans h2, g3.trans h3, ?_⟩
    rw [h2, h3] at g4
    rcases g4 with g4 | g4
    · exact Or.inl fun i hi j hj => (g4 i hi j hj).trans (h4 i hi j hj)
    · refine Or.inr ?_
      rw [frob_congr h4] at g4
      refine lt_of_eq_of_lt (frob_congr fun i hi j hj => ?_) g4
      rw [h4 i hi j hj]

/-- **C55** Product of a low-rank matrix and a matrix into a low-rank matrix: the relative error is below the tolerance. -/
theorem C55_lrmat_matrix {gesvd : Mat 𝕜 → SVDOut 𝕜} {geqrf gelqf : Mat 𝕜 → OrthOut 𝕜} (hl : LapackOK gesvd geqrf gelqf) (eps : ℝ) (ta tb : Trans) (α : 𝕜)
    (A : LR 𝕜) (B : Mat 𝕜) (β : 𝕜) (C : LR 𝕜) (hA : A.WF) (hC : C.WF) (hr : A.rank ≠ 0 ∨ β = 1) (h : ConformSz ta tb A.nr A.nc B.nr B.nc C.nr C.nc)
    (hm : 0 < C.nr) (hn : 0 < C.nc) :
    let L := LR.mulMatLR (recompress gesvd geqrf gelqf eps) ta tb α A B β C
    L.WF ∧ L.nr = C.nr ∧ L.nc = C.nc ∧ Approx eps C.nr C.nc (prodE ta tb α A.entry B.get (opCols ta A.nr A.nc) β C.entry) L.entry := by
  obtain ⟨P, hP, hL⟩ := C28_lrmat_matrix_lowrank_partial (recompress gesvd geqrf gelqf eps) ta tb α A B β C hA hC hr h
  exact rc_approx hl eps hm hn hP hL

/-- **C55** Product of a matrix and a low-rank matrix into a low-rank matrix. -/
theorem C55_matrix_lrmat {gesvd : Mat 𝕜 → SVDOut 𝕜} {geqrf gelqf : Mat 𝕜 → OrthOut 𝕜} (hl : LapackOK gesvd geqrf gelqf) (eps : ℝ) (ta tb : Trans) (α : 𝕜)
    (A : Mat 𝕜) (B : LR 𝕜) (β : 𝕜) (C : LR 𝕜) (hB : B.WF) (hC : C.WF) (hr : B.rank ≠ 0 ∨ β = 1) (h : ConformSz ta tb A.nr A.nc B.nr B.nc C.nr C.nc)
    (hm : 0 < C.nr) (hn : 0 < C.nc) :
    let L := LR.matMulLR (recompress gesvd geqrf gelqf eps) ta tb α A B β C
    L.WF ∧ L.nr = C.nr ∧ L.nc = C.nc ∧ Approx eps C.nr C.nc (prodE ta tb α A.get B.entry (opCols ta A.nr A.nc) β C.entry) L.entry := by
  obtain ⟨P, hP, hL⟩ := C28_matrix_lrmat_lowrank_partial (recompress gesvd geqrf gelqf eps) ta tb α A B β C hB hC hr h
  exact rc_approx hl eps hm hn hP hL

/-- **C55** Product of two low-rank matrices into a low-rank matrix. -/
theorem C55_lrmat_lrmat {gesvd : Mat 𝕜 → SVDOut 𝕜} {geqrf gelqf : Mat 𝕜 → OrthOut 𝕜} (hl : LapackOK gesvd geqrf gelqf) (eps : ℝ) (ta tb : Trans) (α : 𝕜)
    (A : LR 𝕜) (B : LR 𝕜) (β : 𝕜) (C : LR 𝕜) (hA : A.WF) (hB : B.WF) (hC : C.WF) (hr : (A.rank ≠ 0 ∧ B.rank ≠ 0) ∨ β = 1)
    (h : ConformSz ta tb A.nr A.nc B.nr B.nc C.nr C.nc) (hm : 0 < C.nr) (hn : 0 < C.nc) :
    let L := LR.mulLRLR (recompress gesvd geqrf gelqf eps) ta tb α A B β C
    L.WF ∧ L.nr = C.nr ∧ L.nc = C.nc ∧ Approx eps C.nr C.nc (prodE ta tb α A.entry B.entry (opCols ta A.nr A.nc) β C.entry) L.entry := by
  obtain ⟨P, hP, hL⟩ := C28_lrmat_lrmat_lowrank_partial (recompress gesvd geqrf gelqf eps) ta tb α A B β C hA hB hC hr h
  exact rc_approx hl eps hm hn hP hL

/-- **C55** Product of two matrices into a low-rank matrix. The product is truncated; when it is added to `C`, the sum is truncated again. -/
theorem C55_matrix_matrix {gesvd : Mat 𝕜 → SVDOut 𝕜} {geqrf gelqf : Mat 𝕜 → OrthOut 𝕜} (hl : LapackOK gesvd geqrf gelqf) (eps : ℝ) (he : 0 ≤ eps)
    (ta tb : Trans) (α : 𝕜) (A B : Mat 𝕜) (β : 𝕜) (C : LR 𝕜) (hC : C.WF) (h : ConformSz ta tb A.nr A.nc B.nr B.nc C.nr C.nc) (hm : 0 < C.nr) (hn : 0 < C.nc) :
    let L := matMatLR gesvd geqrf gelqf eps ta tb α A B β C
    let X := prodE ta tb α A.get B.get (opCols ta A.nr A.nc) 0 C.entry
    let P := prodE ta tb α A.get B.get (opCols ta A.nr A.nc) β C.entry
    L.WF ∧ L.nr = C.nr ∧ L.nc = C.nc ∧ (β = 0 ∨ C.rank = 0 → Approx eps C.nr C.nc P L.entry) ∧
    frob C.nr C.nc (fun i j => P i j - L.entry i j) ≤ eps * frob C.nr C.nc P + eps * (1 + eps) * frob C.nr C.nc X := by
  obtain ⟨h1, h2, h3⟩ := h
  intro L X P
  have hdef : L = matMatLR gesvd geqrf gelqf eps ta tb α A B β C := rfl
  have hnr : (if ta = .N then A.nr else A.nc) = C.nr := h1.symm
  have hnc : (if tb = .N then B.nc else B.nr) = C.nc := h2.symm
  unfold matMatLR at hdef
  dsimp only at hdef
  rw [hnr, hnc] at hdef
  obtain ⟨g1, g2, g3, -⟩ := C35_matrix_matrix_product ta tb α A B β (Mat.mk' C.nr C.nc 0) ⟨h1, h2, h3⟩
  have hW : ∀ i < C.nr, ∀ j < C.nc, (Mat.addMM ta tb α A B β (Mat.mk' C.nr C.nc 0)).get i j = X i j := by
    intro i hi j hj
    rw [g3 i hi j hj, show (Mat.mk' C.nr C.nc (0 : 𝕜)).get i j = 0 from mk'_get _ _ _ hi hj]
    show _ = α * _ + 0 * _
    ring
  generalize Mat.addMM ta tb α A B β (Mat.mk' C.nr C.nc 0) = W at *
  have hWr : W.nr = C.nr := g1
  have hWc : W.nc = C.nc := g2
  have hsvd := hl.svd W
  obtain ⟨k1, k2, -⟩ := C31_truncation gesvd W hsvd (by omega) (by omega) eps
  have hap := trunc_approx gesvd W hsvd (by omega) (by omega) eps
  have ho : (svdTruncation gesvd W eps).2 = gesvd W := rfl
  rw [ho, hsvd.unc, hsvd.vnc, hWr, hWc] at hdef
  rw [hWr, hWc] at k2
  generalize (svdTruncation gesvd W eps).1 = k at *
  have hfac : ∀ U V : Mat 𝕜, (sqrtFactors (gesvd W) k C.nr C.nc C.nr C.nc U V).IsMat C.nr C.nc (svdSum (gesvd W) k) := by
    intro U V
    obtain ⟨a1, a2, a3, a4, -, -⟩ := sqrtFactors_spec (gesvd W) k C.nr C.nc C.nr C.nc U V le_rfl le_rfl
    exact ⟨a3.trans a2.symm, a1, a4, fun i hi j hj => sqrtFactors_entry (gesvd W) k C.nr C.nc C.nr C.nc U V le_rfl le_rfl
      (fun l hl' => hsvd.nonneg l (by omega)) hi hj⟩
  have hXap : Approx eps C.nr C.nc X (svdSum (gesvd W) k) := by
    rw [hWr, hWc] at hap
    rcases hap with ha | ha
    · exact Or.inl fun i hi j hj => (ha i hi j hj).trans (hW i hi j hj)
    · refine Or.inr ?_
      rw [frob_congr hW] at ha
      refine lt_of_eq_of_lt (frob_congr fun i hi j hj => ?_) ha
      rw [hW i hi j hj]
  have hXn : 0 ≤ eps * (1 + eps) * frob C.nr C.nc X := mul_nonneg (mul_nonneg he (by linarith)) (frob_nonneg _ _ _)
  have hPX : ∀ i j, P i j = X i j + β * C.entry i j := by
    intro i j
    show α * _ + β * _ = α * _ + 0 * _ + _
    ring
  by_cases hz : β = 0 ∨ C.rank = 0
  · rw [if_pos hz] at hdef
    obtain ⟨b1, b2, b3, b4⟩ := hfac C.U C.V
    rw [← hdef] at b1 b2 b3 b4
    have hPX' : ∀ i j, P i j = X i j := by
      intro i j
      rw [hPX]
      rcases hz with hz | hz
      · rw [hz, zero_mul, add_zero]
      · rw [entry_rank_zero hz, mul_zero, add_zero]
    have hPA : Approx eps C.nr C.nc P L.entry := by
      rcases hXap with ha | ha
      · exact Or.inl fun i hi j hj => by rw [b4 i hi j hj, ha i hi j hj, hPX']
      · refine Or.inr ?_
        rw [frob_congr (f := P) fun i _ j _ => hPX' i j]
        refine lt_of_eq_of_lt (frob_congr fun i hi j hj => ?_) ha
        rw [b4 i hi j hj, hPX']
    exact ⟨b1, b2, b3, fun _ => hPA, (hPA.le he).trans (le_add_of_nonneg_right hXn)⟩
  · rw [if_neg hz] at hdef
    have hcat := cat_prod β (hfac (Mat.mk' 0 0 0) (Mat.mk' 0 0 0)) hC rfl rfl
    obtain ⟨e1, e2, e3, e4⟩ := rc_approx hl eps hm hn hcat (Or.inr ⟨Nat.lt_of_lt_of_le (Nat.pos_of_ne_zero fun h => hz (Or.inr h)) (Nat.le_add_left C.U.nc _), hdef⟩)
    refine ⟨e1, e2, e3, fun h => absurd h hz, ?_⟩
    have t1 := frob_sub_le C.nr C.nc P (fun i j => svdSum (gesvd W) k i j + β * C.entry i j) L.entry
    have t2 := e4.le he
    have t3 := hXap.le he
    have t4 : frob C.nr C.nc (fun i j => P i j - (svdSum (gesvd W) k i j + β * C.entry i j)) = frob C.nr C.nc (fun i j => X i j - svdSum (gesvd W) k i j) :=
      frob_congr fun i _ j _ => by rw [hPX]; ring
    have t5 := frob_add_le C.nr C.nc P (fun i j => (svdSum (gesvd W) k i j + β * C.entry i j) - P i j)
    have t6 : frob C.nr C.nc (fun i j => P i j + ((svdSum (gesvd W) k i j + β * C.entry i j) - P i j)) =
        frob C.nr C.nc (fun i j => svdSum (gesvd W) k i j + β * C.entry i j) := frob_congr fun i _ j _ => by ring
    rw [frob_sub_comm C.nr C.nc (fun i j => svdSum (gesvd W) k i j + β * C.entry i j) P] at t5
    have t7 : eps * frob C.nr C.nc (fun i j => svdSum (gesvd W) k i j + β * C.entry i j) ≤ eps * (frob C.nr C.nc P + eps * frob C.nr C.nc X) :=
      mul_le_mul_of_nonneg_left (by linarith) he
    linarith

/-- **C55** Sum of two low-rank blocks: the sum of C32 with a relative error below the tolerance. -/
theorem C55_sum {gesvd : Mat 𝕜 → SVDOut 𝕜} {geqrf gelqf : Mat 𝕜 → OrthOut 𝕜} (hl : LapackOK gesvd geqrf gelqf) (eps : ℝ) (X Y : LR 𝕜)
    (xt xs yt ys : ℕ × ℕ) (hX : X.WF) (hY : Y.WF) (hxr : X.nr = xt.2) (hxc : X.nc = xs.2) (hyr : Y.nr = yt.2) (hyc : Y.nc = ys.2)
    (hm : 0 < Y.nr) (hn : 0 < Y.nc) (hin : (SubIv xt yt ∧ SubIv xs ys) ∨ (SubIv yt xt ∧ SubIv ys xs)) :
    let L := LR.addLR (recompress gesvd geqrf gelqf eps) X xt xs Y yt ys
    L.WF ∧ L.nr = Y.nr ∧ L.nc = Y.nc ∧ Approx eps Y.nr Y.nc (fun i j => Y.entry i j +
      if InCl xt (yt.1 + i) ∧ InCl xs (ys.1 + j) then X.entry (yt.1 + i - xt.1) (ys.1 + j - xs.1) else 0) L.entry := by
  obtain ⟨P, p1, p2, p3, p4, p5, p6⟩ := C32_sum (recompress gesvd geqrf gelqf eps) X Y xt xs yt ys hX hY hxr hxc hyr hyc hin
  refine rc_approx hl eps hm hn (P := P) ⟨p1, p2, p3, fun i hi j hj => ?_⟩ ?_
  · have := p5 (yt.1 + i) (ys.1 + j) ⟨by omega, by omega⟩ ⟨by omega, by omega⟩
    rw [Nat.add_sub_cancel_left, Nat.add_sub_cancel_left] at this
    exact this
  · by_cases h0 : Y.rank = 0
    · rw [if_pos h0] at p6; exact Or.inl p6
    · rw [if_neg h0] at p6; exact Or.inr ⟨by omega, p6⟩

end Htool
