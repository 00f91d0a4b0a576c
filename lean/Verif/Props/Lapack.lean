import Verif.Props.Svd
import Mathlib.Analysis.InnerProductSpace.SingularValues
import Mathlib.Analysis.InnerProductSpace.GramSchmidtOrtho

/-! # The LAPACK contracts can be met

The theorems about truncation and recompression assume the contracts of `gesvd`, `geqrf`/`mqr` and `gelqf`/`mlq`. Here: every matrix has the
decompositions, so that these hypotheses can be met for all matrices at once. -/

namespace Htool

open Finset Module
variable {𝕜 : Type*} [RCLike 𝕜]

/-- Entry of a vector, 0 outside. -/
noncomputable def vecAt {n : ℕ} (v : EuclideanSpace 𝕜 (Fin n)) (i : ℕ) : 𝕜 := if h : i < n then v ⟨i, h⟩ else 0

/-- Column-major matrix with given entries. -/
def matOf (m n : ℕ) (f : ℕ → ℕ → 𝕜) : Mat 𝕜 := ⟨m, n, fun p => f (p % m) (p / m)⟩

theorem matOf_get {m n : ℕ} (f : ℕ → ℕ → 𝕜) {i : ℕ} (hi : i < m) (j : ℕ) : (matOf m n f).get i j = f i j := by
  show f ((i + j * m) % m) ((i + j * m) / m) = _
  rw [Nat.add_mul_mod_self_right, Nat.mod_eq_of_lt hi, Nat.add_mul_div_right _ _ (by omega), Nat.div_eq_of_lt hi, Nat.zero_add]

theorem sum_vecAt {n : ℕ} (F : ℕ → 𝕜) (G : Fin n → 𝕜) (h : ∀ i : Fin n, F i = G i) : ∑ i ∈ range n, F i = ∑ i, G i := by
  rw [← Fin.sum_univ_eq_sum_range]
  exact sum_congr rfl fun i _ => h i

theorem inner_vecAt {n : ℕ} (v w : EuclideanSpace 𝕜 (Fin n)) : ∑ i ∈ range n, star (vecAt v i) * vecAt w i = inner 𝕜 v w := by
  rw [PiLp.inner_apply]
  refine sum_vecAt _ _ fun i => ?_
  rw [vecAt, vecAt, dif_pos i.2, dif_pos i.2, RCLike.inner_apply, mul_comm]
  rfl

/-- The columns of an orthonormal basis. -/
theorem orthoCols_basis {n : ℕ} (b : OrthonormalBasis (Fin n) 𝕜 (EuclideanSpace 𝕜 (Fin n))) :
    OrthoCols n n (fun i l => if h : l < n then vecAt (b ⟨l, h⟩) i else 0) := by
  intro l hl l' hl'
  simp only [dif_pos hl, dif_pos hl']
  rw [inner_vecAt, orthonormal_iff_ite.1 b.orthonormal]
  simp [Fin.ext_iff]

theorem exists_qr (A : Mat 𝕜) (h : A.nc ≤ A.nr) : ∃ o, IsQR A o := by
  let f : Fin A.nr → EuclideanSpace 𝕜 (Fin A.nr) := fun j => WithLp.toLp 2 fun i => A.get i j
  have hf : finrank 𝕜 (EuclideanSpace 𝕜 (Fin A.nr)) = Fintype.card (Fin A.nr) := by simp
  let b := InnerProductSpace.gramSchmidtOrthonormalBasis hf f
  let Q : ℕ → ℕ → 𝕜 := fun i l => if h : l < A.nr then vecAt (b ⟨l, h⟩) i else 0
  let R : ℕ → ℕ → 𝕜 := fun l j => if h : l < A.nr ∧ j < A.nr then inner 𝕜 (b ⟨l, h.1⟩) (f ⟨j, h.2⟩) else 0
  refine ⟨⟨matOf A.nr A.nc R, fun C => matOf A.nr C.nc fun i j => ∑ l ∈ range A.nr, Q i l * C.get l j⟩, ⟨Q, orthoCols_basis b, ?_, ?_⟩⟩
  · intro i hi j hj
    have hj' : j < A.nr := by omega
    have e := congrArg (fun v : EuclideanSpace 𝕜 (Fin A.nr) => v ⟨i, hi⟩) (b.sum_repr' (f ⟨j, hj'⟩))
    have e2 : A.get i j = ∑ l : Fin A.nr, inner 𝕜 (b l) (f ⟨j, hj'⟩) * b l ⟨i, hi⟩ := by
      refine Eq.trans ?_ (e.symm.trans ?_)
      · rfl
      · simp
    rw [e2]
    have e3 : ∑ l ∈ range A.nr, Q i l * R l j = ∑ l : Fin A.nr, inner 𝕜 (b l) (f ⟨j, hj'⟩) * b l ⟨i, hi⟩ :=
      sum_vecAt _ _ fun l => by
        show (if h : (l : ℕ) < A.nr then vecAt (b ⟨l, h⟩) i else 0) * (if h : (l : ℕ) < A.nr ∧ j < A.nr then _ else _) = _
        rw [dif_pos l.2, dif_pos ⟨l.2, hj'⟩, vecAt, dif_pos hi, mul_comm]
    rw [← e3, ← sum_range_add_sum_Ico _ h]
    have z : ∑ l ∈ Ico A.nc A.nr, Q i l * R l j = 0 := sum_eq_zero fun l hl => by
      have hl' := mem_Ico.1 hl
      show _ * (if h : l < A.nr ∧ j < A.nr then _ else _) = _
      rw [dif_pos ⟨hl'.2, hj'⟩, InnerProductSpace.gramSchmidtOrthonormalBasis_inv_triangular hf f (show (⟨j, hj'⟩ : Fin A.nr) < ⟨l, hl'.2⟩ by show j < l; omega), mul_zero]
    rw [z, add_zero]
    refine sum_congr rfl fun l hl => ?_
    have hl' := mem_range.1 hl
    by_cases hlj : l ≤ j
    · rw [if_pos hlj]; show _ = _ * (matOf A.nr A.nc R).get l j; rw [matOf_get R (by omega)]
    · rw [if_neg hlj]
      show _ * (if h : l < A.nr ∧ j < A.nr then _ else _) = _
      rw [dif_pos ⟨by omega, hj'⟩, InnerProductSpace.gramSchmidtOrthonormalBasis_inv_triangular hf f (show (⟨j, hj'⟩ : Fin A.nr) < ⟨l, by omega⟩ by show j < l; omega)]
  · intro C hC
    exact ⟨rfl, rfl, fun i hi j hj => matOf_get (fun i j => ∑ l ∈ range A.nr, Q i l * C.get l j) hi j⟩

theorem exists_lq (A : Mat 𝕜) (h : A.nr ≤ A.nc) : ∃ o, IsLQ A o := by
  obtain ⟨o, Q, h1, h2, h3⟩ := exists_qr (matOf A.nc A.nr fun i j => A.get j i) h
  refine ⟨⟨matOf A.nr A.nc fun i l => o.fac.get l i, fun C => matOf C.nr A.nc fun i j => ∑ l ∈ range A.nc, C.get i l * Q j l⟩, ⟨fun l j => Q j l, h1, ?_, ?_⟩⟩
  · intro i hi j hj
    have := h2 j hj i hi
    rw [matOf_get _ hj] at this
    rw [this]
    refine sum_congr rfl fun l hl => ?_
    show _ = (if l ≤ i then (matOf A.nr A.nc fun i l => o.fac.get l i).get i l else 0) * _
    rw [matOf_get _ hi, mul_comm]
  · intro C hC
    exact ⟨rfl, rfl, fun i hi j hj => matOf_get (fun i j => ∑ l ∈ range A.nc, C.get i l * Q j l) hi j⟩

theorem exists_svd (A : Mat 𝕜) : ∃ o, IsSVD A o := by
  let T : EuclideanSpace 𝕜 (Fin A.nc) →ₗ[𝕜] EuclideanSpace 𝕜 (Fin A.nr) := Matrix.toEuclideanLin (Matrix.of fun (i : Fin A.nr) (j : Fin A.nc) => A.get i j)
  have hE : finrank 𝕜 (EuclideanSpace 𝕜 (Fin A.nc)) = A.nc := by simp
  have hF : finrank 𝕜 (EuclideanSpace 𝕜 (Fin A.nr)) = Fintype.card (Fin A.nr) := by simp
  let v := T.isPositive_adjoint_comp_self.isSymmetric.eigenvectorBasis hE
  let σ := T.singularValues
  have hin : ∀ i j : Fin A.nc, inner 𝕜 (T (v i)) (T (v j)) = if i = j then ((σ i ^ 2 : ℝ) : 𝕜) else 0 := by
    intro i j
    rw [← LinearMap.adjoint_inner_right]
    have e := T.isPositive_adjoint_comp_self.isSymmetric.apply_eigenvectorBasis hE j
    have e' : (LinearMap.adjoint T) (T (v j)) = (((T.isPositive_adjoint_comp_self.isSymmetric.eigenvalues hE j : ℝ) : 𝕜)) • v j := e
    rw [e', inner_smul_right, orthonormal_iff_ite.1 v.orthonormal, ← LinearMap.sq_singularValues_fin]
    by_cases hij : i = j
    · subst hij; simp [σ]
    · simp [hij]
  -- vectors T v_l / σ_l
  let w : Fin A.nr → EuclideanSpace 𝕜 (Fin A.nr) := fun l => if h : (l : ℕ) < A.nc then ((σ l : ℝ) : 𝕜)⁻¹ • T (v ⟨l, h⟩) else 0
  let s : Set (Fin A.nr) := {l | (l : ℕ) < A.nc ∧ σ l ≠ 0}
  have hw : Orthonormal 𝕜 (s.restrict w) := by
    rw [orthonormal_iff_ite]
    rintro ⟨l, hl⟩ ⟨l', hl'⟩
    show inner 𝕜 (w l) (w l') = _
    have a1 : w l = ((σ l : ℝ) : 𝕜)⁻¹ • T (v ⟨l, hl.1⟩) := dif_pos hl.1
    have a2 : w l' = ((σ l' : ℝ) : 𝕜)⁻¹ • T (v ⟨l', hl'.1⟩) := dif_pos hl'.1
    rw [a1, a2, inner_smul_left, inner_smul_right, hin]
    by_cases hll : l = l'
    · subst hll
      have : ((σ l : ℝ) : 𝕜) ≠ 0 := RCLike.ofReal_ne_zero.2 hl.2
      simp
      field_simp
    · rw [if_neg (fun h => hll (Fin.ext (Fin.mk.inj_iff.1 h))), if_neg (fun h => hll (congrArg Subtype.val h))]
      simp
  obtain ⟨b, hb⟩ := hw.exists_orthonormalBasis_extension_of_card_eq hF
  have hrank : finrank 𝕜 (LinearMap.range T) ≤ A.nr := (Submodule.finrank_le _).trans (by rw [hF]; simp)
  have hTv : ∀ l : Fin A.nc, T (v l) = if h : (l : ℕ) < A.nr then ((σ l : ℝ) : 𝕜) • b ⟨l, h⟩ else 0 := by
    intro l
    by_cases h0 : σ l = 0
    · have : T (v l) = 0 := by
        rw [← inner_self_eq_zero (𝕜 := 𝕜), hin, if_pos rfl, h0]; simp
      rw [this, h0]
      split_ifs <;> simp
    · have hl : (l : ℕ) < A.nr := by
        by_contra hc
        exact h0 (T.singularValues_eq_zero_iff_le_finrank_range.2 (by omega))
      rw [dif_pos hl, hb ⟨l, hl⟩ ⟨l.2, h0⟩]
      show _ = ((σ l : ℝ) : 𝕜) • (if h : (l : ℕ) < A.nc then ((σ l : ℝ) : 𝕜)⁻¹ • T (v ⟨l, h⟩) else 0)
      rw [dif_pos l.2, smul_smul, mul_inv_cancel₀ (RCLike.ofReal_ne_zero.2 h0), one_smul]
  let U : ℕ → ℕ → 𝕜 := fun i l => if h : l < A.nr then vecAt (b ⟨l, h⟩) i else 0
  let V : ℕ → ℕ → 𝕜 := fun l j => if h : l < A.nc then star (vecAt (v ⟨l, h⟩) j) else 0
  refine ⟨⟨matOf A.nr A.nr U, matOf A.nc A.nc V, fun l => σ l⟩, rfl, rfl, rfl, rfl, fun l _ => T.singularValues_nonneg l,
    fun l l' h _ => T.singularValues_antitone h, ?_, ?_, ?_⟩
  · intro l hl l' hl'
    rw [← orthoCols_basis b l hl l' hl']
    refine sum_congr rfl fun i hi => ?_
    have hi' := mem_range.1 hi
    show star ((matOf A.nr A.nr U).get i l) * (matOf A.nr A.nr U).get i l' = _
    rw [matOf_get _ hi', matOf_get _ hi']
  · intro l hl l' hl'
    have e := orthoCols_basis v l' hl' l hl
    rw [show (if l = l' then (1 : 𝕜) else 0) = if l' = l then 1 else 0 from if_congr eq_comm rfl rfl, ← e]
    refine sum_congr rfl fun j hj => ?_
    show star ((matOf A.nc A.nc V).get l j) * (matOf A.nc A.nc V).get l' j = _
    rw [matOf_get _ hl, matOf_get _ hl']
    show star (if h : l < A.nc then star (vecAt (v ⟨l, h⟩) j) else 0) * (if h : l' < A.nc then star (vecAt (v ⟨l', h⟩) j) else 0) = _
    simp only [dif_pos hl, dif_pos hl', star_star]
    rw [mul_comm]
  · intro i hi j hj
    let e : EuclideanSpace 𝕜 (Fin A.nc) := EuclideanSpace.single (⟨j, hj⟩ : Fin A.nc) (1 : 𝕜)
    have h1 : T e ⟨i, hi⟩ = A.get i j := by
      simp [T, e, Matrix.toEuclideanLin]
    have h2 : T e = ∑ l : Fin A.nc, inner 𝕜 (v l) e • T (v l) := by
      conv_lhs => rw [← v.sum_repr' e]
      rw [map_sum]
      exact sum_congr rfl fun l _ => by rw [map_smul]
    have h3 : ∀ l : Fin A.nc, inner 𝕜 (v l) e = star (vecAt (v l) j) := by
      intro l
      rw [vecAt, dif_pos hj, EuclideanSpace.inner_single_right, one_mul]
      rfl
    have h4 : A.get i j = ∑ l : Fin A.nc, inner 𝕜 (v l) e * T (v l) ⟨i, hi⟩ := by
      rw [← h1, h2]
      simp
    rw [h4]
    unfold svdSum
    let G : ℕ → 𝕜 := fun l => (matOf A.nr A.nr U).get i l * ((σ l : ℝ) : 𝕜) * (matOf A.nc A.nc V).get l j
    show _ = ∑ l ∈ range (min A.nr A.nc), G l
    have h5 : ∑ l ∈ range A.nc, (if l < A.nr then G l else 0) = ∑ l : Fin A.nc, inner 𝕜 (v l) e * T (v l) ⟨i, hi⟩ := by
      refine sum_vecAt _ _ fun l => ?_
      rw [h3, hTv]
      by_cases hl : (l : ℕ) < A.nr
      · rw [if_pos hl, dif_pos hl]
        show (matOf A.nr A.nr U).get i l * ((σ l : ℝ) : 𝕜) * (matOf A.nc A.nc V).get l j = _
        rw [matOf_get _ hi, matOf_get _ l.2]
        show (if h : (l : ℕ) < A.nr then vecAt (b ⟨l, h⟩) i else 0) * ((σ l : ℝ) : 𝕜) * (if h : (l : ℕ) < A.nc then star (vecAt (v ⟨l, h⟩) j) else 0) = _
        rw [dif_pos hl, dif_pos l.2]
        rw [show vecAt (b ⟨l, hl⟩) i = b ⟨l, hl⟩ ⟨i, hi⟩ from dif_pos hi]
        show _ = star (vecAt (v l) j) * (((σ l : ℝ) : 𝕜) * b ⟨l, hl⟩ ⟨i, hi⟩)
        ring
      · rw [if_neg hl, dif_neg hl]; simp
    rw [← h5, ← sum_filter]
    refine sum_congr ?_ fun _ _ => rfl
    ext l
    simp only [mem_filter, mem_range]
    omega

open Classical in
/-- The contracts of the LAPACK routines can be met for all matrices. -/
theorem exists_lapack (𝕜 : Type*) [RCLike 𝕜] : ∃ (gesvd : Mat 𝕜 → SVDOut 𝕜) (geqrf gelqf : Mat 𝕜 → OrthOut 𝕜), LapackOK gesvd geqrf gelqf :=
  ⟨fun A => (exists_svd A).choose, fun A => if h : A.nc ≤ A.nr then (exists_qr A h).choose else ⟨A, id⟩,
    fun A => if h : A.nr ≤ A.nc then (exists_lq A h).choose else ⟨A, id⟩, fun A => (exists_svd A).choose_spec,
    fun A h => by simp only [dif_pos h]; exact (exists_qr A h).choose_spec, fun A h => by simp only [dif_pos h]; exact (exists_lq A h).choose_spec⟩

/-! ### Examples -/

/-- `diag(3, 1)`. -/
noncomputable def exDiag : Mat ℝ := matOf 2 2 fun i j => if i = j then (if i = 0 then 3 else 1) else 0

/-- Its singular value decomposition. -/
noncomputable def exDiagSVD : SVDOut ℝ := ⟨matOf 2 2 fun i j => if i = j then 1 else 0, matOf 2 2 fun i j => if i = j then 1 else 0, fun l => if l = 0 then 3 else 1⟩

theorem exDiag_svd : IsSVD exDiag exDiagSVD := by
  have lt2 : ∀ i, i < 2 → i = 0 ∨ i = 1 := fun i hi => by omega
  have ho : OrthoCols 2 2 (fun i j => if i = j then (1 : ℝ) else 0) := by
    intro l hl l' hl'
    rcases lt2 l hl with rfl | rfl <;> rcases lt2 l' hl' with rfl | rfl <;> simp [sum_range_succ]
  have hu : ∀ i, i < 2 → ∀ l, exDiagSVD.u.get i l = if i = l then 1 else 0 := fun i hi l => matOf_get (fun i j => if i = j then (1 : ℝ) else 0) hi l
  have hv : ∀ l, l < 2 → ∀ j, exDiagSVD.vt.get l j = if l = j then 1 else 0 := fun i hi l => matOf_get (fun i j => if i = j then (1 : ℝ) else 0) hi l
  have hA : ∀ i, i < 2 → ∀ j, exDiag.get i j = if i = j then (if i = 0 then 3 else 1) else 0 := fun i hi j =>
    matOf_get (fun i j => if i = j then (if i = 0 then (3 : ℝ) else 1) else 0) hi j
  refine ⟨rfl, rfl, rfl, rfl, fun l _ => ?_, fun l l' h _ => ?_, ?_, ?_, ?_⟩
  · show 0 ≤ if l = 0 then (3 : ℝ) else 1
    split_ifs <;> norm_num
  · show (if l' = 0 then (3 : ℝ) else 1) ≤ if l = 0 then (3 : ℝ) else 1
    split_ifs <;> first | omega | norm_num
  · intro l hl l' hl'
    rw [← ho l hl l' hl']
    exact sum_congr rfl fun i hi => by rw [hu i (mem_range.1 hi), hu i (mem_range.1 hi)]
  · intro l hl l' hl'
    rw [← ho l hl l' hl']
    exact sum_congr rfl fun i hi => by
      beta_reduce
      rw [hv l hl, hv l' hl']
      simp only [eq_comm]
  · intro i hi j hj
    have hi' : i < 2 := hi
    have hj' : j < 2 := hj
    show _ = ∑ l ∈ range 2, exDiagSVD.u.get i l * _ * exDiagSVD.vt.get l j
    rw [sum_range_succ, sum_range_succ, sum_range_zero, hA i hi', hu i hi', hu i hi', hv 0 (by omega), hv 1 (by omega)]
    rcases lt2 i hi' with rfl | rfl <;> rcases lt2 j hj' with rfl | rfl <;> simp [exDiagSVD]

/-- `diag(3, 1)` is truncated to rank 1 with the tolerance 1/2, and kept with the tolerance 1/10. -/
example : (svdTruncation (fun _ => exDiagSVD) exDiag (1 / 2)).1 = 1 ∧ (svdTruncation (fun _ => exDiagSVD) exDiag (1 / 10)).1 = 2 := by
  have hf : ∑ l ∈ range (min exDiag.nr exDiag.nc), exDiagSVD.s l ^ 2 = 10 := by
    show ∑ l ∈ range 2, (if l = 0 then (3 : ℝ) else 1) ^ 2 = 10
    rw [sum_range_succ, sum_range_succ]; norm_num
  have h1 : ∑ l ∈ Ico 1 (min exDiag.nr exDiag.nc), exDiagSVD.s l ^ 2 = 1 := by
    show ∑ l ∈ Ico 1 2, (if l = 0 then (3 : ℝ) else 1) ^ 2 = 1
    rw [sum_Ico_succ_top (by omega)]; norm_num
  have hs : (3 : ℝ) < √10 ∧ √10 < 4 := by
    constructor
    · rw [Real.lt_sqrt (by norm_num)]; norm_num
    · rw [Real.sqrt_lt' (by norm_num)]; norm_num
  have hmin : min exDiag.nr exDiag.nc = 2 := rfl
  constructor
  · obtain ⟨a, b, c, d, e, f, g⟩ := C31_truncation (fun _ => exDiagSVD) exDiag exDiag_svd (by decide) (by decide) (1 / 2)
    by_contra hne
    have := e 1 le_rfl (by omega)
    rw [g, f 1 (by omega), hf, h1, Real.sqrt_one] at this
    linarith [hs.1]
  · obtain ⟨a, b, c, d, e, f, g⟩ := C31_truncation (fun _ => exDiagSVD) exDiag exDiag_svd (by decide) (by decide) (1 / 10)
    by_contra hne
    have hk : (svdTruncation (fun _ => exDiagSVD) exDiag (1 / 10)).1 = 1 := by omega
    have := c (by omega)
    rw [hk] at this
    rw [g, f 1 (by omega), hf, h1, Real.sqrt_one] at this
    linarith [hs.2]

/-- The SVD compressor on a 5 × 4 block, with LAPACK routines which exist. -/
example : ∃ (gesvd : Mat ℂ → SVDOut ℂ), (svdGen gesvd (fun i j => (i : ℂ) + j) (2, 5) (1, 4) (1 / 10) 3 ⟨0, 0, 0⟩ ⟨0, 0, 0⟩).1 = 3 := by
  obtain ⟨g, q, l, h⟩ := exists_lapack ℂ
  refine ⟨g, ?_⟩
  obtain ⟨k, hk, h1, -⟩ := (C31_svd_generator g (fun i j => (i : ℂ) + j) (2, 5) (1, 4) (by decide) (by decide) (h.svd _) (1 / 10) 3 ⟨0, 0, 0⟩ ⟨0, 0, 0⟩).2 (by decide)
  rw [h1, hk]; decide

/-- Rank 2, `4 × 3`. -/
noncomputable def exR2 : LR ℝ := ⟨⟨4, 2, fun p => (p : ℝ)⟩, ⟨2, 3, fun p => 2 - (p : ℝ)⟩⟩

/-- Rank 1, `2 × 2`. -/
noncomputable def exR1 : LR ℝ := ⟨⟨2, 1, fun p => (p : ℝ) + 1⟩, ⟨1, 2, fun p => (p : ℝ) - 3⟩⟩

/-- Rank 2, `3 × 3`. -/
noncomputable def exR3 : LR ℝ := ⟨⟨3, 2, fun p => (p : ℝ) + 1⟩, ⟨2, 3, fun p => (p : ℝ) - 3⟩⟩

/-- Sum of blocks of rank 2 and 1 with recompression, and products. -/
example : ∃ (gesvd : Mat ℝ → SVDOut ℝ) (geqrf gelqf : Mat ℝ → OrthOut ℝ),
    (LR.addLR (recompress gesvd geqrf gelqf (1 / 10)) exR1 (5, 2) (7, 2) exR2 (4, 4) (7, 3)).nr = 4 ∧
    (matMatLR gesvd geqrf gelqf (1 / 10) .N .T 1 ⟨4, 3, fun p => (p : ℝ)⟩ ⟨3, 3, fun p => (p : ℝ)⟩ 1 exR2).nr = 4 ∧
    (LR.mulLRLR (recompress gesvd geqrf gelqf (1 / 10)) .N .N 1 exR2 exR3 2 exR2).nr = 4 ∧
    (LR.mulMatLR (recompress gesvd geqrf gelqf (1 / 10)) .N .N 1 exR2 ⟨3, 3, fun p => (p : ℝ)⟩ 2 exR2).nr = 4 ∧
    (LR.matMulLR (recompress gesvd geqrf gelqf (1 / 10)) .N .N 1 ⟨4, 4, fun p => (p : ℝ)⟩ exR2 2 exR2).nr = 4 := by
  obtain ⟨g, q, l, h⟩ := exists_lapack ℝ
  refine ⟨g, q, l, ?_, ?_, ?_, ?_, ?_⟩
  · exact (C55_sum h (1 / 10) exR1 exR2 (5, 2) (7, 2) (4, 4) (7, 3) rfl rfl rfl rfl rfl rfl (by decide) (by decide) (Or.inl ⟨⟨by decide, by decide⟩, by decide, by decide⟩)).2.1
  · exact (C55_matrix_matrix h (1 / 10) (by norm_num) _ _ _ _ _ _ exR2 rfl ⟨rfl, rfl, rfl⟩ (by decide) (by decide)).2.1
  · exact (C55_lrmat_lrmat h (1 / 10) _ _ _ exR2 exR3 _ exR2 rfl rfl rfl (Or.inl ⟨by decide, by decide⟩) ⟨rfl, rfl, rfl⟩ (by decide) (by decide)).2.1
  · exact (C55_lrmat_matrix h (1 / 10) _ _ _ exR2 _ _ exR2 rfl rfl (Or.inl (by decide)) ⟨rfl, rfl, rfl⟩ (by decide) (by decide)).2.1
  · exact (C55_matrix_lrmat h (1 / 10) _ _ _ _ exR2 _ exR2 rfl rfl (Or.inl (by decide)) ⟨rfl, rfl, rfl⟩ (by decide) (by decide)).2.1

end Htool
