import Verif.GeneoBuilder
import Verif.Props.Geneo
import Verif.Props.HOps
import Verif.Props.CholPosDef
import Mathlib.Analysis.Matrix.Spectrum
import Mathlib.Analysis.Matrix.PosDef
import Mathlib.LinearAlgebra.Matrix.ToLin
import Mathlib.LinearAlgebra.Dimension.Finrank

/-! # C70: the GenEO coarse space -/

namespace Htool
open Finset Matrix
open scoped ComplexOrder

section spec
variable {𝕜 : Type*} [RCLike 𝕜]

/-- The partition of unity of the subdomain: one on its own unknowns, zero on the overlap. -/
def ownD (𝕜 : Type*) [RCLike 𝕜] (nIn n : ℕ) : Matrix (Fin n) (Fin n) 𝕜 := Matrix.diagonal fun i => if i.1 < nIn then 1 else 0

/-- Entry `(i,j)` is in the triangle named by UPLO. -/
def Stored (lower : Bool) (i j : ℕ) : Prop := if lower then j ≤ i else i ≤ j

instance (lower : Bool) (i j : ℕ) : Decidable (Stored lower i j) := by unfold Stored; infer_instance

/-- The Hermitian matrix of which LAPACK reads one triangle. -/
def hermRead (n : ℕ) (lower : Bool) (A : Mat 𝕜) : Matrix (Fin n) (Fin n) 𝕜 :=
  Matrix.of fun i j => if Stored lower i j then A.get i j else star (A.get j i)

/-- The square matrix stored in the first `n` rows and columns of `A`. -/
def fullRead (n : ℕ) (A : Mat 𝕜) : Matrix (Fin n) (Fin n) 𝕜 := Matrix.of fun i j => A.get i j

/-- What LAPACK documents for `sygv`/`hegv` with `itype = 1`, `jobz = 'V'`: for Hermitian `A` and positive definite `B` given by one triangle, the columns of `X`
are eigenvectors, orthonormal for `B`, and the triangle of `L` is the Cholesky factor of `B`. -/
def GvSolves (n : ℕ) (lower : Bool) (A B : Mat 𝕜) (o : GvOut 𝕜) : Prop :=
  (hermRead n lower A).IsHermitian → (hermRead n lower B).PosDef →
    hermRead n lower A * fullRead n o.X = hermRead n lower B * fullRead n o.X * Matrix.diagonal (fun e : Fin n => (o.w e : 𝕜)) ∧
    (fullRead n o.X)ᴴ * hermRead n lower B * fullRead n o.X = 1 ∧
    ∃ T : Matrix (Fin n) (Fin n) 𝕜, (∀ i j : Fin n, ¬ Stored lower i j → T i j = 0) ∧
      (if lower then T * Tᴴ else Tᴴ * T) = hermRead n lower B ∧ ∀ i j : Fin n, Stored lower i j → o.L.get i j = T i j

/-- `v` is a solution of the eigenvalue problem of GenEO: `D A D v = l B v`. -/
def IsPair {n : ℕ} (D A B : Matrix (Fin n) (Fin n) 𝕜) (v : Fin n → 𝕜) (l : 𝕜) : Prop := (D * A * D) *ᵥ v = l • (B *ᵥ v)

end spec

section pencil
variable {𝕜 : Type*} [RCLike 𝕜] {n : ℕ}

/-- Every eigenvector is a combination of the computed ones with the same eigenvalue. -/
theorem pencil_span {A B X : Matrix (Fin n) (Fin n) 𝕜} {w : Fin n → 𝕜} (h1 : A * X = B * X * Matrix.diagonal w) (h2 : Xᴴ * B * X = 1)
    {v : Fin n → 𝕜} {l : 𝕜} (hv : A *ᵥ v = l • (B *ᵥ v)) :
    ∃ c : Fin n → 𝕜, v = X *ᵥ c ∧ ∀ e, w e ≠ l → c e = 0 := by
  have h3 : X * (Xᴴ * B) = 1 := mul_eq_one_comm.1 h2
  refine ⟨(Xᴴ * B) *ᵥ v, by rw [mulVec_mulVec, h3, one_mulVec], fun e he => ?_⟩
  set c := (Xᴴ * B) *ᵥ v with hc
  have hvc : v = X *ᵥ c := by rw [hc, mulVec_mulVec, h3, one_mulVec]
  have h4 : Matrix.diagonal w *ᵥ c = l • c := by
    have e1 : (Xᴴ * A) *ᵥ v = l • c := by rw [← mulVec_mulVec, hv, mulVec_smul, mulVec_mulVec]
    rw [← e1]
    conv_rhs => rw [hvc]
    rw [mulVec_mulVec c (Xᴴ * A) X, Matrix.mul_assoc Xᴴ A X, h1, ← Matrix.mul_assoc, ← Matrix.mul_assoc, h2, Matrix.one_mul]
  have h5 := congrFun h4 e
  rw [mulVec_diagonal, Pi.smul_apply, smul_eq_mul] at h5
  rcases mul_eq_mul_right_iff.1 h5 with h6 | h6
  · exact absurd h6 he
  · exact h6

/-- LAPACK's contract can be met: the matrices needed exist for every Hermitian `A` and positive definite `B`. -/
theorem pencil_exists {A B : Matrix (Fin n) (Fin n) 𝕜} (hA : A.IsHermitian) (hB : B.PosDef) :
    ∃ (X : Matrix (Fin n) (Fin n) 𝕜) (w : Fin n → ℝ), A * X = B * X * Matrix.diagonal (fun e => (w e : 𝕜)) ∧ Xᴴ * B * X = 1 := by
  obtain ⟨F, -, -, hF⟩ := posDef_chol hB
  have hFu : IsUnit F.det := by
    have := hB.det_pos.ne'
    rw [← hF, det_mul] at this
    exact (left_ne_zero_of_mul this).isUnit
  set G := F⁻¹ with hG
  have hGF : G * F = 1 := nonsing_inv_mul _ hFu
  have hFG : F * G = 1 := mul_nonsing_inv _ hFu
  have hC : (G * A * Gᴴ).IsHermitian := by
    unfold Matrix.IsHermitian
    rw [conjTranspose_mul, conjTranspose_mul, conjTranspose_conjTranspose, hA.eq, Matrix.mul_assoc]
  obtain ⟨U, w, hUU, hsp⟩ : ∃ (U : Matrix (Fin n) (Fin n) 𝕜) (w : Fin n → ℝ), Uᴴ * U = 1 ∧
      G * A * Gᴴ = U * Matrix.diagonal (fun e => (w e : 𝕜)) * Uᴴ := by
    refine ⟨(hC.eigenvectorUnitary : Matrix (Fin n) (Fin n) 𝕜), hC.eigenvalues, ?_, ?_⟩
    · have := (Matrix.mem_unitaryGroup_iff').1 hC.eigenvectorUnitary.2
      rwa [star_eq_conjTranspose] at this
    · have := hC.spectral_theorem
      rw [Unitary.conjStarAlgAut_apply] at this
      exact this
  refine ⟨Gᴴ * U, w, ?_, ?_⟩
  · have e1 : G * A * (Gᴴ * U) = U * Matrix.diagonal (fun e => (w e : 𝕜)) := by
      rw [← Matrix.mul_assoc, hsp, Matrix.mul_assoc _ Uᴴ, hUU, Matrix.mul_one]
    have e2 : A * (Gᴴ * U) = F * (G * A * (Gᴴ * U)) := by
      rw [← Matrix.mul_assoc F, ← Matrix.mul_assoc F, hFG, Matrix.one_mul]
    have e3 : B * (Gᴴ * U) = F * U := by
      rw [← hF, Matrix.mul_assoc, ← Matrix.mul_assoc Fᴴ, ← conjTranspose_mul, hGF, conjTranspose_one, Matrix.one_mul]
    rw [e2, e1, e3, Matrix.mul_assoc]
  · rw [conjTranspose_mul, conjTranspose_conjTranspose, ← hF]
    calc Uᴴ * G * (F * Fᴴ) * (Gᴴ * U) = Uᴴ * (G * F) * ((G * F)ᴴ * U) := by
          rw [conjTranspose_mul]; simp only [Matrix.mul_assoc]
      _ = 1 := by rw [hGF, conjTranspose_one, Matrix.mul_one, Matrix.one_mul, hUU]

end pencil

/-! ## The matrix of the builder -/

section matrix
variable {K F : Type*} [Zero K]

/-- **C70 (matrix).** For a dense matrix with or without the overlap, the matrix given to LAPACK is the matrix of the subdomain with zeros in the rows and columns
of the overlap. -/
theorem C70_matrix {nIn n : ℕ} (h : nIn ≤ n) (Ai Bi : Mat K) (sym : HSym) (lower : Bool) (nu : ℕ) (thr : F)
    (hs : (Ai.nr = n ∧ Ai.nc = n) ∨ (Ai.nr = nIn ∧ Ai.nc = nIn)) {i j : ℕ} (hi : i < n) (hj : j < n) :
    (GBuilder.create nIn n Ai Bi sym lower nu thr).DAD.get i j = if i < nIn ∧ j < nIn then Ai.get i j else 0 :=
  GBuilder.create_get h Ai Bi sym lower nu thr hs hi hj

/-- **C70 (defect).** A matrix with another number of columns is silently replaced by zero. -/
theorem C70_other_size {nIn n : ℕ} (Ai Bi : Mat K) (sym : HSym) (lower : Bool) (nu : ℕ) (thr : F) (h1 : Ai.nc ≠ n) (h2 : Ai.nc ≠ nIn) (i j : ℕ) :
    (GBuilder.create nIn n Ai Bi sym lower nu thr).DAD.get i j = 0 := by
  simp only [GBuilder.create, h1, h2, if_false, Mat.get, Mat.mk', ite_self]

end matrix

/-! ## Symmetric branch -/

section gv
variable {𝕜 : Type*} [RCLike 𝕜] {n nIn : ℕ}

/-- The user gives the matrix `A` of the subdomain (with or without the overlap) and `B`, both by one triangle. -/
structure GeneoInput (nIn n : ℕ) (lower : Bool) (A B : Matrix (Fin n) (Fin n) 𝕜) (Ai Bi : Mat 𝕜) : Prop where
  le : nIn ≤ n
  size : (Ai.nr = n ∧ Ai.nc = n) ∨ (Ai.nr = nIn ∧ Ai.nc = nIn)
  a : ∀ i j : Fin n, i.1 < nIn → j.1 < nIn → Stored lower i j → Ai.get i j = A i j
  b : ∀ i j : Fin n, Stored lower i j → Bi.get i j = B i j

theorem stored_or (lower : Bool) {i j : ℕ} (h : ¬ Stored lower i j) : Stored lower j i := by
  unfold Stored at h ⊢
  cases lower
  · simp at h ⊢; omega
  · simp at h ⊢; omega

theorem ownD_mul_mul (A : Matrix (Fin n) (Fin n) 𝕜) (i j : Fin n) :
    (ownD 𝕜 nIn n * A * ownD 𝕜 nIn n) i j = if i.1 < nIn ∧ j.1 < nIn then A i j else 0 := by
  unfold ownD
  rw [mul_diagonal, diagonal_mul]
  by_cases h1 : i.1 < nIn <;> by_cases h2 : j.1 < nIn <;> simp [h1, h2]

theorem ownD_mulVec (v : Fin n → 𝕜) (i : Fin n) : (ownD 𝕜 nIn n *ᵥ v) i = if i.1 < nIn then v i else 0 := by
  unfold ownD
  rw [mulVec_diagonal]
  by_cases h1 : i.1 < nIn <;> simp [h1]

theorem GeneoInput.read {lower : Bool} {A B : Matrix (Fin n) (Fin n) 𝕜} {Ai Bi : Mat 𝕜} (h : GeneoInput nIn n lower A B Ai Bi) (hA : A.IsHermitian)
    (hB : B.IsHermitian) (sym : HSym) (nu : ℕ) (thr : ℝ) :
    hermRead n lower (GBuilder.create nIn n Ai Bi sym lower nu thr).DAD = ownD 𝕜 nIn n * A * ownD 𝕜 nIn n ∧
    hermRead n lower (GBuilder.create nIn n Ai Bi sym lower nu thr).Bi = B := by
  constructor
  · ext i j
    rw [ownD_mul_mul]
    simp only [hermRead, of_apply]
    by_cases hst : Stored lower i j
    · rw [if_pos hst, C70_matrix h.le _ _ _ _ _ _ h.size i.2 j.2]
      by_cases hin : i.1 < nIn ∧ j.1 < nIn
      · rw [if_pos hin, if_pos hin, h.a i j hin.1 hin.2 hst]
      · rw [if_neg hin, if_neg hin]
    · rw [if_neg hst, C70_matrix h.le _ _ _ _ _ _ h.size j.2 i.2]
      by_cases hin : i.1 < nIn ∧ j.1 < nIn
      · rw [if_pos hin, if_pos hin.symm, h.a j i hin.2 hin.1 (stored_or lower hst)]
        exact hA.apply i j
      · rw [if_neg hin, if_neg (fun h => hin h.symm), star_zero]
  · ext i j
    simp only [hermRead, of_apply]
    show (if Stored lower i j then Bi.get i j else star (Bi.get j i)) = _
    by_cases hst : Stored lower i j
    · rw [if_pos hst, h.b i j hst]
    · rw [if_neg hst, h.b j i (stored_or lower hst)]
      exact hB.apply i j

theorem isHermitian_ownD {A : Matrix (Fin n) (Fin n) 𝕜} (hA : A.IsHermitian) : (ownD 𝕜 nIn n * A * ownD 𝕜 nIn n).IsHermitian := by
  ext i j
  rw [conjTranspose_apply, ownD_mul_mul, ownD_mul_mul]
  by_cases hin : i.1 < nIn ∧ j.1 < nIn
  · rw [if_pos hin, if_pos hin.symm]; exact hA.apply i j
  · rw [if_neg hin, if_neg (fun h => hin h.symm), star_zero]

/-- The computed eigenvectors, as they leave LAPACK. -/
theorem GeneoInput.solved {lower : Bool} {A B : Matrix (Fin n) (Fin n) 𝕜} {Ai Bi : Mat 𝕜} (h : GeneoInput nIn n lower A B Ai Bi) (hA : A.IsHermitian)
    (hB : B.PosDef) (sym : HSym) (nu : ℕ) (thr : ℝ) {o : GvOut 𝕜}
    (ho : GvSolves n lower (GBuilder.create nIn n Ai Bi sym lower nu thr).DAD (GBuilder.create nIn n Ai Bi sym lower nu thr).Bi o) :
    (ownD 𝕜 nIn n * A * ownD 𝕜 nIn n) * fullRead n o.X = B * fullRead n o.X * Matrix.diagonal (fun e : Fin n => (o.w e : 𝕜)) ∧
    (fullRead n o.X)ᴴ * B * fullRead n o.X = 1 := by
  obtain ⟨r1, r2⟩ := h.read hA hB.isHermitian sym nu thr
  unfold GvSolves at ho
  rw [r1, r2] at ho
  obtain ⟨s1, s2, -⟩ := ho (isHermitian_ownD hA) hB
  exact ⟨s1, s2⟩

theorem pencil_pair {A B X : Matrix (Fin n) (Fin n) 𝕜} {w : Fin n → 𝕜} (h1 : A * X = B * X * Matrix.diagonal w) (e : Fin n) :
    A *ᵥ X.col e = w e • (B *ᵥ X.col e) := by
  ext i
  have := congrFun (congrFun h1 i) e
  rw [mul_diagonal] at this
  rw [Pi.smul_apply, smul_eq_mul, mul_comm]
  exact this

theorem pencil_ne {B X : Matrix (Fin n) (Fin n) 𝕜} (h2 : Xᴴ * B * X = 1) (e : Fin n) : X.col e ≠ 0 := by
  intro h0
  have := congrFun (congrFun h2 e) e
  rw [Matrix.mul_apply] at this
  rw [Finset.sum_eq_zero, one_apply_eq] at this
  · exact zero_ne_one this
  · intro k _
    have : X k e = 0 := congrFun h0 k
    rw [this, mul_zero]

/-- **C70.** Symmetric branch with a positive threshold, `A` Hermitian (symmetric for real coefficients) and `B` positive definite. If some eigenvalue is not above
the threshold, the coarse space is built without a read out of bounds: its columns span the image by the partition of unity `D` of all the eigenvectors of
`D A D v = l B v` with `|l|` above the threshold, and there are as many columns as the dimension of the space of these eigenvectors. -/
theorem C70_threshold_partial {lower : Bool} {A B : Matrix (Fin n) (Fin n) 𝕜} {Ai Bi : Mat 𝕜} (h : GeneoInput nIn n lower A B Ai Bi) (hA : A.IsHermitian)
    (hB : B.PosDef) {sym : HSym} (hsym : sym = .S ∨ sym = .H) {thr : ℝ} (ht : 0 < thr) {o : GvOut 𝕜} (oe : GgevOut 𝕜) (tiny : ℝ)
    (ho : let b : GBuilder 𝕜 ℝ := .withThreshold nIn n Ai Bi sym lower thr; GvSolves n lower b.DAD b.Bi o)
    {index : List ℕ} (hi : SortedIndex n (gvBefore fun e => |o.w e|) index)
    (hex : ∃ v l, v ≠ 0 ∧ IsPair (ownD 𝕜 nIn n) A B v l ∧ ‖l‖ ≤ thr) :
    ∃ k Z b', GBuilder.build tiny (.withThreshold nIn n Ai Bi sym lower thr) o oe index = some ((k, Z), b') ∧
      Submodule.span 𝕜 (Set.range fun (j : Fin k) (i : Fin n) => Z i j) =
        (Submodule.span 𝕜 {v | ∃ l, IsPair (ownD 𝕜 nIn n) A B v l ∧ thr < ‖l‖}).map (ownD 𝕜 nIn n).mulVecLin ∧
      k = Module.finrank 𝕜 (Submodule.span 𝕜 {v | ∃ l, IsPair (ownD 𝕜 nIn n) A B v l ∧ thr < ‖l‖}) := by
  obtain ⟨s1, s2⟩ := h.solved hA hB sym 0 thr ho
  set X := fullRead n o.X with hX
  have hno : ∀ e : ℕ, ‖((o.w e : ℝ) : 𝕜)‖ = |o.w e| := fun e => by rw [RCLike.norm_ofReal]
  -- one eigenvalue is not above the threshold
  have hex' : ∃ e < n, ¬ thr < |o.w e| := by
    obtain ⟨v, l, v0, hv, hl⟩ := hex
    obtain ⟨c, hc, h0⟩ := pencil_span s1 s2 hv
    have : ∃ e, c e ≠ 0 := by
      by_contra hn
      push Not at hn
      refine v0 ?_
      rw [hc, show c = 0 from funext hn, mulVec_zero]
    obtain ⟨e, he⟩ := this
    refine ⟨e, e.2, ?_⟩
    have : (o.w e : 𝕜) = l := by by_contra hne; exact he (h0 e hne)
    rw [← hno, this]
    exact not_lt.2 hl
  obtain ⟨⟨k, Z⟩, hZ, sel, hlen, hnd, hmem, hval, hzero⟩ :=
    C50_threshold_partial (nInside := nIn) (nu := 0) ht (fun i j => o.X.get i j) hi hex'
  obtain rfl : k = sel.length := hlen.symm
  have hsp : Submodule.span 𝕜 {v | ∃ l, IsPair (ownD 𝕜 nIn n) A B v l ∧ thr < ‖l‖} =
      Submodule.span 𝕜 (Set.range fun j : Fin sel.length => X.col ⟨sel[j], ((hmem _).1 (List.getElem_mem _)).1⟩) := by
    apply le_antisymm
    · rw [Submodule.span_le]
      rintro v ⟨l, hv, hl⟩
      obtain ⟨c, hc, h0⟩ := pencil_span s1 s2 hv
      have e1 : v = ∑ e, c e • X.col e := by
        rw [hc]; ext i
        simp only [mulVec, dotProduct, Finset.sum_apply, Pi.smul_apply, smul_eq_mul, col_apply]
        exact Finset.sum_congr rfl fun _ _ => mul_comm _ _
      rw [e1]
      refine Submodule.sum_mem _ fun e _ => ?_
      by_cases he : c e = 0
      · rw [he, zero_smul]; exact Submodule.zero_mem _
      · have hw : (o.w e : 𝕜) = l := by by_contra hne; exact he (h0 e hne)
        have : e.1 ∈ sel := (hmem e).2 ⟨e.2, by show thr < |o.w e|; rw [← hno, hw]; exact hl⟩
        obtain ⟨p, hp, hpe⟩ := List.getElem_of_mem this
        refine Submodule.smul_mem _ _ (Submodule.subset_span ⟨⟨p, hp⟩, ?_⟩)
        exact congrArg X.col (Fin.ext hpe)
    · rw [Submodule.span_le]
      rintro v ⟨j, rfl⟩
      have hm := (hmem _).1 (List.getElem_mem j.2)
      exact Submodule.subset_span ⟨(o.w sel[j] : 𝕜), pencil_pair s1 _, by rw [hno]; exact hm.2⟩
  have hli : LinearIndependent 𝕜 (fun j : Fin sel.length => X.col ⟨sel[j], ((hmem _).1 (List.getElem_mem _)).1⟩) := by
    have hu : IsUnit X := by
      have h3 : X * (Xᴴ * B) = 1 := mul_eq_one_comm.1 s2
      exact IsUnit.of_mul_eq_one _ h3
    have := (Matrix.linearIndependent_cols_iff_isUnit).2 hu
    refine this.comp (fun j : Fin sel.length => (⟨sel[j], ((hmem _).1 (List.getElem_mem _)).1⟩ : Fin n)) ?_
    intro p q hpq
    have := congrArg Fin.val hpq
    exact Fin.ext ((List.Nodup.getElem_inj_iff hnd).1 this)
  refine ⟨sel.length, Z, { GBuilder.withThreshold (F := ℝ) nIn n Ai Bi sym lower thr with DAD := o.X, Bi := o.L }, ?_, ?_, ?_⟩
  · unfold GBuilder.build
    rw [if_pos (show (GBuilder.withThreshold (F := ℝ) nIn n Ai Bi sym lower thr).sym = .S ∨ (GBuilder.withThreshold (F := ℝ) nIn n Ai Bi sym lower thr).sym = .H from hsym)]
    unfold GBuilder.gvSpace
    have : geneoZ (GBuilder.withThreshold (F := ℝ) nIn n Ai Bi sym lower thr).nIn
        (gvNevi (fun e => |o.w e|) (GBuilder.withThreshold (F := ℝ) nIn n Ai Bi sym lower thr).nu (GBuilder.withThreshold (F := ℝ) nIn n Ai Bi sym lower thr).thr index)
        (fun i j => o.X.get i j) index = some (sel.length, Z) := hZ
    rw [this]
    rfl
  · rw [hsp, Submodule.map_span, ← Set.range_comp]
    congr 1
    congr 1
    ext j i
    show Z i j = (ownD 𝕜 nIn n *ᵥ _) i
    rw [ownD_mulVec]
    by_cases hin : i.1 < nIn
    · rw [if_pos hin]; exact hval j j.2 i hin
    · rw [if_neg hin]; exact hzero i (not_lt.1 hin) j
  · rw [hsp, finrank_span_eq_card hli, Fintype.card_fin]

/-- **C70.** Symmetric branch with a number `nu` of vectors, at most the number of unknowns: the coarse space has `nu` columns, the images by `D` of eigenvectors which
are orthonormal for `B`, and every eigenvector for an eigenvalue larger in modulus than the one of a kept vector is a combination of the kept ones. -/
theorem C70_number_partial {lower : Bool} {A B : Matrix (Fin n) (Fin n) 𝕜} {Ai Bi : Mat 𝕜} (h : GeneoInput nIn n lower A B Ai Bi) (hA : A.IsHermitian)
    (hB : B.PosDef) {sym : HSym} (hsym : sym = .S ∨ sym = .H) {nu : ℕ} (hnu : nu ≤ n) {o : GvOut 𝕜} (oe : GgevOut 𝕜) (tiny : ℝ)
    (ho : let b : GBuilder 𝕜 ℝ := .withNu nIn n Ai Bi sym lower nu; GvSolves n lower b.DAD b.Bi o)
    {index : List ℕ} (hi : SortedIndex n (gvBefore fun e => |o.w e|) index) :
    ∃ Z b', GBuilder.build tiny (.withNu nIn n Ai Bi sym lower nu) o oe index = some ((nu, Z), b') ∧
      ∃ (x : Fin nu → Fin n → 𝕜) (l : Fin nu → ℝ), (∀ j, IsPair (ownD 𝕜 nIn n) A B (x j) (l j)) ∧
        (∀ i j, star (x i) ⬝ᵥ (B *ᵥ x j) = if i = j then 1 else 0) ∧ (∀ (j : Fin nu) (i : Fin n), Z i j = (ownD 𝕜 nIn n *ᵥ x j) i) ∧
        ∀ v m, IsPair (ownD 𝕜 nIn n) A B v m → (∃ j, |l j| < ‖m‖) → v ∈ Submodule.span 𝕜 (Set.range x) := by
  obtain ⟨s1, s2⟩ := h.solved hA hB sym nu (-1) ho
  set X := fullRead n o.X with hX
  have hno : ∀ e : ℕ, ‖((o.w e : ℝ) : 𝕜)‖ = |o.w e| := fun e => by rw [RCLike.norm_ofReal]
  obtain ⟨⟨k, Z⟩, hZ, hk, keep, ⟨sel, hlen, hnd, hmem, hval, hzero⟩, hkeep⟩ :=
    (C50_number (nInside := nIn) (thr := (-1 : ℝ)) (by norm_num) (fun i j => o.X.get i j) hi).1 hnu
  obtain rfl : k = nu := hk
  obtain rfl : k = sel.length := hlen.symm
  have hlt : ∀ j : Fin sel.length, sel[j] < n := fun j => ((hmem _).1 (List.getElem_mem j.2)).1
  refine ⟨Z, { GBuilder.withNu (F := ℝ) nIn n Ai Bi sym lower sel.length with DAD := o.X, Bi := o.L }, ?_, fun j => X.col ⟨sel[j], hlt j⟩, fun j => o.w sel[j],
    fun j => pencil_pair s1 _, ?_, ?_, ?_⟩
  · unfold GBuilder.build
    rw [if_pos (show (GBuilder.withNu (F := ℝ) nIn n Ai Bi sym lower sel.length).sym = .S ∨ (GBuilder.withNu (F := ℝ) nIn n Ai Bi sym lower sel.length).sym = .H
      from hsym)]
    unfold GBuilder.gvSpace
    have : geneoZ (GBuilder.withNu (F := ℝ) nIn n Ai Bi sym lower sel.length).nIn
        (gvNevi (fun e => |o.w e|) (GBuilder.withNu (F := ℝ) nIn n Ai Bi sym lower sel.length).nu
          (GBuilder.withNu (F := ℝ) nIn n Ai Bi sym lower sel.length).thr index)
        (fun i j => o.X.get i j) index = some (sel.length, Z) := hZ
    rw [this]
    rfl
  · intro i j
    have := congrFun (congrFun s2 ⟨sel[i], hlt i⟩) ⟨sel[j], hlt j⟩
    rw [Matrix.mul_assoc, Matrix.one_apply] at this
    refine Eq.trans ?_ (this.trans (if_congr ?_ rfl rfl))
    · rfl
    · rw [Fin.mk.injEq]
      constructor
      · intro e; exact Fin.ext ((List.Nodup.getElem_inj_iff hnd).1 e)
      · intro e; rw [e]
  · intro j i
    rw [ownD_mulVec]
    by_cases hin : i.1 < nIn
    · rw [if_pos hin]; exact hval j j.2 i hin
    · rw [if_neg hin]; exact hzero i (not_lt.1 hin) j
  · rintro v m hv ⟨j, hj⟩
    obtain ⟨c, hc, h0⟩ := pencil_span s1 s2 hv
    have e1 : v = ∑ e, c e • X.col e := by
      rw [hc]; ext i
      simp only [mulVec, dotProduct, Finset.sum_apply, Pi.smul_apply, smul_eq_mul, col_apply]
      exact Finset.sum_congr rfl fun _ _ => mul_comm _ _
    rw [e1]
    refine Submodule.sum_mem _ fun e _ => ?_
    by_cases he : c e = 0
    · rw [he, zero_smul]; exact Submodule.zero_mem _
    · have hw : (o.w e : 𝕜) = m := by by_contra hne; exact he (h0 e hne)
      have hke : keep e := by
        by_contra hn
        have := hkeep _ (hlt j) e e.2 ((hmem _).1 (List.getElem_mem j.2)).2 hn
        rw [← hw, hno] at hj
        exact absurd hj (not_lt.2 this)
      obtain ⟨p, hp, hpe⟩ := List.getElem_of_mem ((hmem e).2 ⟨e.2, hke⟩)
      exact Submodule.smul_mem _ _ (Submodule.subset_span ⟨⟨p, hp⟩, congrArg X.col (Fin.ext hpe)⟩)

/-- A matrix in the container. -/
def toMat {n : ℕ} (M : Matrix (Fin n) (Fin n) 𝕜) : Mat 𝕜 :=
  ⟨n, n, fun p => if h : p % n < n ∧ p / n < n then M ⟨p % n, h.1⟩ ⟨p / n, h.2⟩ else 0⟩

theorem toMat_get {n : ℕ} (M : Matrix (Fin n) (Fin n) 𝕜) (i j : Fin n) : (toMat M).get i j = M i j := by
  have hn : 0 < n := i.pos
  have h1 : (i.1 + j.1 * n) % n = i := by rw [Nat.add_mul_mod_self_right, Nat.mod_eq_of_lt i.2]
  have h2 : (i.1 + j.1 * n) / n = j := by rw [Nat.add_mul_div_right _ _ hn, Nat.div_eq_of_lt i.2, Nat.zero_add]
  unfold Mat.get toMat
  simp only [h1, h2]
  rw [dif_pos ⟨i.2, j.2⟩]

/-- LAPACK's contract can be met for every input. -/
theorem gv_exists (n : ℕ) (lower : Bool) (A B : Mat 𝕜) : ∃ o, GvSolves n lower A B o := by
  by_cases hh : (hermRead n lower A).IsHermitian ∧ (hermRead n lower B).PosDef
  · obtain ⟨X, w, h1, h2⟩ := pencil_exists hh.1 hh.2
    obtain ⟨T, t1, -, t2⟩ := posDef_chol hh.2
    have hX : fullRead n (toMat X) = X := by ext i j; exact toMat_get X i j
    refine ⟨⟨toMat X, toMat (if lower then T else Tᴴ), fun e => if h : e < n then w ⟨e, h⟩ else 0⟩, fun _ _ => ?_⟩
    dsimp only
    rw [hX]
    refine ⟨?_, h2, if lower then T else Tᴴ, ?_, ?_, fun i j _ => toMat_get _ i j⟩
    · rw [h1]; congr 2; ext e; simp
    · intro i j hs
      unfold Stored at hs
      cases lower
      · simp only [Bool.false_eq_true, if_false, not_le] at hs
        simp only [Bool.false_eq_true, if_false, conjTranspose_apply]
        rw [t1 j i hs, star_zero]
      · simp only [if_true, not_le] at hs
        simp only [if_true]
        exact t1 i j hs
    · cases lower
      · simp only [Bool.false_eq_true, if_false, conjTranspose_conjTranspose]; exact t2
      · simp only [if_true]; exact t2
  · exact ⟨⟨A, B, fun _ => 0⟩, fun h1 h2 => absurd ⟨h1, h2⟩ hh⟩

end gv

/-! ## What fails in the symmetric branch -/

/-- The full claim for the flag 'S' with complex coefficients: for symmetric `A`, every column of the coarse space comes from an eigenvector of the problem. -/
def C70_symmetric_statement : Prop :=
  ∀ (n nIn : ℕ) (lower : Bool) (A B : Matrix (Fin n) (Fin n) ℂ) (Ai Bi : Mat ℂ) (nu : ℕ) (o : GvOut ℂ) (oe : GgevOut ℂ) (tiny : ℝ) (index : List ℕ),
    GeneoInput nIn n lower A B Ai Bi → A.IsSymm → B.PosDef → nu ≤ n →
    (let b : GBuilder ℂ ℝ := .withNu nIn n Ai Bi .S lower nu; GvSolves n lower b.DAD b.Bi o) → SortedIndex n (gvBefore fun e => |o.w e|) index →
    ∀ k Z b', GBuilder.build tiny (.withNu nIn n Ai Bi .S lower nu) o oe index = some ((k, Z), b') →
      ∀ j : Fin k, ∃ v l, v ≠ 0 ∧ IsPair (ownD ℂ nIn n) A B v l ∧ ∀ i : Fin n, Z i j = (ownD ℂ nIn n *ᵥ v) i

section witnessS
open Complex

/-- The complex symmetric matrix of the counterexample. -/
def exSymA : Matrix (Fin 2) (Fin 2) ℂ := !![0, I; I, 0]

/-- The right-hand side of the counterexample. -/
def exSymB : Matrix (Fin 2) (Fin 2) ℂ := !![2, 0; 0, 2]

/-- Eigenvectors of the Hermitian matrix which has the same lower triangle. -/
noncomputable def exSymX : Matrix (Fin 2) (Fin 2) ℂ := !![-I / 2, I / 2; 1 / 2, 1 / 2]

theorem ownD_self {𝕜 : Type*} [RCLike 𝕜] (n : ℕ) : ownD 𝕜 n n = 1 := by
  unfold ownD
  rw [← diagonal_one]
  congr 1
  ext i
  rw [if_pos i.2]

theorem exSymB_posDef : exSymB.PosDef := by
  have : exSymB = Matrix.diagonal fun _ => (2 : ℂ) := by
    ext i j; fin_cases i <;> fin_cases j <;> simp [exSymB]
  rw [this]
  exact Matrix.posDef_diagonal_iff.2 fun _ => by norm_num

theorem create_toMat {𝕜 : Type*} [RCLike 𝕜] {n : ℕ} (A B : Matrix (Fin n) (Fin n) 𝕜) (sym : HSym) (lower : Bool) (nu : ℕ) (thr : ℝ) (i j : Fin n) :
    (GBuilder.create n n (toMat A) (toMat B) sym lower nu thr).DAD.get i j = A i j := by
  rw [C70_matrix (nIn := n) (n := n) le_rfl (toMat A) _ _ _ _ _ (Or.inl ⟨rfl, rfl⟩) i.2 j.2, if_pos ⟨i.2, j.2⟩, toMat_get]

/-- **C70 (negation).** With complex coefficients and the flag 'S', the code calls the routine for Hermitian matrices (`hegv`), which reads one triangle and assumes
that the other one is its conjugate. For a complex symmetric matrix the columns of the coarse space are not images of eigenvectors. -/
theorem C70_symmetric_statement_false : ¬ C70_symmetric_statement := by
  intro hst
  set o : GvOut ℂ := ⟨toMat exSymX, toMat (Matrix.diagonal fun _ => ((√2 : ℝ) : ℂ)), fun e => if e = 0 then 1 / 2 else -(1 / 2)⟩ with ho
  have hX : fullRead 2 o.X = exSymX := by ext i j; exact toMat_get exSymX i j
  have hA' : ∀ nu thr, hermRead 2 true (GBuilder.create 2 2 (toMat exSymA) (toMat exSymB) .S true nu (thr : ℝ)).DAD = !![0, -I; I, 0] := by
    intro nu thr
    ext i j
    simp only [hermRead, of_apply, create_toMat]
    fin_cases i <;> fin_cases j <;> simp [Stored, exSymA]
  have hB' : hermRead 2 true (toMat exSymB) = exSymB := by
    ext i j
    simp only [hermRead, of_apply, toMat_get]
    fin_cases i <;> fin_cases j <;> simp [Stored, exSymB]
  have sol : GvSolves 2 true (GBuilder.create 2 2 (toMat exSymA) (toMat exSymB) .S true 1 (-1 : ℝ)).DAD (toMat exSymB) o := by
    intro _ _
    rw [hA', hB', hX]
    refine ⟨?_, ?_, Matrix.diagonal fun _ => ((√2 : ℝ) : ℂ), ?_, ?_, fun i j _ => toMat_get _ i j⟩
    · ext i j
      fin_cases i <;> fin_cases j <;> simp [Matrix.mul_apply, Fin.sum_univ_two, exSymB, exSymX, ho] <;> ring_nf <;> simp [I_sq] <;> ring
    · have c2 : (starRingEnd ℂ) 2 = 2 := map_ofNat _ 2
      ext i j
      fin_cases i <;> fin_cases j <;> simp [Matrix.mul_apply, Fin.sum_univ_two, exSymB, exSymX, c2] <;> ring_nf <;> simp [I_sq] <;> ring
    · intro i j hs
      rw [diagonal_apply_ne]
      rintro rfl
      exact hs (by simp [Stored])
    · have : ((√2 : ℝ) : ℂ) * ((√2 : ℝ) : ℂ) = 2 := by
        rw [← ofReal_mul, Real.mul_self_sqrt (by norm_num)]; norm_num
      ext i j
      fin_cases i <;> fin_cases j <;> simp [Matrix.mul_apply, Fin.sum_univ_two, exSymB, this]
  have inp : GeneoInput 2 2 true exSymA exSymB (toMat exSymA) (toMat exSymB) :=
    ⟨le_rfl, Or.inl ⟨rfl, rfl⟩, fun i j _ _ _ => toMat_get _ i j, fun i j _ => toMat_get _ i j⟩
  have srt : SortedIndex 2 (gvBefore fun e => |o.w e|) [0, 1] := by
    refine ⟨by decide, ?_⟩
    simp [gvBefore, ho]
  have bld : ∃ Z b', GBuilder.build 0 (.withNu 2 2 (toMat exSymA) (toMat exSymB) .S true 1) o ⟨toMat exSymA, toMat exSymA, 0, 0, 0, 0⟩ [0, 1] =
      some ((1, Z), b') ∧ Z 0 0 = -I / 2 ∧ Z 1 0 = 1 / 2 := by
    refine ⟨fun i j => if i < 2 ∧ j < 1 then o.X.get i ([0, 1].getD j 0) else 0,
      { GBuilder.withNu (F := ℝ) 2 2 (toMat exSymA) (toMat exSymB) .S true 1 with DAD := o.X, Bi := o.L }, ?_, ?_, ?_⟩
    · simp [GBuilder.build, GBuilder.withNu, GBuilder.create, GBuilder.gvSpace, geneoZ, gvNevi]
      norm_num
    · show o.X.get (0 : Fin 2) (0 : Fin 2) = _
      rw [toMat_get]; rfl
    · show o.X.get (1 : Fin 2) (0 : Fin 2) = _
      rw [toMat_get]; rfl
  obtain ⟨Z, b', hb, z0, z1⟩ := bld
  obtain ⟨v, l, -, hp, hv⟩ := hst 2 2 true exSymA exSymB _ _ 1 o _ 0 [0, 1] inp (by
    unfold Matrix.IsSymm; ext i j; fin_cases i <;> fin_cases j <;> simp [exSymA]) exSymB_posDef (by omega) sol srt 1 Z b' hb 0
  rw [ownD_self] at hv
  unfold IsPair at hp
  rw [ownD_self, Matrix.one_mul, Matrix.mul_one] at hp
  have v0 : v 0 = -I / 2 := by have := hv 0; rw [Matrix.one_mulVec] at this; rw [← this]; exact z0
  have v1 : v 1 = 1 / 2 := by have := hv 1; rw [Matrix.one_mulVec] at this; rw [← this]; exact z1
  have p0 := congrFun hp 0
  have p1 := congrFun hp 1
  simp [Matrix.mulVec, dotProduct, Fin.sum_univ_two, exSymA, exSymB, v0, v1] at p0 p1
  have hl : l = 1 / 2 := by
    rw [← p1]; ring_nf; rw [I_sq]; ring
  rw [hl] at p0
  have := congrArg Complex.im p0
  simp at this
  norm_num at this

end witnessS

/-- The full claim for repeated calls: a second call of `build_coarse_space` on the same builder gives a coarse space of the same dimension. -/
def C70_repeated_statement : Prop :=
  ∀ (n nIn : ℕ) (lower : Bool) (A B : Matrix (Fin n) (Fin n) ℝ) (Ai Bi : Mat ℝ) (thr : ℝ) (o o' : GvOut ℝ) (oe : GgevOut ℝ) (tiny : ℝ) (index index' : List ℕ),
    GeneoInput nIn n lower A B Ai Bi → A.IsHermitian → B.PosDef → 0 < thr →
    (let b : GBuilder ℝ ℝ := .withThreshold nIn n Ai Bi .S lower thr; GvSolves n lower b.DAD b.Bi o) → SortedIndex n (gvBefore fun e => |o.w e|) index →
    ∀ Z b', GBuilder.build tiny (.withThreshold nIn n Ai Bi .S lower thr) o oe index = some (Z, b') →
      GvSolves n lower b'.DAD b'.Bi o' → SortedIndex n (gvBefore fun e => |o'.w e|) index' →
      ∀ Z' b'', GBuilder.build tiny b' o' oe index' = some (Z', b'') → Z'.1 = Z.1

section witnessR

theorem hermRead_toMat_diag (d : Fin 2 → ℝ) : hermRead 2 true (toMat (Matrix.diagonal d)) = Matrix.diagonal d := by
  ext i j
  simp only [hermRead, of_apply, toMat_get]
  fin_cases i <;> fin_cases j <;> simp [Stored]

/-- **C70 (negation).** `build_coarse_space` overwrites the matrices of the builder (LAPACK works in place): here the first call keeps one vector and the second one
none, both with exact eigenvectors. -/
theorem C70_repeated_statement_false : ¬ C70_repeated_statement := by
  intro hst
  set A : Matrix (Fin 2) (Fin 2) ℝ := Matrix.diagonal ![0, 16] with hA
  set B : Matrix (Fin 2) (Fin 2) ℝ := Matrix.diagonal ![16, 16] with hB
  set o : GvOut ℝ := ⟨toMat (Matrix.diagonal ![1 / 4, 1 / 4]), toMat (Matrix.diagonal ![4, 4]), fun e => if e = 0 then 0 else 1⟩ with ho
  set o' : GvOut ℝ := ⟨toMat (Matrix.diagonal ![1 / 2, 1 / 2]), toMat (Matrix.diagonal ![2, 2]), fun _ => 1 / 16⟩ with ho'
  have full : ∀ d : Fin 2 → ℝ, fullRead 2 (toMat (Matrix.diagonal d)) = Matrix.diagonal d := fun d => by ext i j; exact toMat_get _ i j
  have hA' : ∀ nu thr, hermRead 2 true (GBuilder.create 2 2 (toMat A) (toMat B) .S true nu (thr : ℝ)).DAD = A := by
    intro nu thr
    ext i j
    simp only [hermRead, of_apply, create_toMat]
    fin_cases i <;> fin_cases j <;> simp [Stored, hA]
  have low : ∀ (d : Fin 2 → ℝ) (i j : Fin 2), ¬ Stored true i j → Matrix.diagonal d i j = 0 := by
    intro d i j hs
    rw [diagonal_apply_ne]
    rintro rfl
    exact hs (by simp [Stored])
  have sol : GvSolves 2 true (GBuilder.create 2 2 (toMat A) (toMat B) .S true 0 (1 / 2 : ℝ)).DAD (toMat B) o := by
    intro _ _
    rw [hA', hB, hermRead_toMat_diag, ho]
    dsimp only
    rw [full]
    refine ⟨?_, ?_, Matrix.diagonal ![4, 4], low _, ?_, fun i j _ => toMat_get _ i j⟩
    · ext i j; fin_cases i <;> fin_cases j <;> simp [hA, Matrix.mul_apply, Fin.sum_univ_two]
      all_goals norm_num
    · ext i j; fin_cases i <;> fin_cases j <;> simp [Matrix.mul_apply, Fin.sum_univ_two]
      all_goals norm_num
    · ext i j; fin_cases i <;> fin_cases j <;> simp [Matrix.mul_apply, Fin.sum_univ_two]
      all_goals norm_num
  have sol' : GvSolves 2 true o.X o.L o' := by
    intro _ _
    rw [ho, ho']
    dsimp only
    rw [hermRead_toMat_diag, hermRead_toMat_diag, full]
    refine ⟨?_, ?_, Matrix.diagonal ![2, 2], low _, ?_, fun i j _ => toMat_get _ i j⟩
    · ext i j; fin_cases i <;> fin_cases j <;> simp [Matrix.mul_apply, Fin.sum_univ_two]
      all_goals norm_num
    · ext i j; fin_cases i <;> fin_cases j <;> simp [Matrix.mul_apply, Fin.sum_univ_two]
      all_goals norm_num
    · ext i j; fin_cases i <;> fin_cases j <;> simp [Matrix.mul_apply, Fin.sum_univ_two]
      all_goals norm_num
  have inp : GeneoInput 2 2 true A B (toMat A) (toMat B) :=
    ⟨le_rfl, Or.inl ⟨rfl, rfl⟩, fun i j _ _ _ => toMat_get _ i j, fun i j _ => toMat_get _ i j⟩
  have pd : B.PosDef := Matrix.posDef_diagonal_iff.2 fun i => by fin_cases i <;> norm_num
  have hh : A.IsHermitian := by unfold Matrix.IsHermitian; rw [hA, diagonal_conjTranspose]; simp
  have srt : SortedIndex 2 (gvBefore fun e => |o.w e|) [1, 0] := by
    refine ⟨by decide, ?_⟩
    simp [gvBefore, ho]
  have srt' : SortedIndex 2 (gvBefore fun e => |o'.w e|) [0, 1] := by
    refine ⟨by decide, ?_⟩
    simp [gvBefore, ho']
  set oe : GgevOut ℝ := ⟨toMat A, toMat A, 0, 0, 0, 0⟩
  have r1 : GBuilder.build 0 (.withThreshold 2 2 (toMat A) (toMat B) .S true (1 / 2)) o oe [1, 0] =
      some ((1, fun i j => if i < 2 ∧ j < 1 then o.X.get i ([1, 0].getD j 0) else 0),
        { GBuilder.withThreshold (F := ℝ) 2 2 (toMat A) (toMat B) .S true (1 / 2) with DAD := o.X, Bi := o.L }) := by
    have : gvNevi (fun e => |o.w e|) 0 (1 / 2 : ℝ) [1, 0] = some 1 := by
      simp only [gvNevi, gvLoop, ho]
      norm_num
      rw [show (2 : ℕ) = 1 + 1 from rfl, gvLoop]
      norm_num
    simp [GBuilder.build, GBuilder.withThreshold, GBuilder.create, GBuilder.gvSpace, geneoZ]
    simp at this
    rw [this]
    simp
  have r2 : ∃ Z' b'', GBuilder.build 0 { GBuilder.withThreshold (F := ℝ) 2 2 (toMat A) (toMat B) .S true (1 / 2) with DAD := o.X, Bi := o.L } o' oe [0, 1] =
      some ((0, Z'), b'') := by
    have : gvNevi (fun e => |o'.w e|) 0 (1 / 2 : ℝ) [0, 1] = some 0 := by
      simp only [gvNevi, gvLoop, ho']
      norm_num
    simp [GBuilder.build, GBuilder.withThreshold, GBuilder.create, GBuilder.gvSpace, geneoZ]
    simp at this
    rw [this]
    simp
  obtain ⟨Z', b'', r2⟩ := r2
  have := hst 2 2 true A B _ _ (1 / 2) o o' oe 0 [1, 0] [0, 1] inp hh pd (by norm_num) sol srt _ _ r1 sol' srt' _ _ r2
  exact absurd this (by simp)

end witnessR

/-! ## General branch -/

section ggev
variable {𝕜 : Type*} [RCLike 𝕜] {n nIn : ℕ}

/-- Column `e` of `vr`. -/
def ggevCol (n : ℕ) (o : GgevOut 𝕜) (e : ℕ) : Fin n → 𝕜 := fun i => o.vr (e * n + i)

/-- What LAPACK documents for `ggev` on eigenvalues without imaginary part (all of them for complex coefficients, where `alphai` is not used). -/
def GgevSolves (n : ℕ) (A B : Mat 𝕜) (o : GgevOut 𝕜) : Prop :=
  ∀ e : Fin n, o.alphai e = 0 → ggevCol n o e ≠ 0 ∧ o.beta e • (fullRead n A *ᵥ ggevCol n o e) = o.alphar e • (fullRead n B *ᵥ ggevCol n o e)

/-- **C70.** General branch with a positive threshold, when the computed eigenvalues have no imaginary part and one of them is not above the threshold: every column
of the coarse space is the image by `D` of an eigenvector, `beta D A D v = alpha B v`, with `|beta|` tiny or `|alpha / beta|` above the threshold, and every computed
eigenvector of this kind gives one column. -/
theorem C70_general_partial {A B : Matrix (Fin n) (Fin n) 𝕜} {Ai Bi : Mat 𝕜} (hle : nIn ≤ n) (hs : (Ai.nr = n ∧ Ai.nc = n) ∨ (Ai.nr = nIn ∧ Ai.nc = nIn))
    (ha : ∀ i j : Fin n, i.1 < nIn → j.1 < nIn → Ai.get i j = A i j) (hb : ∀ i j : Fin n, Bi.get i j = B i j)
    {sym : HSym} (hsym : ¬ (sym = .S ∨ sym = .H)) {lower : Bool} {thr : ℝ} (ht : 0 < thr) {o : GgevOut 𝕜} (ov : GvOut 𝕜) (tiny : ℝ)
    (ho : let b : GBuilder 𝕜 ℝ := .withThreshold nIn n Ai Bi sym lower thr; GgevSolves n b.DAD b.Bi o) (hre : ∀ e : Fin n, o.alphai e = 0)
    {index : List ℕ} (hi : SortedIndex n (ggevBefore tiny (fun e => ‖o.alphar e‖) fun e => ‖o.beta e‖) index)
    (hex : ∃ e < n, ¬ ‖o.beta e‖ < tiny ∧ ¬ thr < ‖o.alphar e‖ / ‖o.beta e‖) :
    ∃ (k : ℕ) (Z : ℕ → ℕ → 𝕜) (b' : GBuilder 𝕜 ℝ) (sel : List (Fin n)), GBuilder.build tiny (.withThreshold nIn n Ai Bi sym lower thr) ov o index = some ((k, Z), b') ∧
      sel.length = k ∧ sel.Nodup ∧ (∀ e : Fin n, e ∈ sel ↔ ‖o.beta e‖ < tiny ∨ thr < ‖o.alphar e‖ / ‖o.beta e‖) ∧
      ∀ (j : ℕ) (hj : j < sel.length), ∃ v, v ≠ 0 ∧ (o.beta sel[j]) • ((ownD 𝕜 nIn n * A * ownD 𝕜 nIn n) *ᵥ v) = (o.alphar sel[j]) • (B *ᵥ v) ∧
        ∀ i : Fin n, Z i j = (ownD 𝕜 nIn n *ᵥ v) i := by
  have rA : fullRead n (GBuilder.withThreshold (F := ℝ) nIn n Ai Bi sym lower thr).DAD = ownD 𝕜 nIn n * A * ownD 𝕜 nIn n := by
    ext i j
    rw [ownD_mul_mul]
    show (GBuilder.create nIn n Ai Bi sym lower 0 thr).DAD.get i j = _
    rw [C70_matrix hle _ _ _ _ _ _ hs i.2 j.2]
    by_cases hin : i.1 < nIn ∧ j.1 < nIn
    · rw [if_pos hin, if_pos hin, ha i j hin.1 hin.2]
    · rw [if_neg hin, if_neg hin]
  have rB : fullRead n (GBuilder.withThreshold (F := ℝ) nIn n Ai Bi sym lower thr).Bi = B := by
    ext i j; exact hb i j
  obtain ⟨⟨k, Z⟩, hZ, sel, hlen, hnd, hmem, hval, hzero⟩ :=
    C50_threshold_general_partial (nInside := nIn) (nu := 0) ht (fun i j => o.vr (j * n + i)) hi hex
  obtain rfl : k = sel.length := hlen.symm
  refine ⟨sel.length, Z, { GBuilder.withThreshold (F := ℝ) nIn n Ai Bi sym lower thr with DAD := o.a, Bi := o.b },
    sel.attach.map fun e => (⟨e.1, ((hmem e.1).1 e.2).1⟩ : Fin n), ?_, by simp, ?_, ?_, ?_⟩
  · unfold GBuilder.build
    rw [if_neg (show ¬ ((GBuilder.withThreshold (F := ℝ) nIn n Ai Bi sym lower thr).sym = .S ∨ (GBuilder.withThreshold (F := ℝ) nIn n Ai Bi sym lower thr).sym = .H)
      from hsym)]
    unfold GBuilder.ggevSpace
    have : geneoZ (GBuilder.withThreshold (F := ℝ) nIn n Ai Bi sym lower thr).nIn
        (ggevNevi tiny (fun e => ‖o.alphar e‖) (fun e => ‖o.beta e‖) (GBuilder.withThreshold (F := ℝ) nIn n Ai Bi sym lower thr).nu
          (GBuilder.withThreshold (F := ℝ) nIn n Ai Bi sym lower thr).thr index)
        (fun i j => o.vr (j * (GBuilder.withThreshold (F := ℝ) nIn n Ai Bi sym lower thr).n + i)) index = some (sel.length, Z) := hZ
    rw [this]
    rfl
  · refine (List.nodup_attach.2 hnd).map_on ?_
    intro a _ b _ hab
    exact Subtype.ext (congrArg Fin.val hab)
  · intro e
    rw [List.mem_map]
    constructor
    · rintro ⟨a, -, rfl⟩
      exact ((hmem a.1).1 a.2).2
    · intro he
      exact ⟨⟨e.1, (hmem e.1).2 ⟨e.2, he⟩⟩, List.mem_attach _ _, rfl⟩
  · intro j hj
    have hj' : j < sel.length := by simpa using hj
    have hm := (hmem _).1 (List.getElem_mem hj')
    have hc := ho ⟨sel[j], hm.1⟩ (hre _)
    rw [rA, rB] at hc
    refine ⟨ggevCol n o sel[j], hc.1, ?_, ?_⟩
    · simp only [List.getElem_map, List.getElem_attach]
      exact hc.2
    · intro i
      rw [ownD_mulVec]
      by_cases hin : i.1 < nIn
      · rw [if_pos hin]; exact hval j hj' i hin
      · rw [if_neg hin]; exact hzero i (not_lt.1 hin) j

end ggev

section witnessG
open Complex

/-- The complex eigenvector which LAPACK stores in one or two real columns of `vr`. -/
noncomputable def ggevComplex (n : ℕ) (o : GgevOut ℝ) (e : ℕ) : Fin n → ℂ := fun i =>
  if o.alphai e = 0 then (o.vr (e * n + i) : ℂ)
  else if 0 < o.alphai e then o.vr (e * n + i) + I * o.vr ((e + 1) * n + i)
  else o.vr ((e - 1) * n + i) - I * o.vr (e * n + i)

/-- What LAPACK documents for `ggev` with real coefficients. -/
def GgevSolvesReal (n : ℕ) (A B : Mat ℝ) (o : GgevOut ℝ) : Prop :=
  ∀ e : Fin n, ggevComplex n o e ≠ 0 ∧ ((o.beta e : ℝ) : ℂ) • ((fullRead n A).map ofReal *ᵥ ggevComplex n o e) =
      ((o.alphar e : ℂ) + I * o.alphai e) • ((fullRead n B).map ofReal *ᵥ ggevComplex n o e) ∧
    (0 < o.alphai e → e.1 + 1 < n ∧ o.alphai (e + 1) < 0) ∧ (o.alphai e < 0 → 1 ≤ e.1 ∧ 0 < o.alphai (e - 1))

/-- The full claim for the general branch with real coefficients: if an eigenvalue (complex in general) of the problem is above the threshold in modulus, then the
coarse space is not empty. -/
def C70_general_statement : Prop :=
  ∀ (n : ℕ) (A B : Matrix (Fin n) (Fin n) ℝ) (thr tiny : ℝ) (o : GgevOut ℝ) (ov : GvOut ℝ) (index : List ℕ), 0 < thr → 0 < tiny →
    (let b : GBuilder ℝ ℝ := .withThreshold n n (toMat A) (toMat B) .N true thr; GgevSolvesReal n b.DAD b.Bi o) →
    SortedIndex n (ggevBefore tiny (fun e => ‖o.alphar e‖) fun e => ‖o.beta e‖) index →
    (∃ (z : Fin n → ℂ) (l : ℂ), z ≠ 0 ∧ A.map ofReal *ᵥ z = l • (B.map ofReal *ᵥ z) ∧ thr < ‖l‖) →
    ∀ Z b', GBuilder.build tiny (.withThreshold n n (toMat A) (toMat B) .N true thr) ov o index = some (Z, b') → Z.1 ≠ 0

/-- **C70 (negation).** The imaginary parts `alphai` of the eigenvalues are ignored. For a rotation, whose eigenvalues have modulus one and real part zero, the
coarse space with threshold 1/2 is empty. -/
theorem C70_general_statement_false : ¬ C70_general_statement := by
  intro hst
  set A : Matrix (Fin 2) (Fin 2) ℝ := !![0, -1; 1, 0] with hA
  set X : Matrix (Fin 2) (Fin 2) ℝ := !![1, 0; 0, -1] with hX
  set o : GgevOut ℝ := ⟨toMat A, toMat A, fun _ => 0, fun e => if e = 0 then 1 else -1, fun _ => 1, (toMat X).data⟩ with ho
  have vrX : ∀ i j : Fin 2, o.vr (j.1 * 2 + i.1) = X i j := by
    intro i j
    have := toMat_get X i j
    unfold Mat.get at this
    rw [Nat.add_comm]; exact this
  have hA' : fullRead 2 (GBuilder.withThreshold (F := ℝ) 2 2 (toMat A) (toMat (1 : Matrix (Fin 2) (Fin 2) ℝ)) .N true (1 / 2)).DAD = A := by
    ext i j; exact create_toMat A 1 .N true 0 (1 / 2) i j
  have hB' : fullRead 2 (GBuilder.withThreshold (F := ℝ) 2 2 (toMat A) (toMat (1 : Matrix (Fin 2) (Fin 2) ℝ)) .N true (1 / 2)).Bi = 1 := by
    ext i j; exact toMat_get _ i j
  have z0 : ggevComplex 2 o 0 = ![1, -I] := by
    ext i
    have h1 := vrX i 0
    have h2 := vrX i 1
    simp only [Fin.val_zero, Fin.val_one] at h1 h2
    unfold ggevComplex
    rw [if_neg (by simp [ho]), if_pos (by simp [ho]), h1, h2]
    fin_cases i <;> simp [hX]
  have z1 : ggevComplex 2 o 1 = ![1, I] := by
    ext i
    have h1 := vrX i 0
    have h2 := vrX i 1
    simp only [Fin.val_zero, Fin.val_one] at h1 h2
    unfold ggevComplex
    rw [if_neg (by simp [ho]), if_neg (by simp [ho]), h1, h2]
    fin_cases i <;> simp [hX]
  have sol : GgevSolvesReal 2 (GBuilder.withThreshold (F := ℝ) 2 2 (toMat A) (toMat (1 : Matrix (Fin 2) (Fin 2) ℝ)) .N true (1 / 2)).DAD
      (GBuilder.withThreshold (F := ℝ) 2 2 (toMat A) (toMat (1 : Matrix (Fin 2) (Fin 2) ℝ)) .N true (1 / 2)).Bi o := by
    intro e
    rw [hA', hB']
    fin_cases e
    · simp only [Fin.zero_eta, Fin.val_zero]
      rw [z0]
      refine ⟨fun h => one_ne_zero (congrFun h 0), ?_, by simp [ho], by simp [ho]⟩
      ext i
      fin_cases i <;> simp [hA, ho, mulVec, dotProduct, Fin.sum_univ_two]
    · simp only [Fin.mk_one, Fin.val_one]
      rw [z1]
      refine ⟨fun h => one_ne_zero (congrFun h 0), ?_, by simp [ho], by simp [ho]⟩
      ext i
      fin_cases i <;> simp [hA, ho, mulVec, dotProduct, Fin.sum_univ_two]
  have srt : SortedIndex 2 (ggevBefore (1 / 2) (fun e => ‖o.alphar e‖) fun e => ‖o.beta e‖) [0, 1] := by
    refine ⟨by decide, ?_⟩
    simp [ggevBefore, ho]
  have bld : ∃ Z b', GBuilder.build (1 / 2) (.withThreshold 2 2 (toMat A) (toMat (1 : Matrix (Fin 2) (Fin 2) ℝ)) .N true (1 / 2)) ⟨toMat A, toMat A, fun _ => 0⟩ o [0, 1] = some ((0, Z), b') := by
    have : ggevNevi (1 / 2) (fun e => ‖o.alphar e‖) (fun e => ‖o.beta e‖) 0 (1 / 2 : ℝ) [0, 1] = some 0 := by
      simp only [ggevNevi, ggevLoop, ho]
      norm_num
    simp [GBuilder.build, GBuilder.withThreshold, GBuilder.create, GBuilder.ggevSpace, geneoZ]
    simp at this
    rw [this]
    simp
  obtain ⟨Z, b', hb⟩ := bld
  refine hst 2 A 1 (1 / 2) (1 / 2) o _ [0, 1] (by norm_num) (by norm_num) sol srt ⟨![1, -I], I, fun h => one_ne_zero (congrFun h 0), ?_, by norm_num⟩ _ _ hb rfl
  ext i
  fin_cases i <;> simp [hA, mulVec, dotProduct, Fin.sum_univ_two]

end witnessG

/-! ## Matrices given as H-matrices -/

section hmat
variable {K : Type*} [CommRing K] [StarRing K] {F : Type*}

/-- **C70 (H-matrix with the overlap).** For an H-matrix on the unknowns of the subdomain with its overlap, whose user numbering is the numbering of the subdomain,
the matrix of the builder is the matrix in that numbering, with zeros for the overlap. -/
theorem C70_hmatrix_overlap {A : HTree K} {M : ℕ → ℕ → K} (h : A.Holds M) {perm : List ℕ} {nIn n : ℕ} (hle : nIn ≤ n)
    (ht : A.label.tsz = n) (hs : A.label.ssz = n) (h0 : A.label.toff = 0) (h0' : A.label.soff = 0) (hp : LocalPerm perm 0 n)
    (hsym : (getLeavesH A).2 ≠ [] → A.label.symL ≠ .N)
    (hmir : ∀ l ∈ (getLeavesH A).2, Inside (l.label.soff, l.label.ssz) (0, n) ∧ Inside (l.label.toff, l.label.tsz) (0, n))
    (hM : ∀ l ∈ (getLeavesH A).2, ∀ i j, l.label.Has i j → M j i = if A.label.symL = .S then M i j else star (M i j))
    (hcov : ∀ i < n, ∀ j < n, (∃ l ∈ (getLeavesH A).1, l.label.Has i j) ∨ ∃ l ∈ (getLeavesH A).2, l.label.Has j i)
    (Bi : Mat K) (sym : HSym) (lower : Bool) (nu : ℕ) (thr : F) {i j : ℕ} (hi : i < n) (hj : j < n) :
    (GBuilder.create nIn n (geneoDense nIn n perm A) Bi sym lower nu thr).DAD.get (perm.getD i 0) (perm.getD j 0) =
      if perm.getD i 0 < nIn ∧ perm.getD j 0 < nIn then M i j else 0 := by
  have c := (C23_copy_to_dense_in_user_numbering h (pt := perm) (ps := perm) (by rw [h0, ht]; exact hp) (by rw [h0', hs]; exact hp)
    (fun hne => ⟨rfl, hsym hne⟩) (by rw [h0, h0', ht, hs]; exact hmir) hM
    (by
      intro i j hh
      unfold HNode.Has InIv at hh
      rw [h0, h0', ht, hs] at hh
      exact hcov i (by simpa using hh.1.2) j (by simpa using hh.2.2)) (Mat.mk' A.label.tsz A.label.ssz (0 : K)).data).1 i (by omega) j (by omega)
  have ui : ∀ x, userIdx perm 0 x = perm.getD x 0 := by intro x; unfold userIdx; simp
  rw [h0, h0', ui, ui, Nat.zero_add, Nat.zero_add] at c
  have lt : ∀ x < n, perm.getD x 0 < n := by
    intro x hx
    have := (userIdx_eq hp hx).2.2.2
    rwa [ui] at this
  have g : geneoDense nIn n perm A = ⟨A.label.tsz, A.label.ssz, copyToDenseUser perm perm A (Mat.mk' A.label.tsz A.label.ssz (0 : K)).data⟩ := by
    unfold geneoDense
    dsimp only
    rw [if_pos ht]
    rfl
  rw [C70_matrix hle _ _ _ _ _ _ (Or.inl (by rw [g]; exact ⟨ht, hs⟩)) (lt i hi) (lt j hj), g]
  exact if_congr Iff.rfl c rfl

/-- The full claim for the diagonal block of the distributed operator (the unknowns of the subdomain without overlap, numbered as in the cluster): the matrix of the
builder holds the coefficients in the numbering of the subdomain, the one of the cluster. -/
def C70_block_statement (K : Type*) [CommRing K] [StarRing K] (Lt : ℕ → ℕ → Prop) : Prop :=
  ∀ (A : HTree K) (M : ℕ → ℕ → K) (perm : List ℕ) (nIn n : ℕ), A.Holds M → Lt nIn n → A.label.tsz = nIn → A.label.ssz = nIn → LocalPerm perm A.label.toff nIn →
    A.label.toff = A.label.soff →
    ∀ (Bi : Mat K) (sym : HSym) (lower : Bool) (nu : ℕ) (thr : ℚ), ∀ i < nIn, ∀ j < nIn,
      (∃ l ∈ A.leaves, l.label.Has (A.label.toff + i) (A.label.soff + j)) →
      (GBuilder.create nIn n (geneoDense nIn n perm A) Bi sym lower nu thr).DAD.get i j = M (A.label.toff + i) (A.label.soff + j)

/-- **C70 (diagonal block, partial).** The claim holds if the overlap is not empty. -/
theorem C70_block_partial : C70_block_statement K (· < ·) := by
  intro A M perm nIn n h hlt ht hs _ _ Bi sym lower nu thr i hi j hj hex
  have g : geneoDense nIn n perm A = ⟨A.label.tsz, A.label.ssz, copyToDense A (Mat.mk' A.label.tsz A.label.ssz (0 : K)).data⟩ := by
    unfold geneoDense
    dsimp only
    rw [if_neg (by omega), if_pos ht]
    rfl
  have hlt' : nIn < n := hlt
  rw [C70_matrix hlt'.le _ _ _ _ _ _ (Or.inr (by rw [g]; exact ⟨ht, hs⟩)) (by omega) (by omega), if_pos ⟨hi, hj⟩, g]
  have := (C23_copy_to_dense h (Mat.mk' A.label.tsz A.label.ssz (0 : K)).data).1 i (by omega) j (by omega)
  rw [if_pos hex] at this
  exact this

/-- A dense block on two unknowns. -/
def exBlockH : HTree GaussianInt := .node ⟨0, 2, 0, 2, .N, .N, .N, .N, .dense fun i j => (i + 2 * j : ℕ)⟩ []

theorem exBlockH_leaves : exBlockH.leaves = [exBlockH] ∧ (getLeavesH exBlockH).1.Perm [exBlockH] ∧ (getLeavesH exBlockH).2 = [] := by
  have h1 : exBlockH.leaves = [exBlockH] := rfl
  obtain ⟨p1, p2⟩ := getLeavesH_perm exBlockH
  refine ⟨h1, h1 ▸ p1, ?_⟩
  have : symLeavesG HNode.isSym HNode.offDiag exBlockH.label.isSym exBlockH = [] := by
    simp [exBlockH, symLeavesG, HNode.isSym, HNode.offDiag]
  rw [this] at p2
  exact p2.eq_nil

theorem exBlockH_holds : exBlockH.Holds (fun i j => ((i + 2 * j : ℕ) : GaussianInt)) where
  inside := by
    intro l hl
    rw [exBlockH_leaves.1, List.mem_singleton] at hl
    subst hl
    unfold Inside; exact ⟨⟨le_rfl, le_rfl⟩, ⟨le_rfl, le_rfl⟩⟩
  raw := by
    intro l hl i j hh
    rw [exBlockH_leaves.1, List.mem_singleton] at hl
    subst hl
    simp [exBlockH, HNode.raw]

/-- **C70 (negation).** Without overlap the two sizes are equal, and the code converts the diagonal block to user numbering, although the solver numbers the unknowns
of the subdomain as in the cluster. -/
theorem C70_block_statement_false : ¬ C70_block_statement GaussianInt (· ≤ ·) := by
  intro h
  obtain ⟨l1, l2, l3⟩ := exBlockH_leaves
  have hp : LocalPerm [1, 0] 0 2 := by unfold LocalPerm; decide
  have a1 := h exBlockH _ [1, 0] 2 2 exBlockH_holds le_rfl rfl rfl hp rfl ⟨2, 2, fun _ => 0⟩ .N true 0 0 0 (by omega) 1 (by omega)
    ⟨exBlockH, by rw [l1]; exact List.mem_singleton_self _, by decide⟩
  have a2 := C70_hmatrix_overlap (nIn := 2) (n := 2) exBlockH_holds le_rfl rfl rfl rfl rfl hp (by rw [l3]; simp) (by rw [l3]; simp) (by rw [l3]; simp)
    (by
      intro i hi j hj
      refine Or.inl ⟨exBlockH, l2.mem_iff.2 (List.mem_singleton_self _), ?_⟩
      unfold HNode.Has InIv
      simp [exBlockH]
      omega) ⟨2, 2, fun _ => 0⟩ .N true 0 (0 : ℚ) (i := 1) (j := 0) (by omega) (by omega)
  have a3 := a1.symm.trans a2
  exact absurd a3 (by decide +kernel)

/-- The hypotheses of `C70_block_partial` are met with one unknown of overlap. -/
example : (GBuilder.create 2 3 (geneoDense 2 3 [1, 0] exBlockH) ⟨3, 3, fun _ => 0⟩ .N true 0 (0 : ℚ)).DAD.get 0 1 = 2 :=
  C70_block_partial exBlockH _ [1, 0] 2 3 exBlockH_holds (by show 2 < 3; omega) rfl rfl (by unfold LocalPerm; decide) rfl ⟨3, 3, fun _ => 0⟩ .N true 0 0 0 (by omega) 1
    (by omega) ⟨exBlockH, by rw [exBlockH_leaves.1]; exact List.mem_singleton_self _, by decide⟩

end hmat

/-! ## The coarse space of a subdomain given by an H-matrix -/

section hgeneo
open Matrix
variable {𝕜 : Type*} [RCLike 𝕜]

/-- An H-matrix on the unknowns of a subdomain with its overlap represents, in user numbering, the matrix `A` of the subdomain: its blocks hold `M`, which is `A` in
cluster numbering; the blocks and their mirror images cover everything. -/
structure SubdomainH (n : ℕ) (perm : List ℕ) (H : HTree 𝕜) (M : ℕ → ℕ → 𝕜) (A : Matrix (Fin n) (Fin n) 𝕜) : Prop where
  holds : H.Holds M
  rows : H.label.tsz = n
  cols : H.label.ssz = n
  row0 : H.label.toff = 0
  col0 : H.label.soff = 0
  numbering : LocalPerm perm 0 n
  flag : (getLeavesH H).2 ≠ [] → H.label.symL ≠ .N
  inside : ∀ l ∈ (getLeavesH H).2, Inside (l.label.soff, l.label.ssz) (0, n) ∧ Inside (l.label.toff, l.label.tsz) (0, n)
  mirror : ∀ l ∈ (getLeavesH H).2, ∀ i j, l.label.Has i j → M j i = if H.label.symL = .S then M i j else star (M i j)
  cover : ∀ i < n, ∀ j < n, (∃ l ∈ (getLeavesH H).1, l.label.Has i j) ∨ ∃ l ∈ (getLeavesH H).2, l.label.Has j i
  user : ∀ i j : Fin n, ∀ a < n, ∀ b < n, perm.getD a 0 = i → perm.getD b 0 = j → A i j = M a b

/-- The dense matrix made from the H-matrix is a valid input. -/
theorem SubdomainH.input {nIn n : ℕ} {perm : List ℕ} {H : HTree 𝕜} {M : ℕ → ℕ → 𝕜} {A : Matrix (Fin n) (Fin n) 𝕜} (h : SubdomainH n perm H M A) (hle : nIn ≤ n)
    {lower : Bool} {B : Matrix (Fin n) (Fin n) 𝕜} {Bi : Mat 𝕜} (hB : ∀ i j : Fin n, Stored lower i j → Bi.get i j = B i j) :
    GeneoInput nIn n lower A B (geneoDense nIn n perm H) Bi := by
  have size : (geneoDense nIn n perm H).nr = n ∧ (geneoDense nIn n perm H).nc = n := by
    unfold geneoDense
    dsimp only
    rw [if_pos h.rows]
    exact ⟨h.rows, h.cols⟩
  refine ⟨hle, Or.inl size, fun i j hi hj _ => ?_, hB⟩
  have ui : ∀ x, userIdx perm 0 x = perm.getD x 0 := by intro x; unfold userIdx; simp
  obtain ⟨a, ha, ha'⟩ := userIdx_surj h.numbering i.2
  obtain ⟨b, hb, hb'⟩ := userIdx_surj h.numbering j.2
  rw [ui] at ha' hb'
  have e := C70_hmatrix_overlap h.holds hle h.rows h.cols h.row0 h.col0 h.numbering h.flag h.inside h.mirror h.cover Bi .N lower 0 (0 : ℝ) ha hb
  rw [C70_matrix hle _ _ _ _ _ _ (Or.inl size) (by rw [ha']; exact i.2) (by rw [hb']; exact j.2), ha', hb', if_pos ⟨hi, hj⟩, if_pos ⟨hi, hj⟩] at e
  rw [e, h.user i j a ha b hb ha' hb']

/-- **C70 (threshold, H-matrix).** For a Hermitian matrix given as an H-matrix with the overlap, `GeneoWithThreshold` gives the same coarse space as in
`C70_threshold_partial`. -/
theorem C70_threshold_hmatrix_partial {nIn n : ℕ} {perm : List ℕ} {H : HTree 𝕜} {M : ℕ → ℕ → 𝕜} {A B : Matrix (Fin n) (Fin n) 𝕜} (h : SubdomainH n perm H M A)
    (hle : nIn ≤ n) {lower : Bool} {Bi : Mat 𝕜} (hBi : ∀ i j : Fin n, Stored lower i j → Bi.get i j = B i j) (hA : A.IsHermitian) (hB : B.PosDef) {sym : HSym}
    (hsym : sym = .S ∨ sym = .H) {thr : ℝ} (ht : 0 < thr) {o : GvOut 𝕜} (oe : GgevOut 𝕜) (tiny : ℝ)
    (ho : let b : GBuilder 𝕜 ℝ := .withThresholdH nIn n perm H Bi sym lower thr; GvSolves n lower b.DAD b.Bi o)
    {index : List ℕ} (hi : SortedIndex n (gvBefore fun e => |o.w e|) index)
    (hex : ∃ v l, v ≠ 0 ∧ IsPair (ownD 𝕜 nIn n) A B v l ∧ ‖l‖ ≤ thr) :
    ∃ k Z b', GBuilder.build tiny (.withThresholdH nIn n perm H Bi sym lower thr) o oe index = some ((k, Z), b') ∧
      Submodule.span 𝕜 (Set.range fun (j : Fin k) (i : Fin n) => Z i j) =
        (Submodule.span 𝕜 {v | ∃ l, IsPair (ownD 𝕜 nIn n) A B v l ∧ thr < ‖l‖}).map (ownD 𝕜 nIn n).mulVecLin ∧
      k = Module.finrank 𝕜 (Submodule.span 𝕜 {v | ∃ l, IsPair (ownD 𝕜 nIn n) A B v l ∧ thr < ‖l‖}) :=
  C70_threshold_partial (h.input hle hBi) hA hB hsym ht oe tiny ho hi hex

/-- **C70 (number, H-matrix).** For a Hermitian matrix given as an H-matrix with the overlap, `GeneoWithNu` gives the same columns as in `C70_number_partial`. -/
theorem C70_number_hmatrix_partial {nIn n : ℕ} {perm : List ℕ} {H : HTree 𝕜} {M : ℕ → ℕ → 𝕜} {A B : Matrix (Fin n) (Fin n) 𝕜} (h : SubdomainH n perm H M A)
    (hle : nIn ≤ n) {lower : Bool} {Bi : Mat 𝕜} (hBi : ∀ i j : Fin n, Stored lower i j → Bi.get i j = B i j) (hA : A.IsHermitian) (hB : B.PosDef) {sym : HSym}
    (hsym : sym = .S ∨ sym = .H) {nu : ℕ} (hnu : nu ≤ n) {o : GvOut 𝕜} (oe : GgevOut 𝕜) (tiny : ℝ)
    (ho : let b : GBuilder 𝕜 ℝ := .withNuH nIn n perm H Bi sym lower nu; GvSolves n lower b.DAD b.Bi o)
    {index : List ℕ} (hi : SortedIndex n (gvBefore fun e => |o.w e|) index) :
    ∃ Z b', GBuilder.build tiny (.withNuH nIn n perm H Bi sym lower nu) o oe index = some ((nu, Z), b') ∧
      ∃ (x : Fin nu → Fin n → 𝕜) (l : Fin nu → ℝ), (∀ j, IsPair (ownD 𝕜 nIn n) A B (x j) (l j)) ∧
        (∀ i j, star (x i) ⬝ᵥ (B *ᵥ x j) = if i = j then 1 else 0) ∧ (∀ (j : Fin nu) (i : Fin n), Z i j = (ownD 𝕜 nIn n *ᵥ x j) i) ∧
        ∀ v m, IsPair (ownD 𝕜 nIn n) A B v m → (∃ j, |l j| < ‖m‖) → v ∈ Submodule.span 𝕜 (Set.range x) :=
  C70_number_partial (h.input hle hBi) hA hB hsym hnu oe tiny ho hi

/-- A subdomain of two unknowns, numbered in the other order in the clusters, stored by one dense block: matrix `[[2, 1], [1, 0]]` in user numbering. -/
example : ∃ (H : HTree ℝ) (A : Matrix (Fin 2) (Fin 2) ℝ), SubdomainH 2 [1, 0] H (fun i j => ((i + j : ℕ) : ℝ)) A ∧ A.IsHermitian ∧ A 0 0 = 2 ∧ A 1 1 = 0 := by
  set H : HTree ℝ := .node ⟨0, 2, 0, 2, .N, .N, .N, .N, .dense fun i j => ((i + j : ℕ) : ℝ)⟩ [] with hH
  have l1 : H.leaves = [H] := rfl
  obtain ⟨p1, p2⟩ := getLeavesH_perm H
  rw [l1] at p1
  have p3 : (getLeavesH H).2 = [] := by
    have : symLeavesG HNode.isSym HNode.offDiag H.label.isSym H = [] := by
      simp [hH, symLeavesG, HNode.isSym, HNode.offDiag]
    rw [this] at p2
    exact p2.eq_nil
  refine ⟨H, Matrix.of fun i j => (((1 - i.1) + (1 - j.1) : ℕ) : ℝ), ⟨⟨?_, ?_⟩, rfl, rfl, rfl, rfl, by unfold LocalPerm; decide, by rw [p3]; simp, by rw [p3]; simp,
    by rw [p3]; simp, fun i hi j hj => Or.inl ⟨H, p1.mem_iff.2 (List.mem_singleton_self _), ?_⟩, ?_⟩, ?_, by norm_num, by norm_num⟩
  · intro l hl
    rw [l1, List.mem_singleton] at hl
    subst hl
    unfold Inside; exact ⟨⟨le_rfl, le_rfl⟩, ⟨le_rfl, le_rfl⟩⟩
  · intro l hl i j hh
    rw [l1, List.mem_singleton] at hl
    subst hl
    simp [hH, HNode.raw]
  · unfold HNode.Has InIv
    simp [hH]
    omega
  · intro i j a ha b hb h1 h2
    have key : ∀ a < 2, ([1, 0] : List ℕ).getD a 0 = 1 - a := by decide
    rw [key a ha] at h1
    rw [key b hb] at h2
    rw [Matrix.of_apply]
    congr 1
    omega
  · ext i j
    simp only [Matrix.conjTranspose_apply, Matrix.of_apply, Nat.add_comm, star_trivial]

end hgeneo

section examples

/-- The hypotheses of `C70_threshold_partial` are met: the first call of the example above keeps one vector. -/
example : ∃ k Z b', GBuilder.build 0 (.withThreshold 1 2 (toMat (Matrix.diagonal ![1, 1] : Matrix (Fin 2) (Fin 2) ℝ)) (toMat (Matrix.diagonal ![1, 1])) .S true (1 / 2))
      ⟨toMat (1 : Matrix (Fin 2) (Fin 2) ℝ), toMat (1 : Matrix (Fin 2) (Fin 2) ℝ), fun e => if e = 0 then 1 else 0⟩
      ⟨⟨0, 0, 0⟩, ⟨0, 0, 0⟩, 0, 0, 0, 0⟩ [0, 1] = some ((k, Z), b') := by
  have one : (Matrix.diagonal ![1, 1] : Matrix (Fin 2) (Fin 2) ℝ) = 1 := by
    ext i j; fin_cases i <;> fin_cases j <;> simp
  have inp : GeneoInput 1 2 true (Matrix.diagonal ![1, 1] : Matrix (Fin 2) (Fin 2) ℝ) (Matrix.diagonal ![1, 1]) (toMat (Matrix.diagonal ![1, 1]))
      (toMat (Matrix.diagonal ![1, 1])) := ⟨by omega, Or.inl ⟨rfl, rfl⟩, fun i j _ _ _ => toMat_get _ i j, fun i j _ => toMat_get _ i j⟩
  have hh : (Matrix.diagonal ![1, 1] : Matrix (Fin 2) (Fin 2) ℝ).IsHermitian := by rw [one]; exact isHermitian_one
  have pd : (Matrix.diagonal ![1, 1] : Matrix (Fin 2) (Fin 2) ℝ).PosDef := Matrix.posDef_diagonal_iff.2 fun i => by fin_cases i <;> norm_num
  obtain ⟨r1, r2⟩ := inp.read hh hh .S 0 (1 / 2)
  have dad : ownD ℝ 1 2 * Matrix.diagonal ![1, 1] * ownD ℝ 1 2 = !![1, 0; 0, 0] := by
    ext i j; rw [ownD_mul_mul]; fin_cases i <;> fin_cases j <;> simp
  obtain ⟨k, Z, b', hb, -⟩ := C70_threshold_partial inp hh pd (Or.inl rfl) (by norm_num : (0 : ℝ) < 1 / 2)
    (o := ⟨toMat (1 : Matrix (Fin 2) (Fin 2) ℝ), toMat (1 : Matrix (Fin 2) (Fin 2) ℝ), fun e => if e = 0 then 1 else 0⟩)
    ⟨⟨0, 0, 0⟩, ⟨0, 0, 0⟩, 0, 0, 0, 0⟩ 0 (by
      intro b _ _
      have e1 : hermRead 2 true b.DAD = _ := r1
      have e2 : hermRead 2 true b.Bi = _ := r2
      rw [e1, e2, dad, one]
      have full : fullRead 2 (toMat (1 : Matrix (Fin 2) (Fin 2) ℝ)) = 1 := by ext i j; exact toMat_get _ i j
      dsimp only
      rw [full]
      refine ⟨?_, by simp, 1, ?_, by simp, fun i j _ => toMat_get _ i j⟩
      · ext i j; fin_cases i <;> fin_cases j <;> simp
      · intro i j hs
        rw [Matrix.one_apply_ne]
        rintro rfl
        exact hs (by simp [Stored])) (index := [0, 1]) (by
      refine ⟨by decide, ?_⟩
      simp [gvBefore]) ⟨![0, 1], 0, fun h => one_ne_zero (congrFun h 1), by
      unfold IsPair
      rw [dad]
      ext i
      fin_cases i <;> simp [mulVec, dotProduct, Fin.sum_univ_two], by norm_num⟩
  exact ⟨k, Z, b', hb⟩

end examples
end Htool
