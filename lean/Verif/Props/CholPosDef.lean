import Verif.HLinChol
import Mathlib.Analysis.Matrix.LDL

/-! # C38: the hypothesis of the Cholesky factorization holds for positive definite matrices -/

namespace Htool
open Finset Matrix
open scoped ComplexOrder
variable {𝕜 : Type*} [RCLike 𝕜]

/-- A positive definite matrix has a Cholesky factor. -/
theorem posDef_chol {n : ℕ} {S : Matrix (Fin n) (Fin n) 𝕜} (hS : S.PosDef) :
    ∃ F : Matrix (Fin n) (Fin n) 𝕜, (∀ i j, i < j → F i j = 0) ∧ (∀ i, IsUnit (F i i)) ∧ F * Fᴴ = S := by
  set L := LDL.lower hS with hL
  have inv : Invertible (LDL.lowerInv hS) := LDL.invertibleLowerInv hS
  have tri1 : BlockTriangular (LDL.lowerInv hS) OrderDual.toDual := fun i j hij => LDL.lowerInv_triangular hS hij
  have tri : BlockTriangular L OrderDual.toDual := blockTriangular_inv_of_blockTriangular tri1
  have low : ∀ i j, i < j → L i j = 0 := fun i j h => tri h
  have det : IsUnit L.det := by
    rw [hL, LDL.lower, det_nonsing_inv, isUnit_ringInverse]
    exact (isUnit_iff_isUnit_det _).1 (isUnit_of_invertible _)
  have dU : ∀ i, IsUnit (L i i) := by
    rw [det_of_lowerTriangular L tri] at det
    exact IsUnit.prod_univ_iff.1 det
  have pd : (LDL.diag hS).PosDef := by
    rw [LDL.diag_eq_lowerInv_conj]
    refine hS.mul_mul_conjTranspose_same ?_
    exact Matrix.vecMul_injective_of_isUnit (isUnit_of_invertible _)
  have dpos : ∀ i, 0 < LDL.diagEntries hS i := posDef_diagonal_iff.1 pd
  have dre : ∀ i, (RCLike.re (LDL.diagEntries hS i) : 𝕜) = LDL.diagEntries hS i := fun i =>
    RCLike.conj_eq_iff_re.1 (RCLike.conj_eq_iff_im.2 (RCLike.pos_iff.1 (dpos i)).2)
  set q : Fin n → 𝕜 := fun i => ((Real.sqrt (RCLike.re (LDL.diagEntries hS i)) : ℝ) : 𝕜) with hq
  have qq : ∀ i, q i * star (q i) = LDL.diagEntries hS i := by
    intro i
    have : star (q i) = q i := RCLike.conj_ofReal _
    rw [this, ← RCLike.ofReal_mul, Real.mul_self_sqrt (RCLike.pos_iff.1 (dpos i)).1.le, dre]
  refine ⟨L * diagonal q, fun i j h => ?_, fun i => ?_, ?_⟩
  · rw [mul_diagonal, low i j h, zero_mul]
  · rw [mul_diagonal]
    refine (dU i).mul (isUnit_iff_ne_zero.2 ?_)
    exact RCLike.ofReal_ne_zero.2 (Real.sqrt_pos.2 (RCLike.pos_iff.1 (dpos i)).1).ne'
  · rw [conjTranspose_mul, diagonal_conjTranspose, Matrix.mul_assoc, ← Matrix.mul_assoc (diagonal q), diagonal_mul_diagonal]
    rw [show (diagonal fun i => q i * star q i) = LDL.diag hS from congrArg diagonal (funext fun i => qq i), ← Matrix.mul_assoc]
    exact LDL.lower_conj_diag hS

/-- **C38**: for real and complex coefficients, a hermitian positive definite matrix meets the hypothesis `HasChol` of the factorization. -/
theorem C38_positive_definite {M : ℕ → ℕ → 𝕜} {a n : ℕ} (h : (Matrix.of fun i j : Fin n => M (a + i) (a + j)).PosDef) : HasChol M a (a + n) := by
  obtain ⟨F, f1, f2, f3⟩ := posDef_chol h
  let g : ℕ → ℕ → 𝕜 := fun i j => if h : i - a < n ∧ j - a < n then F ⟨i - a, h.1⟩ ⟨j - a, h.2⟩ else 0
  have ge : ∀ i j (hi : i - a < n) (hj : j - a < n), g i j = F ⟨i - a, hi⟩ ⟨j - a, hj⟩ := fun i j hi hj => dif_pos ⟨hi, hj⟩
  refine ⟨g, fun i hi j hj hij => ?_, fun i hi => ?_, fun i hi j hj => ?_⟩
  · have hi := mem_Ico.1 hi
    have hj := mem_Ico.1 hj
    rw [ge i j (by omega) (by omega)]
    exact f1 _ _ (Fin.mk_lt_mk.2 (by omega))
  · have hi := mem_Ico.1 hi
    rw [ge i i (by omega) (by omega)]
    exact f2 _
  · have hi := mem_Ico.1 hi
    have hj := mem_Ico.1 hj
    rw [sum_Ico_eq_sum_range, show a + n - a = n by omega, sum_range]
    have e := congrFun (congrFun f3 ⟨i - a, by omega⟩) ⟨j - a, by omega⟩
    rw [show M i j = M (a + (i - a)) (a + (j - a)) by congr 1 <;> omega]
    refine Eq.trans (sum_congr rfl fun l _ => ?_) e
    have e1 : a + (l : ℕ) - a < n := by have := l.2; omega
    have e3 : (⟨a + (l : ℕ) - a, e1⟩ : Fin n) = l := Fin.ext (by simp)
    rw [ge i _ (by omega) e1, ge j _ (by omega) e1, e3]
    rfl

/-- The hypothesis can be met: the identity. -/
example : (Matrix.of fun i j : Fin 5 => (fun i j : ℕ => if i = j then (1 : ℂ) else 0) (2 + i) (2 + j)).PosDef := by
  have : (Matrix.of fun i j : Fin 5 => (fun i j : ℕ => if i = j then (1 : ℂ) else 0) (2 + i) (2 + j)) = 1 := by
    ext i j
    simp [Matrix.one_apply, Fin.ext_iff]
  rw [this]
  exact Matrix.PosDef.one

end Htool
