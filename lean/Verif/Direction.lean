import Verif.Geometry
import Mathlib.Analysis.Matrix.Spectrum
import Mathlib.Analysis.Matrix.PosDef
import Mathlib.Analysis.SpecialFunctions.Trigonometric.Inverse
import Mathlib.Analysis.Real.Pi.Bounds

/-! # The direction of largest extent

Model of `ComputeLargestExtent::compute_direction` (direction_computation.hpp 22-55) and of `solve_EVP_2`, `solve_EVP_3` (misc/evp.hpp), in exact real
arithmetic. `ε` stands for `numeric_limits<T>::epsilon()`, `third` for the literal `1.047197551196598` (an approximation of `π/3` in the coefficient type). -/

namespace Htool
open Finset

/-! ## The code -/

/-- The covariance matrix (direction_computation.hpp 35-47); `pts` are the points of the cluster, `permutation[offset], …`. -/
noncomputable def covMat (dim : ℕ) (x w center : ℕ → ℝ) (pts : List ℕ) (p q : ℕ) : ℝ :=
  pts.foldl (fun acc i => acc + w i * (coord dim x i p - center p) * (coord dim x i q - center q)) 0

/-- The identity matrix `I` (evp.hpp 15-17, 51-54). -/
def idMat (i j : ℕ) : ℝ := if i = j then 1 else 0

/-- A vector with three entries. -/
def vec3 (a b c : ℝ) : ℕ → ℝ := fun p => if p = 0 then a else if p = 1 then b else if p = 2 then c else 0

/-- `solve_EVP_2` (evp.hpp 11-43). The do-while loop (27-32) is unrolled: the second column is used if the first is small. -/
noncomputable def solveEVP2 (ε : ℝ) (cov : ℕ → ℕ → ℝ) : ℕ → ℝ :=
  let trace := cov 0 0 + cov 1 1
  let det := cov 0 0 * cov 1 1 - cov 0 1 * cov 1 0
  let e0 := trace / 2 + Real.sqrt (trace * trace / 4 - det)
  let e1 := trace / 2 - Real.sqrt (trace * trace / 4 - det)
  if |e0| > ε then
    let prod : ℕ → ℕ → ℝ := fun i j => cov i j - e1 * idMat i j
    let norm : ℕ → ℝ := fun ind => Real.sqrt (prod 0 ind * prod 0 ind + prod 1 ind * prod 1 ind)
    let ind := if norm 0 < ε then 1 else 0
    if norm ind < ε then vec3 1 0 0
    else vec3 (prod 0 ind / norm ind) (prod 1 ind / norm ind) 0
  else vec3 0 0 0

/-- The diagonal case of `solve_EVP_3` (evp.hpp 57-81): the axis of the largest diagonal entry. -/
noncomputable def diagDir (e0 e1 e2 : ℝ) : ℕ → ℝ :=
  let s := if e0 < e1 then (e1, vec3 0 1 0) else (e0, vec3 1 0 0)
  if s.1 < e2 then vec3 0 0 1 else s.2

/-- Cross product of two columns (evp.hpp 121-131). -/
noncomputable def crossCol (u v : ℕ → ℝ) : ℕ → ℝ := vec3 (u 1 * v 2 - u 2 * v 1) (u 2 * v 0 - u 0 * v 2) (u 0 * v 1 - u 1 * v 0)

/-- `dprod` of vectors with three entries (vector.hpp 85-87). -/
noncomputable def dprod3 (u v : ℕ → ℝ) : ℝ := ∑ p ∈ range 3, u p * v p

/-- The angle `phi` (evp.hpp 95-103). -/
noncomputable def evpPhi (third r : ℝ) : ℝ := if r ≤ -1 then third else if r ≥ 1 then 0 else Real.arccos r / 3

/-- The largest cross product, normalized (evp.hpp 133-155). -/
noncomputable def crossDir (c0 c1 c2 : ℕ → ℝ) : ℕ → ℝ :=
  let d0 := dprod3 (crossCol c0 c1) (crossCol c0 c1)
  let d1 := dprod3 (crossCol c0 c2) (crossCol c0 c2)
  let d2 := dprod3 (crossCol c1 c2) (crossCol c1 c2)
  let s := if d1 > d0 then (d1, 1) else (d0, 0)
  let imax := if d2 > s.1 then 2 else s.2
  if imax = 0 then fun p => crossCol c0 c1 p / Real.sqrt d0
  else if imax = 1 then fun p => crossCol c0 c2 p / Real.sqrt d1
  else fun p => crossCol c1 c2 p / Real.sqrt d2

/-- `solve_EVP_3` (evp.hpp 45-160). `eigs[1]` and `eigs[2]` are not used by the result and left out. -/
noncomputable def solveEVP3 (ε third : ℝ) (cov : ℕ → ℕ → ℝ) : ℕ → ℝ :=
  let p1 := cov 0 1 ^ 2 + cov 0 2 ^ 2 + cov 1 2 ^ 2
  if p1 < ε then diagDir (cov 0 0) (cov 1 1) (cov 2 2)
  else
    let q := (cov 0 0 + cov 1 1 + cov 2 2) / 3
    let p2 := (cov 0 0 - q) ^ 2 + (cov 1 1 - q) ^ 2 + (cov 2 2 - q) ^ 2 + 2 * p1
    let p := Real.sqrt (p2 / 6)
    let B : ℕ → ℕ → ℝ := fun i j => 1 / p * (cov i j - q * idMat i j)
    let detB := B 0 0 * (B 1 1 * B 2 2 - B 1 2 * B 2 1) - B 0 1 * (B 1 0 * B 2 2 - B 1 2 * B 2 0) + B 0 2 * (B 1 0 * B 2 1 - B 1 1 * B 2 0)
    let r := detB / 2
    let e0 := q + 2 * p * Real.cos (evpPhi third r)
    if |e0| < ε then vec3 0 0 0
    else
      let prod : ℕ → ℕ → ℝ := fun i j => cov i j - e0 * idMat i j
      crossDir (fun i => prod i 0) (fun i => prod i 1) (fun i => prod i 2)

/-- `ComputeLargestExtent::compute_direction` (direction_computation.hpp 26-55). In other dimensions the zero vector is returned (after a log message). -/
noncomputable def largestExtent (ε third : ℝ) (dim : ℕ) (x w center : ℕ → ℝ) (pts : List ℕ) : ℕ → ℝ :=
  if dim = 2 then solveEVP2 ε (covMat dim x w center pts)
  else if dim = 3 then solveEVP3 ε third (covMat dim x w center pts)
  else fun _ => 0

/-! ## Algebra of symmetric matrices of size 3 -/

/-- The quadratic form of a symmetric matrix with diagonal `a b c` and off-diagonal entries `d = (0,1)`, `e = (0,2)`, `f = (1,2)`. -/
def quad3 (a b c d e f x y z : ℝ) : ℝ := a * x ^ 2 + b * y ^ 2 + c * z ^ 2 + 2 * (d * x * y + e * x * z + f * y * z)

/-- A symmetric matrix of size 3 with nonnegative first and second invariants and determinant 0 is positive semidefinite. -/
theorem quad3_nonneg {a b c d e f : ℝ} (h1 : 0 ≤ a + b + c) (h2 : 0 ≤ a * b + a * c + b * c - d ^ 2 - e ^ 2 - f ^ 2)
    (h3 : a * (b * c - f * f) - d * (d * c - f * e) + e * (d * f - b * e) = 0) (x y z : ℝ) : 0 ≤ quad3 a b c d e f x y z := by
  let M : Matrix (Fin 3) (Fin 3) ℝ := !![a, d, e; d, b, f; e, f, c]
  have hM : M.IsHermitian := by
    ext i j
    fin_cases i <;> fin_cases j <;> simp [M]
  have hp : M.PosSemidef := by
    rw [hM.posSemidef_iff_eigenvalues_nonneg]
    intro i
    by_contra hneg
    have hneg : hM.eigenvalues i < 0 := not_le.1 hneg
    set t := hM.eigenvalues i with ht
    have hv := hM.mulVec_eigenvectorBasis i
    have hne : (hM.eigenvectorBasis i).ofLp ≠ 0 := by
      intro h0
      have := hM.eigenvectorBasis.orthonormal.ne_zero i
      apply this
      ext k
      exact congrFun h0 k
    have hdet : (M - t • (1 : Matrix (Fin 3) (Fin 3) ℝ)).det = 0 := by
      rw [← Matrix.exists_mulVec_eq_zero_iff]
      refine ⟨_, hne, ?_⟩
      rw [Matrix.sub_mulVec, hv, Matrix.smul_mulVec, Matrix.one_mulVec, ← ht]
      simp
    rw [Matrix.det_fin_three] at hdet
    simp [M] at hdet
    nlinarith [mul_pos (neg_pos.2 hneg) (neg_pos.2 hneg), mul_nonneg h1 (sq_nonneg t), mul_nonneg h2 (le_of_lt (neg_pos.2 hneg)), pow_pos (neg_pos.2 hneg) 3]
  have := hp.dotProduct_mulVec_nonneg ![x, y, z]
  simp [M, Matrix.mulVec, dotProduct, Fin.sum_univ_three] at this
  unfold quad3
  nlinarith

/-- Symmetric matrix of trace 0 and square norm 6: `‖B² + B - 2‖² = 12 (1 + det/2)`. -/
theorem norm_N {a b c d e f r : ℝ} (h1 : a + b + c = 0) (h2 : a ^ 2 + b ^ 2 + c ^ 2 + 2 * (d ^ 2 + e ^ 2 + f ^ 2) = 6)
    (h3 : a * (b * c - f * f) - d * (d * c - f * e) + e * (d * f - b * e) = 2 * r) :
    (a ^ 2 + d ^ 2 + e ^ 2 + a - 2) ^ 2 + (d ^ 2 + b ^ 2 + f ^ 2 + b - 2) ^ 2 + (e ^ 2 + f ^ 2 + c ^ 2 + c - 2) ^ 2 +
      2 * ((a * d + d * b + e * f + d) ^ 2 + (a * e + d * f + e * c + e) ^ 2 + (d * e + b * f + f * c + f) ^ 2) = 12 * (1 + r) := by
  have hc : c = -a - b := by linarith
  subst hc
  linear_combination ((a ^ 2 + b ^ 2 + (-a - b) ^ 2 + 2 * (d ^ 2 + e ^ 2 + f ^ 2)) / 2) * h2 + 6 * h3

theorem r_bounds {a b c d e f r : ℝ} (h1 : a + b + c = 0) (h2 : a ^ 2 + b ^ 2 + c ^ 2 + 2 * (d ^ 2 + e ^ 2 + f ^ 2) = 6)
    (h3 : a * (b * c - f * f) - d * (d * c - f * e) + e * (d * f - b * e) = 2 * r) : -1 ≤ r ∧ r ≤ 1 := by
  constructor
  · have h := norm_N h1 h2 h3
    have : (0 : ℝ) ≤ 12 * (1 + r) := by rw [← h]; positivity
    linarith
  · have h := norm_N (a := -a) (b := -b) (c := -c) (d := -d) (e := -e) (f := -f) (r := -r) (by linarith) (by linarith) (by linarith)
    have : (0 : ℝ) ≤ 12 * (1 + -r) := by rw [← h]; positivity
    linarith

/-- The largest root of the characteristic polynomial bounds the quadratic form. -/
theorem quad3_le {a b c d e f r β : ℝ} (h1 : a + b + c = 0) (h2 : a ^ 2 + b ^ 2 + c ^ 2 + 2 * (d ^ 2 + e ^ 2 + f ^ 2) = 6)
    (h3 : a * (b * c - f * f) - d * (d * c - f * e) + e * (d * f - b * e) = 2 * r) (hβ : 1 ≤ β) (hr : β ^ 3 - 3 * β = 2 * r) (x y z : ℝ) :
    quad3 a b c d e f x y z ≤ β * (x ^ 2 + y ^ 2 + z ^ 2) := by
  have hc : c = -a - b := by linarith
  have := quad3_nonneg (a := β - a) (b := β - b) (c := β - c) (d := -d) (e := -e) (f := -f) (by linarith) (by subst hc; nlinarith)
    (by subst hc; linear_combination hr - h3 - β / 2 * h2) x y z
  unfold quad3 at *
  nlinarith

/-- The angle gives the largest root. -/
theorem evpPhi_root {third r : ℝ} (h1 : -1 < r) (h2 : r ≤ 1) :
    1 < 2 * Real.cos (evpPhi third r) ∧ (2 * Real.cos (evpPhi third r)) ^ 3 - 3 * (2 * Real.cos (evpPhi third r)) = 2 * r := by
  unfold evpPhi
  rw [if_neg (not_le.2 h1)]
  by_cases h : r ≥ 1
  · rw [if_pos h]
    have : r = 1 := le_antisymm h2 h
    rw [this]; norm_num
  · rw [if_neg h]
    have h : r < 1 := not_le.1 h
    have hc : Real.cos (3 * (Real.arccos r / 3)) = r := by
      rw [mul_div_cancel₀ _ (by norm_num : (3 : ℝ) ≠ 0)]
      exact Real.cos_arccos h1.le h2
    constructor
    · have hlt : Real.arccos r < Real.pi := by
        rcases lt_or_eq_of_le (Real.arccos_le_pi r) with h | h
        · exact h
        · have := Real.cos_arccos h1.le h2
          rw [h, Real.cos_pi] at this
          linarith
      have := Real.cos_lt_cos_of_nonneg_of_le_pi (x := Real.arccos r / 3) (y := Real.pi / 3) (by have := Real.arccos_nonneg r; positivity)
        (by linarith [Real.pi_pos]) (by linarith)
      rw [Real.cos_pi_div_three] at this
      linarith
    · rw [Real.cos_three_mul] at hc
      nlinarith

/-- The largest cross product is taken. -/
theorem crossDir_cases (c0 c1 c2 : ℕ → ℝ) :
    let d0 := dprod3 (crossCol c0 c1) (crossCol c0 c1)
    let d1 := dprod3 (crossCol c0 c2) (crossCol c0 c2)
    let d2 := dprod3 (crossCol c1 c2) (crossCol c1 c2)
    (crossDir c0 c1 c2 = (fun p => crossCol c0 c1 p / Real.sqrt d0) ∧ d1 ≤ d0 ∧ d2 ≤ d0) ∨
    (crossDir c0 c1 c2 = (fun p => crossCol c0 c2 p / Real.sqrt d1) ∧ d0 ≤ d1 ∧ d2 ≤ d1) ∨
    (crossDir c0 c1 c2 = (fun p => crossCol c1 c2 p / Real.sqrt d2) ∧ d0 ≤ d2 ∧ d1 ≤ d2) := by
  intro d0 d1 d2
  by_cases h1 : d1 > d0
  · by_cases h2 : d2 > d1
    · refine Or.inr (Or.inr ⟨?_, by linarith, h2.le⟩)
      simp only [crossDir]
      rw [if_pos h1, if_pos h2]; rfl
    · refine Or.inr (Or.inl ⟨?_, h1.le, not_lt.1 h2⟩)
      simp only [crossDir]
      rw [if_pos h1, if_neg h2]; rfl
  · by_cases h2 : d2 > d0
    · refine Or.inr (Or.inr ⟨?_, h2.le, by linarith [not_lt.1 h1]⟩)
      simp only [crossDir]
      rw [if_neg h1, if_pos h2]; rfl
    · refine Or.inl ⟨?_, not_lt.1 h1, not_lt.1 h2⟩
      simp only [crossDir]
      rw [if_neg h1, if_neg h2]; rfl

theorem dprod3_cross (u v : ℕ → ℝ) : dprod3 (crossCol u v) (crossCol u v) =
    (u 1 * v 2 - u 2 * v 1) ^ 2 + (u 2 * v 0 - u 0 * v 2) ^ 2 + (u 0 * v 1 - u 1 * v 0) ^ 2 := by
  unfold dprod3 crossCol vec3
  rw [sum_range_succ, sum_range_succ, sum_range_succ, sum_range_zero]
  simp
  ring

theorem unit_div {k0 k1 k2 d : ℝ} (hd : k0 ^ 2 + k1 ^ 2 + k2 ^ 2 = d) (hp : 0 < d) :
    (k0 / Real.sqrt d) ^ 2 + (k1 / Real.sqrt d) ^ 2 + (k2 / Real.sqrt d) ^ 2 = 1 := by
  rw [div_pow, div_pow, div_pow, Real.sq_sqrt hp.le, ← add_div, ← add_div, hd, div_self hp.ne']

/-- The columns of a symmetric matrix. -/
def symCol (A B C D E F : ℝ) (j : ℕ) : ℕ → ℝ := if j = 0 then vec3 A D E else if j = 1 then vec3 D B F else vec3 E F C

/-- The chosen vector is `±` a column of the adjugate, divided by its norm, for the column of largest norm. -/
theorem crossDir_sym (A B C D E F : ℝ) :
    let u := crossDir (symCol A B C D E F 0) (symCol A B C D E F 1) (symCol A B C D E F 2)
    let a00 := B * C - F * F
    let a11 := A * C - E * E
    let a22 := A * B - D * D
    let a01 := E * F - D * C
    let a02 := D * F - B * E
    let a12 := D * E - A * F
    let n0 := a00 ^ 2 + a01 ^ 2 + a02 ^ 2
    let n1 := a01 ^ 2 + a11 ^ 2 + a12 ^ 2
    let n2 := a02 ^ 2 + a12 ^ 2 + a22 ^ 2
    ∃ s : ℝ, s ^ 2 = 1 ∧
      ((u 0 = s * a00 / Real.sqrt n0 ∧ u 1 = s * a01 / Real.sqrt n0 ∧ u 2 = s * a02 / Real.sqrt n0 ∧ n1 ≤ n0 ∧ n2 ≤ n0) ∨
       (u 0 = s * a01 / Real.sqrt n1 ∧ u 1 = s * a11 / Real.sqrt n1 ∧ u 2 = s * a12 / Real.sqrt n1 ∧ n0 ≤ n1 ∧ n2 ≤ n1) ∨
       (u 0 = s * a02 / Real.sqrt n2 ∧ u 1 = s * a12 / Real.sqrt n2 ∧ u 2 = s * a22 / Real.sqrt n2 ∧ n0 ≤ n2 ∧ n1 ≤ n2)) := by
  intro u a00 a11 a22 a01 a02 a12 n0 n1 n2
  have q0 : dprod3 (crossCol (symCol A B C D E F 0) (symCol A B C D E F 1)) (crossCol (symCol A B C D E F 0) (symCol A B C D E F 1)) = n2 := by
    rw [dprod3_cross]; simp [symCol, vec3, n2, a02, a12, a22]; ring
  have q1 : dprod3 (crossCol (symCol A B C D E F 0) (symCol A B C D E F 2)) (crossCol (symCol A B C D E F 0) (symCol A B C D E F 2)) = n1 := by
    rw [dprod3_cross]; simp [symCol, vec3, n1, a01, a11, a12]; ring
  have q2 : dprod3 (crossCol (symCol A B C D E F 1) (symCol A B C D E F 2)) (crossCol (symCol A B C D E F 1) (symCol A B C D E F 2)) = n0 := by
    rw [dprod3_cross]; simp [symCol, vec3, n0, a00, a01, a02]; ring
  have hc := crossDir_cases (symCol A B C D E F 0) (symCol A B C D E F 1) (symCol A B C D E F 2)
  simp only [q0, q1, q2] at hc
  rcases hc with ⟨hu, g1, g2⟩ | ⟨hu, g1, g2⟩ | ⟨hu, g1, g2⟩
  · refine ⟨1, by norm_num, Or.inr (Or.inr ⟨?_, ?_, ?_, g2, g1⟩)⟩ <;> simp only [u, hu] <;> congr 1 <;>
      simp [crossCol, symCol, vec3, a02, a12, a22] <;> ring
  · refine ⟨-1, by norm_num, Or.inr (Or.inl ⟨?_, ?_, ?_, g2, g1⟩)⟩ <;> simp only [u, hu] <;> congr 1 <;>
      simp [crossCol, symCol, vec3, a01, a11, a12] <;> ring
  · refine ⟨1, by norm_num, Or.inl ⟨?_, ?_, ?_, g2, g1⟩⟩ <;> simp only [u, hu] <;> congr 1 <;>
      simp [crossCol, symCol, vec3, a00, a01, a02] <;> ring

/-- For a singular symmetric matrix of rank 2, the largest cross product of two columns, normalized, spans the kernel. -/
theorem crossDir_kernel {A B C D E F : ℝ} (h3 : A * (B * C - F * F) - D * (D * C - F * E) + E * (D * F - B * E) = 0)
    (h2 : A * B + A * C + B * C - D ^ 2 - E ^ 2 - F ^ 2 ≠ 0) :
    let u := crossDir (symCol A B C D E F 0) (symCol A B C D E F 1) (symCol A B C D E F 2)
    u 0 ^ 2 + u 1 ^ 2 + u 2 ^ 2 = 1 ∧ A * u 0 + D * u 1 + E * u 2 = 0 ∧ D * u 0 + B * u 1 + F * u 2 = 0 ∧ E * u 0 + F * u 1 + C * u 2 = 0 := by
  intro u
  obtain ⟨s, hs, hc⟩ := crossDir_sym A B C D E F
  have hpos : ∀ n0 n1 n2 : ℝ, n0 = (B * C - F * F) ^ 2 + (E * F - D * C) ^ 2 + (D * F - B * E) ^ 2 →
      n1 = (E * F - D * C) ^ 2 + (A * C - E * E) ^ 2 + (D * E - A * F) ^ 2 → n2 = (D * F - B * E) ^ 2 + (D * E - A * F) ^ 2 + (A * B - D * D) ^ 2 →
      0 < n0 ∨ 0 < n1 ∨ 0 < n2 := by
    rintro n0 n1 n2 rfl rfl rfl
    by_contra hn
    push Not at hn
    obtain ⟨m0, m1, m2⟩ := hn
    have z0 : B * C - F * F = 0 := by nlinarith [sq_nonneg (B * C - F * F), sq_nonneg (E * F - D * C), sq_nonneg (D * F - B * E)]
    have z1 : A * C - E * E = 0 := by nlinarith [sq_nonneg (A * C - E * E), sq_nonneg (E * F - D * C), sq_nonneg (D * E - A * F)]
    have z2 : A * B - D * D = 0 := by nlinarith [sq_nonneg (A * B - D * D), sq_nonneg (D * F - B * E), sq_nonneg (D * E - A * F)]
    exact h2 (by linear_combination z0 + z1 + z2)
  have hpos := hpos _ _ _ rfl rfl rfl
  have go : ∀ k0 k1 k2 n : ℝ, n = k0 ^ 2 + k1 ^ 2 + k2 ^ 2 → 0 < n → u 0 = s * k0 / Real.sqrt n → u 1 = s * k1 / Real.sqrt n → u 2 = s * k2 / Real.sqrt n →
      A * k0 + D * k1 + E * k2 = 0 → D * k0 + B * k1 + F * k2 = 0 → E * k0 + F * k1 + C * k2 = 0 →
      u 0 ^ 2 + u 1 ^ 2 + u 2 ^ 2 = 1 ∧ A * u 0 + D * u 1 + E * u 2 = 0 ∧ D * u 0 + B * u 1 + F * u 2 = 0 ∧ E * u 0 + F * u 1 + C * u 2 = 0 := by
    intro k0 k1 k2 n hn hp u0 u1 u2 e0 e1 e2
    rw [u0, u1, u2]
    refine ⟨unit_div (by rw [hn]; linear_combination (k0 ^ 2 + k1 ^ 2 + k2 ^ 2) * hs) hp, ?_, ?_, ?_⟩
    · linear_combination s / Real.sqrt n * e0
    · linear_combination s / Real.sqrt n * e1
    · linear_combination s / Real.sqrt n * e2
  rcases hc with ⟨u0, u1, u2, g1, g2⟩ | ⟨u0, u1, u2, g1, g2⟩ | ⟨u0, u1, u2, g1, g2⟩
  · exact go _ _ _ _ rfl (by rcases hpos with h | h | h <;> linarith) u0 u1 u2 (by linear_combination h3) (by ring) (by ring)
  · exact go _ _ _ _ rfl (by rcases hpos with h | h | h <;> linarith) u0 u1 u2 (by ring) (by linear_combination h3) (by ring)
  · exact go _ _ _ _ rfl (by rcases hpos with h | h | h <;> linarith) u0 u1 u2 (by ring) (by ring) (by linear_combination h3)

/-- The column `(B + 2 - δ) e` of a matrix with `B² + B = 2`. -/
theorem col_quad {a b c d e f δ : ℝ} (n0 : a ^ 2 + d ^ 2 + e ^ 2 + a - 2 = 0) (n1 : a * d + d * b + e * f + d = 0) (n2 : a * e + d * f + e * c + e = 0) :
    quad3 a b c d e f (a + 2 - δ) d e = (3 - 2 * δ) * (a + 2) + δ ^ 2 - δ ^ 2 * (1 - a) ∧
      (a + 2 - δ) ^ 2 + d ^ 2 + e ^ 2 = (3 - 2 * δ) * (a + 2) + δ ^ 2 := by
  unfold quad3
  exact ⟨by linear_combination (a + 2 - δ + (1 - δ)) * n0 + d * n1 + e * n2, by linear_combination n0⟩

theorem col_pos {δ x : ℝ} (hδ : 0 < δ) (hδ' : δ ≤ 3 / 4) (hx : 0 ≤ x) : 0 < (3 - 2 * δ) * (x + 2) + δ ^ 2 ∧ 1 - x ≤ (3 - 2 * δ) * (x + 2) + δ ^ 2 := by
  have h1 : (3 / 2 : ℝ) ≤ 3 - 2 * δ := by linarith
  have h2 := mul_le_mul h1 (by linarith : (2 : ℝ) ≤ x + 2) (by norm_num) (by linarith)
  have := sq_nonneg δ
  constructor <;> linarith

theorem col_cmp {δ k x y X Y : ℝ} (hδ' : δ ≤ 3 / 4) (hk : 0 < k ^ 2) (hX : X = (3 - 2 * δ) * (x + 2) + δ ^ 2) (hY : Y = (3 - 2 * δ) * (y + 2) + δ ^ 2)
    (h : k ^ 2 * X ≤ k ^ 2 * Y) : x ≤ y := by
  have := le_of_mul_le_mul_left h hk
  rw [hX, hY] at this
  have h3 : (0 : ℝ) < 3 - 2 * δ := by linarith
  have : (3 - 2 * δ) * (x + 2) ≤ (3 - 2 * δ) * (y + 2) := by linarith
  linarith [le_of_mul_le_mul_left this h3]

theorem col_go {a b c d e f δ s k k0 k1 k2 n x v0 v1 v2 : ℝ} (hs : s ^ 2 = 1) (hk : k ≠ 0) (hδ : 0 < δ) (hδ' : δ ≤ 3 / 4)
    (hn : n = (-k * k0) ^ 2 + (-k * k1) ^ 2 + (-k * k2) ^ 2) (u0 : v0 = s * (-k * k0) / Real.sqrt n) (u1 : v1 = s * (-k * k1) / Real.sqrt n)
    (u2 : v2 = s * (-k * k2) / Real.sqrt n) (hm : k0 ^ 2 + k1 ^ 2 + k2 ^ 2 = (3 - 2 * δ) * (x + 2) + δ ^ 2)
    (hq : quad3 a b c d e f k0 k1 k2 = (3 - 2 * δ) * (x + 2) + δ ^ 2 - δ ^ 2 * (1 - x)) (hx : 0 ≤ x) :
    v0 ^ 2 + v1 ^ 2 + v2 ^ 2 = 1 ∧ 1 - δ ^ 2 ≤ quad3 a b c d e f v0 v1 v2 := by
  obtain ⟨p1, p2⟩ := col_pos hδ hδ' hx
  have hmp : 0 < k0 ^ 2 + k1 ^ 2 + k2 ^ 2 := by rw [hm]; exact p1
  have hnm : n = k ^ 2 * (k0 ^ 2 + k1 ^ 2 + k2 ^ 2) := by rw [hn]; ring
  have hnp : 0 < n := by rw [hnm]; positivity
  set t := s * (-k) / Real.sqrt n with ht
  have w0 : v0 = t * k0 := by rw [u0, ht]; ring
  have w1 : v1 = t * k1 := by rw [u1, ht]; ring
  have w2 : v2 = t * k2 := by rw [u2, ht]; ring
  have t2 : t ^ 2 * (k0 ^ 2 + k1 ^ 2 + k2 ^ 2) = 1 := by
    rw [ht, div_pow, Real.sq_sqrt hnp.le, hnm, mul_pow, hs, neg_sq]
    field_simp
  rw [w0, w1, w2]
  refine ⟨by linear_combination t2, ?_⟩
  have e : quad3 a b c d e f (t * k0) (t * k1) (t * k2) = t ^ 2 * quad3 a b c d e f k0 k1 k2 := by unfold quad3; ring
  rw [e, hq]
  have : (1 - δ ^ 2) * (k0 ^ 2 + k1 ^ 2 + k2 ^ 2) ≤ (3 - 2 * δ) * (x + 2) + δ ^ 2 - δ ^ 2 * (1 - x) := by
    rw [hm]
    linarith [mul_le_mul_of_nonneg_left p2 (sq_nonneg δ)]
  calc 1 - δ ^ 2 = t ^ 2 * ((1 - δ ^ 2) * (k0 ^ 2 + k1 ^ 2 + k2 ^ 2)) := by linear_combination -(1 - δ ^ 2) * t2
    _ ≤ _ := mul_le_mul_of_nonneg_left this (sq_nonneg t)

/-- A double largest eigenvalue: with a slightly smaller value `1 - δ` in place of the eigenvalue 1, the direction is almost an eigenvector. -/
theorem crossDir_double {a b c d e f δ p : ℝ} (h1 : a + b + c = 0)
    (n00 : a ^ 2 + d ^ 2 + e ^ 2 + a - 2 = 0) (n11 : d ^ 2 + b ^ 2 + f ^ 2 + b - 2 = 0) (n22 : e ^ 2 + f ^ 2 + c ^ 2 + c - 2 = 0)
    (n01 : a * d + d * b + e * f + d = 0) (n02 : a * e + d * f + e * c + e = 0) (n12 : d * e + b * f + f * c + f = 0)
    (hδ : 0 < δ) (hδ' : δ ≤ 3 / 4) (hp : 0 < p) :
    let u := crossDir (symCol (p * (a - (1 - δ))) (p * (b - (1 - δ))) (p * (c - (1 - δ))) (p * d) (p * e) (p * f) 0)
      (symCol (p * (a - (1 - δ))) (p * (b - (1 - δ))) (p * (c - (1 - δ))) (p * d) (p * e) (p * f) 1)
      (symCol (p * (a - (1 - δ))) (p * (b - (1 - δ))) (p * (c - (1 - δ))) (p * d) (p * e) (p * f) 2)
    u 0 ^ 2 + u 1 ^ 2 + u 2 ^ 2 = 1 ∧ 1 - δ ^ 2 ≤ quad3 a b c d e f (u 0) (u 1) (u 2) := by
  intro u
  have hc' : c = -a - b := by linarith
  subst hc'
  obtain ⟨s, hs, hc⟩ := crossDir_sym (p * (a - (1 - δ))) (p * (b - (1 - δ))) (p * ((-a - b) - (1 - δ))) (p * d) (p * e) (p * f)
  -- the columns of the adjugate
  have e00 : p * (b - (1 - δ)) * (p * ((-a - b) - (1 - δ))) - p * f * (p * f) = -(p ^ 2 * δ) * (a + 2 - δ) := by
    linear_combination p ^ 2 * (n00 - n11 - n22) / 2
  have e11 : p * (a - (1 - δ)) * (p * ((-a - b) - (1 - δ))) - p * e * (p * e) = -(p ^ 2 * δ) * (b + 2 - δ) := by
    linear_combination p ^ 2 * (n11 - n00 - n22) / 2
  have e22 : p * (a - (1 - δ)) * (p * (b - (1 - δ))) - p * d * (p * d) = -(p ^ 2 * δ) * ((-a - b) + 2 - δ) := by
    linear_combination p ^ 2 * (n22 - n00 - n11) / 2
  have e01 : p * e * (p * f) - p * d * (p * ((-a - b) - (1 - δ))) = -(p ^ 2 * δ) * d := by linear_combination p ^ 2 * n01
  have e02 : p * d * (p * f) - p * (b - (1 - δ)) * (p * e) = -(p ^ 2 * δ) * e := by linear_combination p ^ 2 * n02
  have e12 : p * d * (p * e) - p * (a - (1 - δ)) * (p * f) = -(p ^ 2 * δ) * f := by linear_combination p ^ 2 * n12
  simp only [e00, e11, e22, e01, e02, e12] at hc
  have m0 := col_quad (δ := δ) n00 n01 n02
  have m1 := col_quad (a := b) (b := a) (c := -a - b) (d := d) (e := f) (f := e) (δ := δ) (by linarith) (by linarith) (by linarith)
  have m2 := col_quad (a := -a - b) (b := a) (c := b) (d := e) (e := f) (f := d) (δ := δ) (by linarith) (by linarith) (by linarith)
  have hk : 0 < (p ^ 2 * δ) ^ 2 := by positivity
  have hk0 : p ^ 2 * δ ≠ 0 := by positivity
  rcases hc with ⟨u0, u1, u2, g1, g2⟩ | ⟨u0, u1, u2, g1, g2⟩ | ⟨u0, u1, u2, g1, g2⟩
  · have c1 := col_cmp hδ' hk m1.2 m0.2 (by linarith)
    have c2 := col_cmp hδ' hk m2.2 m0.2 (by linarith)
    exact col_go hs hk0 hδ hδ' rfl u0 u1 u2 m0.2 m0.1 (by linarith)
  · have c1 := col_cmp hδ' hk m0.2 m1.2 (by linarith)
    have c2 := col_cmp hδ' hk m2.2 m1.2 (by linarith)
    refine col_go (x := b) hs hk0 hδ hδ' rfl u0 u1 u2 (by rw [← m1.2]; ring) ?_ (by linarith)
    rw [← m1.1]; unfold quad3; ring
  · have c1 := col_cmp hδ' hk m0.2 m2.2 (by linarith)
    have c2 := col_cmp hδ' hk m1.2 m2.2 (by linarith)
    refine col_go (x := -a - b) hs hk0 hδ hδ' rfl u0 u1 u2 (by rw [← m2.2]; ring) ?_ (by linarith)
    rw [← m2.1]; unfold quad3; ring

theorem third_delta {third η : ℝ} (h1 : Real.pi / 3 < third) (h2 : third ≤ Real.pi / 3 + η) (hη : η ≤ 1 / 4) :
    0 < 1 - 2 * Real.cos third ∧ 1 - 2 * Real.cos third ≤ 2 * η := by
  have pi3 := Real.pi_gt_three
  have hp : 0 < Real.pi / 3 := by linarith
  constructor
  · have := Real.cos_lt_cos_of_nonneg_of_le_pi (x := Real.pi / 3) (y := third) hp.le (by linarith) h1
    rw [Real.cos_pi_div_three] at this
    linarith
  · have hm : Real.cos (Real.pi / 3 + η) ≤ Real.cos third :=
      Real.cos_le_cos_of_nonneg_of_le_pi (by linarith) (by linarith) h2
    have h0 : 0 < η := by linarith
    rw [Real.cos_add, Real.cos_pi_div_three, Real.sin_pi_div_three] at hm
    have c1 := Real.one_sub_sq_div_two_le_cos (x := η)
    have c2 := Real.sin_le h0.le
    have c3 : Real.sqrt 3 ≤ 7 / 4 := by
      rw [Real.sqrt_le_left (by norm_num)]; norm_num
    have c4 : Real.sqrt 3 / 2 * Real.sin η ≤ 7 / 8 * η := by
      have h5 : 0 ≤ Real.sin η := Real.sin_nonneg_of_nonneg_of_le_pi h0.le (by linarith)
      calc Real.sqrt 3 / 2 * Real.sin η ≤ 7 / 8 * Real.sin η := mul_le_mul_of_nonneg_right (by linarith) h5
        _ ≤ _ := by linarith
    nlinarith

/-- The diagonal case: the axis of the largest diagonal entry. -/
theorem diagDir_spec (e0 e1 e2 : ℝ) :
    let u := diagDir e0 e1 e2
    u 0 ^ 2 + u 1 ^ 2 + u 2 ^ 2 = 1 ∧ u 0 * u 1 = 0 ∧ u 0 * u 2 = 0 ∧ u 1 * u 2 = 0 ∧ e0 ≤ e0 * u 0 ^ 2 + e1 * u 1 ^ 2 + e2 * u 2 ^ 2 ∧
      e1 ≤ e0 * u 0 ^ 2 + e1 * u 1 ^ 2 + e2 * u 2 ^ 2 ∧ e2 ≤ e0 * u 0 ^ 2 + e1 * u 1 ^ 2 + e2 * u 2 ^ 2 := by
  intro u
  by_cases h1 : e0 < e1
  · by_cases h2 : e1 < e2
    · have : u = vec3 0 0 1 := by show diagDir _ _ _ = _; simp only [diagDir]; rw [if_pos h1, if_pos h2]
      rw [this]; simp [vec3]; constructor <;> linarith
    · have : u = vec3 0 1 0 := by show diagDir _ _ _ = _; simp only [diagDir]; rw [if_pos h1, if_neg h2]
      rw [this]; simp [vec3]; constructor <;> linarith
  · by_cases h2 : e0 < e2
    · have : u = vec3 0 0 1 := by show diagDir _ _ _ = _; simp only [diagDir]; rw [if_neg h1, if_pos h2]
      rw [this]; simp [vec3]; constructor <;> linarith
    · have : u = vec3 1 0 0 := by show diagDir _ _ _ = _; simp only [diagDir]; rw [if_neg h1, if_neg h2]
      rw [this]; simp [vec3]; constructor <;> linarith

/-- Off-diagonal entries contribute little. -/
theorem offdiag_le {d e f ε x y z : ℝ} (h : d ^ 2 + e ^ 2 + f ^ 2 < ε) (hv : x ^ 2 + y ^ 2 + z ^ 2 = 1) :
    2 * (d * x * y + e * x * z + f * y * z) ≤ 2 * Real.sqrt ε := by
  have hε : 0 ≤ ε := by nlinarith [sq_nonneg d, sq_nonneg e, sq_nonneg f]
  have cs : (d * (x * y) + e * (x * z) + f * (y * z)) ^ 2 ≤ (d ^ 2 + e ^ 2 + f ^ 2) * ((x * y) ^ 2 + (x * z) ^ 2 + (y * z) ^ 2) := by
    nlinarith [sq_nonneg (d * (x * z) - e * (x * y)), sq_nonneg (d * (y * z) - f * (x * y)), sq_nonneg (e * (y * z) - f * (x * z))]
  have hb : (x * y) ^ 2 + (x * z) ^ 2 + (y * z) ^ 2 ≤ 1 := by
    have : (x ^ 2 + y ^ 2 + z ^ 2) ^ 2 = 1 := by rw [hv]; norm_num
    nlinarith [sq_nonneg (x ^ 2), sq_nonneg (y ^ 2), sq_nonneg (z ^ 2), sq_nonneg (x * y), sq_nonneg (x * z), sq_nonneg (y * z)]
  have hs : (d * (x * y) + e * (x * z) + f * (y * z)) ^ 2 ≤ ε := by
    refine cs.trans ?_
    calc _ ≤ (d ^ 2 + e ^ 2 + f ^ 2) * 1 := mul_le_mul_of_nonneg_left hb (by positivity)
      _ ≤ ε := by linarith
  have := Real.le_sqrt_of_sq_le hs
  linarith

theorem sum_sq_zero {x y z u v w : ℝ} (h : x ^ 2 + y ^ 2 + z ^ 2 + 2 * (u ^ 2 + v ^ 2 + w ^ 2) = 12 * (1 + -1)) :
    x = 0 ∧ y = 0 ∧ z = 0 ∧ u = 0 ∧ v = 0 ∧ w = 0 := by
  have hx := sq_nonneg x
  have hy := sq_nonneg y
  have hz := sq_nonneg z
  have hu := sq_nonneg u
  have hv := sq_nonneg v
  have hw := sq_nonneg w
  refine ⟨?_, ?_, ?_, ?_, ?_, ?_⟩ <;> refine pow_eq_zero_iff (two_ne_zero) |>.1 ?_ <;> linarith

theorem sq_le_four {δ η : ℝ} (h0 : 0 < δ) (h : δ ≤ 2 * η) : δ ^ 2 ≤ 4 * η ^ 2 := by nlinarith

theorem one_sub_four_sq {η : ℝ} (h0 : 0 < η) (h : η ≤ 1 / 4) : 0 ≤ 1 - 4 * η ^ 2 := by nlinarith

/-- The case of a matrix `q + p B` with `B` of trace 0 and norm `√6`. -/
theorem evp3_core {a b c d e f p q r ε third η : ℝ} (hε : 0 < ε) (h1 : Real.pi / 3 < third) (h2 : third ≤ Real.pi / 3 + η) (hη : η ≤ 1 / 4)
    (B1 : a + b + c = 0) (B2 : a ^ 2 + b ^ 2 + c ^ 2 + 2 * (d ^ 2 + e ^ 2 + f ^ 2) = 6)
    (B3 : a * (b * c - f * f) - d * (d * c - f * e) + e * (d * f - b * e) = 2 * r) (hpp : 0 < p) (hq0 : 0 ≤ q) {Q : ℝ → ℝ → ℝ → ℝ}
    (qf : ∀ x y z, Q x y z = q * (x ^ 2 + y ^ 2 + z ^ 2) + p * quad3 a b c d e f x y z) (psd : ∀ x y z, 0 ≤ Q x y z) {β : ℝ}
    (hβ : β = 2 * Real.cos (evpPhi third r)) {u : ℕ → ℝ}
    (hu : u = if |q + p * β| < ε then vec3 0 0 0 else
        crossDir (symCol (p * (a - β)) (p * (b - β)) (p * (c - β)) (p * d) (p * e) (p * f) 0)
          (symCol (p * (a - β)) (p * (b - β)) (p * (c - β)) (p * d) (p * e) (p * f) 1)
          (symCol (p * (a - β)) (p * (b - β)) (p * (c - β)) (p * d) (p * e) (p * f) 2)) :
    (u 0 ^ 2 + u 1 ^ 2 + u 2 ^ 2 = 1 ∧ ∀ x y z, x ^ 2 + y ^ 2 + z ^ 2 = 1 → (1 - 4 * η ^ 2) * Q x y z ≤ Q (u 0) (u 1) (u 2)) ∨
    ((u 0 = 0 ∧ u 1 = 0 ∧ u 2 = 0) ∧ ∀ x y z, x ^ 2 + y ^ 2 + z ^ 2 = 1 → Q x y z ≤ 2 * ε) := by
  obtain ⟨dl0, dl1⟩ := third_delta h1 h2 hη
  have hη0 : 0 < η := by linarith
  obtain ⟨r1, r2⟩ := r_bounds B1 B2 B3
  rcases lt_or_eq_of_le r1 with hr1 | hr1
  · -- simple largest eigenvalue
    obtain ⟨b1, b2⟩ := evpPhi_root (third := third) hr1 r2
    rw [← hβ] at b1 b2
    have up : ∀ x y z, x ^ 2 + y ^ 2 + z ^ 2 = 1 → Q x y z ≤ q + p * β := by
      intro x y z hv
      have := quad3_le B1 B2 B3 b1.le b2 x y z
      rw [qf, hv]
      rw [hv] at this
      linarith [mul_le_mul_of_nonneg_left this hpp.le]
    by_cases hz : |q + p * β| < ε
    · rw [if_pos hz] at hu
      refine Or.inr (⟨by rw [hu]; simp [vec3], fun x y z hv => ?_⟩)
      have := up x y z hv
      have := (abs_lt.1 hz).2
      linarith
    · rw [if_neg hz] at hu
      left
      have cB : c = -a - b := by linarith
      have k := crossDir_kernel (A := p * (a - β)) (B := p * (b - β)) (C := p * (c - β)) (D := p * d) (E := p * e) (F := p * f)
        (by
          have : (a - β) * ((b - β) * (c - β) - f * f) - d * (d * (c - β) - f * e) + e * (d * f - (b - β) * e) = 0 := by
            have B2' := B2
            have B3' := B3
            rw [cB] at B2' B3' ⊢
            linear_combination B3' - b2 + β / 2 * B2'
          linear_combination p ^ 3 * this)
        (by
          have : (a - β) * (b - β) + (a - β) * (c - β) + (b - β) * (c - β) - d ^ 2 - e ^ 2 - f ^ 2 = 3 * (β ^ 2 - 1) := by
            have B2' := B2
            rw [cB] at B2' ⊢
            linear_combination -1 / 2 * B2'
          have h3 : p * (a - β) * (p * (b - β)) + p * (a - β) * (p * (c - β)) + p * (b - β) * (p * (c - β)) - (p * d) ^ 2 - (p * e) ^ 2 - (p * f) ^ 2 =
            p ^ 2 * (3 * (β ^ 2 - 1)) := by rw [← this]; ring
          rw [h3]
          have : 0 < β ^ 2 - 1 := by nlinarith [b1]
          positivity)
      rw [← hu] at k
      obtain ⟨k0, k1, k2, k3⟩ := k
      refine ⟨k0, fun x y z hv => ?_⟩
      have e : Q (u 0) (u 1) (u 2) = q + p * β := by
        rw [qf, k0]
        unfold quad3
        linear_combination u 0 * k1 + u 1 * k2 + u 2 * k3 + p * β * k0
      rw [e]
      have h0 := psd x y z
      have h1 := up x y z hv
      have : 0 ≤ 4 * η ^ 2 * Q x y z := mul_nonneg (by positivity) h0
      linarith
  · -- double largest eigenvalue
    have hphi : β = 1 - (1 - 2 * Real.cos third) := by
      rw [hβ]; unfold evpPhi; rw [if_pos (by linarith)]; ring
    obtain ⟨δ, hδ⟩ : ∃ δ, δ = 1 - 2 * Real.cos third := ⟨_, rfl⟩
    rw [← hδ] at dl0 dl1 hphi
    have hN := norm_N B1 B2 B3
    rw [← hr1] at hN
    have up : ∀ x y z, x ^ 2 + y ^ 2 + z ^ 2 = 1 → Q x y z ≤ q + p := by
      intro x y z hv
      have := quad3_le B1 B2 B3 le_rfl (by rw [← hr1]; norm_num) x y z
      rw [qf, hv]
      rw [hv] at this
      linarith [mul_le_mul_of_nonneg_left this hpp.le]
    rw [hphi] at hu
    by_cases hz : |q + p * (1 - δ)| < ε
    · rw [if_pos hz] at hu
      refine Or.inr ⟨by rw [hu]; simp [vec3], fun x y z hv => (up x y z hv).trans ?_⟩
      have g := (abs_lt.1 hz).2
      have h5 : p * δ ≤ p * (1 / 2) := mul_le_mul_of_nonneg_left (by linarith) hpp.le
      linarith
    · rw [if_neg hz] at hu
      left
      obtain ⟨n0, n1, n2, n3, n4, n5⟩ := sum_sq_zero hN
      have k := crossDir_double (p := p) B1 n0 n1 n2 n3 n4 n5 dl0 (by linarith) hpp
      rw [← hu] at k
      refine ⟨k.1, fun x y z hv => ?_⟩
      rw [qf (u 0), k.1]
      have g1 := mul_le_mul_of_nonneg_left k.2 hpp.le
      have g2 := up x y z hv
      have g3 : δ ^ 2 ≤ 4 * η ^ 2 := sq_le_four dl0 dl1
      have g4 : p * δ ^ 2 ≤ p * (4 * η ^ 2) := mul_le_mul_of_nonneg_left g3 hpp.le
      have g5 : 0 ≤ 1 - 4 * η ^ 2 := one_sub_four_sq hη0 hη
      have g6 := mul_le_mul_of_nonneg_left g2 g5
      have g7 : 0 ≤ q * (4 * η ^ 2) := by positivity
      linarith

theorem crossDir_congr {c0 c1 c2 c0' c1' c2' : ℕ → ℝ} (h0 : ∀ i < 3, c0 i = c0' i) (h1 : ∀ i < 3, c1 i = c1' i) (h2 : ∀ i < 3, c2 i = c2' i) :
    crossDir c0 c1 c2 = crossDir c0' c1' c2' := by
  have e01 : crossCol c0 c1 = crossCol c0' c1' := by unfold crossCol; rw [h0 0, h0 1, h0 2, h1 0, h1 1, h1 2] <;> omega
  have e02 : crossCol c0 c2 = crossCol c0' c2' := by unfold crossCol; rw [h0 0, h0 1, h0 2, h2 0, h2 1, h2 2] <;> omega
  have e12 : crossCol c1 c2 = crossCol c1' c2' := by unfold crossCol; rw [h1 0, h1 1, h1 2, h2 0, h2 1, h2 2] <;> omega
  unfold crossDir
  rw [e01, e02, e12]

/-- The matrix is shifted and scaled to trace 0 and norm `√6`. -/
theorem evp3_normalize {A B C D E F q p : ℝ} (hq : q = (A + B + C) / 3)
    (hp : p = Real.sqrt (((A - q) ^ 2 + (B - q) ^ 2 + (C - q) ^ 2 + 2 * (D ^ 2 + E ^ 2 + F ^ 2)) / 6)) (h0 : 0 < D ^ 2 + E ^ 2 + F ^ 2) :
    0 < p ∧ 1 / p * (A - q) + 1 / p * (B - q) + 1 / p * (C - q) = 0 ∧
      (1 / p * (A - q)) ^ 2 + (1 / p * (B - q)) ^ 2 + (1 / p * (C - q)) ^ 2 + 2 * ((1 / p * D) ^ 2 + (1 / p * E) ^ 2 + (1 / p * F) ^ 2) = 6 := by
  obtain ⟨p2, hp2⟩ : ∃ p2, p2 = (A - q) ^ 2 + (B - q) ^ 2 + (C - q) ^ 2 + 2 * (D ^ 2 + E ^ 2 + F ^ 2) := ⟨_, rfl⟩
  rw [← hp2] at hp
  have hp2pos : 0 < p2 := by
    have : 0 ≤ (A - q) ^ 2 + (B - q) ^ 2 + (C - q) ^ 2 := by positivity
    linarith
  have hpp : 0 < p := by rw [hp]; exact Real.sqrt_pos.2 (by positivity)
  have hpsq : p ^ 2 = p2 / 6 := by rw [hp]; exact Real.sq_sqrt (by positivity)
  refine ⟨hpp, ?_, ?_⟩
  · have : A - q + (B - q) + (C - q) = 0 := by rw [hq]; ring
    linear_combination 1 / p * this
  · have h6 : p ^ 2 * 6 = (A - q) ^ 2 + (B - q) ^ 2 + (C - q) ^ 2 + 2 * (D ^ 2 + E ^ 2 + F ^ 2) := by rw [hpsq, ← hp2]; ring
    field_simp
    linear_combination -h6

/-- The non-diagonal case of `solve_EVP_3` in terms of the normalized matrix. -/
theorem solveEVP3_eq {ε : ℝ} (third : ℝ) {cov : ℕ → ℕ → ℝ} (sym : ∀ i j, cov i j = cov j i) (hp1 : ¬ cov 0 1 ^ 2 + cov 0 2 ^ 2 + cov 1 2 ^ 2 < ε) {q p : ℝ}
    (hq : q = (cov 0 0 + cov 1 1 + cov 2 2) / 3)
    (hp : p = Real.sqrt (((cov 0 0 - q) ^ 2 + (cov 1 1 - q) ^ 2 + (cov 2 2 - q) ^ 2 + 2 * (cov 0 1 ^ 2 + cov 0 2 ^ 2 + cov 1 2 ^ 2)) / 6)) (hpp : 0 < p) :
    let a := 1 / p * (cov 0 0 - q)
    let b := 1 / p * (cov 1 1 - q)
    let c := 1 / p * (cov 2 2 - q)
    let d := 1 / p * cov 0 1
    let e := 1 / p * cov 0 2
    let f := 1 / p * cov 1 2
    let β := 2 * Real.cos (evpPhi third ((a * (b * c - f * f) - d * (d * c - f * e) + e * (d * f - b * e)) / 2))
    solveEVP3 ε third cov = if |q + p * β| < ε then vec3 0 0 0 else
        crossDir (symCol (p * (a - β)) (p * (b - β)) (p * (c - β)) (p * d) (p * e) (p * f) 0)
          (symCol (p * (a - β)) (p * (b - β)) (p * (c - β)) (p * d) (p * e) (p * f) 1)
          (symCol (p * (a - β)) (p * (b - β)) (p * (c - β)) (p * d) (p * e) (p * f) 2) := by
  intro a b c d e f β
  have s10 := sym 1 0
  have s20 := sym 2 0
  have s21 := sym 2 1
  simp only [solveEVP3]
  rw [if_neg hp1, ← hq, ← hp]
  have i00 : idMat 0 0 = 1 := rfl
  have i11 : idMat 1 1 = 1 := rfl
  have i22 : idMat 2 2 = 1 := rfl
  have i01 : idMat 0 1 = 0 := rfl
  have i02 : idMat 0 2 = 0 := rfl
  have i10 : idMat 1 0 = 0 := rfl
  have i12 : idMat 1 2 = 0 := rfl
  have i20 : idMat 2 0 = 0 := rfl
  have i21 : idMat 2 1 = 0 := rfl
  simp only [i00, i11, i22, i01, i02, i10, i12, i20, i21, mul_one, mul_zero, sub_zero, s10, s20, s21]
  have eβ : q + 2 * p * Real.cos (evpPhi third ((a * (b * c - f * f) - d * (d * c - f * e) + e * (d * f - b * e)) / 2)) = q + p * β := by
    show _ = q + p * (2 * _); ring
  rw [show (1 / p * (cov 0 0 - q)) = a from rfl, show (1 / p * (cov 1 1 - q)) = b from rfl, show (1 / p * (cov 2 2 - q)) = c from rfl,
    show 1 / p * cov 0 1 = d from rfl, show 1 / p * cov 0 2 = e from rfl, show 1 / p * cov 1 2 = f from rfl, eβ]
  have ra : cov 0 0 = q + p * a := by show _ = q + p * (1 / p * (cov 0 0 - q)); field_simp; ring
  have rb : cov 1 1 = q + p * b := by show _ = q + p * (1 / p * (cov 1 1 - q)); field_simp; ring
  have rc : cov 2 2 = q + p * c := by show _ = q + p * (1 / p * (cov 2 2 - q)); field_simp; ring
  have rd : cov 0 1 = p * d := by show _ = p * (1 / p * cov 0 1); field_simp
  have re : cov 0 2 = p * e := by show _ = p * (1 / p * cov 0 2); field_simp
  have rf : cov 1 2 = p * f := by show _ = p * (1 / p * cov 1 2); field_simp
  congr 1
  refine crossDir_congr ?_ ?_ ?_ <;> intro i hi <;> interval_cases i <;>
    simp only [i00, i11, i22, i01, i02, i10, i12, i20, i21, symCol, s10, s20, s21] <;> simp [vec3] <;>
    first | linear_combination ra | linear_combination rb | linear_combination rc | linear_combination rd | linear_combination re | linear_combination rf

/-- `solve_EVP_3`. -/
theorem solveEVP3_spec {ε third η : ℝ} (hε : 0 < ε) (h1 : Real.pi / 3 < third) (h2 : third ≤ Real.pi / 3 + η) (hη : η ≤ 1 / 4) {cov : ℕ → ℕ → ℝ}
    (sym : ∀ i j, cov i j = cov j i)
    (psd : ∀ x y z, 0 ≤ quad3 (cov 0 0) (cov 1 1) (cov 2 2) (cov 0 1) (cov 0 2) (cov 1 2) x y z) :
    let u := solveEVP3 ε third cov
    let Q := quad3 (cov 0 0) (cov 1 1) (cov 2 2) (cov 0 1) (cov 0 2) (cov 1 2)
    (u 0 ^ 2 + u 1 ^ 2 + u 2 ^ 2 = 1 ∧ ∀ x y z, x ^ 2 + y ^ 2 + z ^ 2 = 1 → (1 - 4 * η ^ 2) * Q x y z ≤ Q (u 0) (u 1) (u 2)) ∨
    (cov 0 1 ^ 2 + cov 0 2 ^ 2 + cov 1 2 ^ 2 < ε ∧ u 0 ^ 2 + u 1 ^ 2 + u 2 ^ 2 = 1 ∧
      ∀ x y z, x ^ 2 + y ^ 2 + z ^ 2 = 1 → Q x y z ≤ Q (u 0) (u 1) (u 2) + 2 * Real.sqrt ε) ∨
    ((u 0 = 0 ∧ u 1 = 0 ∧ u 2 = 0) ∧ ∀ x y z, x ^ 2 + y ^ 2 + z ^ 2 = 1 → Q x y z ≤ 2 * ε) := by
  intro u Q
  by_cases hp1 : cov 0 1 ^ 2 + cov 0 2 ^ 2 + cov 1 2 ^ 2 < ε
  · refine Or.inr (Or.inl ⟨hp1, ?_⟩)
    have hu : u = diagDir (cov 0 0) (cov 1 1) (cov 2 2) := by show solveEVP3 _ _ _ = _; simp only [solveEVP3]; rw [if_pos hp1]
    obtain ⟨g0, g1, g2, g3, g4, g5, g6⟩ := diagDir_spec (cov 0 0) (cov 1 1) (cov 2 2)
    rw [← hu] at g0 g1 g2 g3 g4 g5 g6
    refine ⟨g0, fun x y z hv => ?_⟩
    have := offdiag_le hp1 hv
    have e : Q (u 0) (u 1) (u 2) = cov 0 0 * u 0 ^ 2 + cov 1 1 * u 1 ^ 2 + cov 2 2 * u 2 ^ 2 := by
      show quad3 _ _ _ _ _ _ _ _ _ = _
      unfold quad3
      linear_combination 2 * (cov 0 1 * g1 + cov 0 2 * g2 + cov 1 2 * g3)
    rw [e]
    set m := cov 0 0 * u 0 ^ 2 + cov 1 1 * u 1 ^ 2 + cov 2 2 * u 2 ^ 2
    show quad3 _ _ _ _ _ _ _ _ _ ≤ _
    unfold quad3
    have a0 := mul_le_mul_of_nonneg_right g4 (sq_nonneg x)
    have a1 := mul_le_mul_of_nonneg_right g5 (sq_nonneg y)
    have a2 := mul_le_mul_of_nonneg_right g6 (sq_nonneg z)
    have : m * x ^ 2 + m * y ^ 2 + m * z ^ 2 = m := by linear_combination m * hv
    linarith
  · have hp1' := not_lt.1 hp1
    obtain ⟨q, hq⟩ : ∃ q, q = (cov 0 0 + cov 1 1 + cov 2 2) / 3 := ⟨_, rfl⟩
    obtain ⟨p, hp⟩ : ∃ p, p = Real.sqrt (((cov 0 0 - q) ^ 2 + (cov 1 1 - q) ^ 2 + (cov 2 2 - q) ^ 2 +
        2 * (cov 0 1 ^ 2 + cov 0 2 ^ 2 + cov 1 2 ^ 2)) / 6) := ⟨_, rfl⟩
    obtain ⟨hpp, B1, B2⟩ := evp3_normalize hq hp (by linarith)
    have hq0 : 0 ≤ q := by
      have t0 := psd 1 0 0
      have t1 := psd 0 1 0
      have t2 := psd 0 0 1
      unfold quad3 at t0 t1 t2
      have : 0 ≤ cov 0 0 + cov 1 1 + cov 2 2 := by linarith
      rw [hq]
      positivity
    have hu := solveEVP3_eq third sym hp1 hq hp hpp
    have qf : ∀ x y z, Q x y z = q * (x ^ 2 + y ^ 2 + z ^ 2) + p * quad3 (1 / p * (cov 0 0 - q)) (1 / p * (cov 1 1 - q)) (1 / p * (cov 2 2 - q))
        (1 / p * cov 0 1) (1 / p * cov 0 2) (1 / p * cov 1 2) x y z := by
      intro x y z
      show quad3 _ _ _ _ _ _ _ _ _ = _
      unfold quad3
      field_simp
      ring
    rcases evp3_core hε h1 h2 hη B1 B2 (by ring) hpp hq0 qf psd rfl hu with h | h
    · exact Or.inl h
    · exact Or.inr (Or.inr h)

/-! ## Symmetric matrices of size 2 -/

/-- The quadratic form of a symmetric matrix of size 2. -/
def quad2 (a b d x y : ℝ) : ℝ := a * x ^ 2 + b * y ^ 2 + 2 * (d * x * y)

/-- The two eigenvalues `s ± t`. -/
theorem eig2 {a b d t : ℝ} (ht : t = Real.sqrt ((a + b) * (a + b) / 4 - (a * b - d * d))) :
    0 ≤ t ∧ t ^ 2 = ((a - b) / 2) ^ 2 + d ^ 2 := by
  have e : (a + b) * (a + b) / 4 - (a * b - d * d) = ((a - b) / 2) ^ 2 + d ^ 2 := by ring
  rw [e] at ht
  rw [ht]
  exact ⟨Real.sqrt_nonneg _, Real.sq_sqrt (by positivity)⟩

theorem quad2_le {a b d t : ℝ} (h0 : 0 ≤ t) (h : t ^ 2 = ((a - b) / 2) ^ 2 + d ^ 2) (x y : ℝ) (hv : x ^ 2 + y ^ 2 = 1) :
    quad2 a b d x y ≤ (a + b) / 2 + t := by
  have e : quad2 a b d x y = (a + b) / 2 + ((a - b) / 2 * (x ^ 2 - y ^ 2) + d * (2 * x * y)) := by
    unfold quad2; linear_combination (a + b) / 2 * hv
  have n : (x ^ 2 - y ^ 2) ^ 2 + (2 * x * y) ^ 2 = 1 := by linear_combination (x ^ 2 + y ^ 2 + 1) * hv
  have cs : ((a - b) / 2 * (x ^ 2 - y ^ 2) + d * (2 * x * y)) ^ 2 ≤ t ^ 2 := by
    have : t ^ 2 - ((a - b) / 2 * (x ^ 2 - y ^ 2) + d * (2 * x * y)) ^ 2 = ((a - b) / 2 * (2 * x * y) - d * (x ^ 2 - y ^ 2)) ^ 2 := by
      linear_combination h - (((a - b) / 2) ^ 2 + d ^ 2) * n
    nlinarith [sq_nonneg ((a - b) / 2 * (2 * x * y) - d * (x ^ 2 - y ^ 2))]
  have := abs_le_of_sq_le_sq cs h0
  rw [e]
  linarith [(abs_le.1 this).2]

theorem sqrt_lt_abs {a b ε : ℝ} (h : Real.sqrt (a * a + b * b) < ε) : |a| < ε := by
  refine lt_of_le_of_lt ?_ h
  refine Real.abs_le_sqrt ?_
  nlinarith [sq_nonneg b]

/-- A normalized column of `cov - λ₁` is a unit eigenvector for `λ₀`. -/
theorem col2_spec {a b d t A B n ε : ℝ} (h : t ^ 2 = ((a - b) / 2) ^ 2 + d ^ 2) (hε : 0 < ε) (hn : n = Real.sqrt (A * A + B * B)) (hne : ¬ n < ε)
    (hAB : (A = a - ((a + b) / 2 - t) ∧ B = d) ∨ (A = d ∧ B = b - ((a + b) / 2 - t))) :
    (A / n) ^ 2 + (B / n) ^ 2 = 1 ∧ quad2 a b d (A / n) (B / n) = (a + b) / 2 + t := by
  have hn0 : 0 < n := lt_of_lt_of_le hε (not_lt.1 hne)
  have hsq : n ^ 2 = A * A + B * B := by rw [hn]; exact Real.sq_sqrt (by nlinarith [sq_nonneg A, sq_nonneg B])
  have u : (A / n) ^ 2 + (B / n) ^ 2 = 1 := by
    rw [div_pow, div_pow, ← add_div, div_eq_one_iff_eq (by positivity), hsq]; ring
  refine ⟨u, ?_⟩
  have q : a * A ^ 2 + b * B ^ 2 + 2 * (d * A * B) = ((a + b) / 2 + t) * (A * A + B * B) := by
    rcases hAB with ⟨rfl, rfl⟩ | ⟨rfl, rfl⟩
    · linear_combination (-(a - b) / 2 - t) * h
    · linear_combination ((a - b) / 2 - t) * h
  have e : quad2 a b d (A / n) (B / n) = (a * A ^ 2 + b * B ^ 2 + 2 * (d * A * B)) / n ^ 2 := by
    unfold quad2; field_simp
  rw [e, q, ← hsq, mul_div_assoc, div_self (by positivity), mul_one]

/-- `solve_EVP_2`. -/
theorem solveEVP2_spec {ε : ℝ} (hε : 0 < ε) {cov : ℕ → ℕ → ℝ} (sym : ∀ i j, cov i j = cov j i) :
    let u := solveEVP2 ε cov
    let Q := quad2 (cov 0 0) (cov 1 1) (cov 0 1)
    (u 0 ^ 2 + u 1 ^ 2 = 1 ∧ ∀ x y, x ^ 2 + y ^ 2 = 1 → Q x y ≤ Q (u 0) (u 1)) ∨
    ((u 0 = 1 ∧ u 1 = 0) ∧ |cov 0 1| < ε ∧ ∀ x y, x ^ 2 + y ^ 2 = 1 → Q x y ≤ Q (u 0) (u 1) + ε) ∨
    ((u 0 = 0 ∧ u 1 = 0) ∧ ∀ x y, x ^ 2 + y ^ 2 = 1 → Q x y ≤ ε) := by
  intro u Q
  obtain ⟨t, ht⟩ : ∃ t, t = Real.sqrt ((cov 0 0 + cov 1 1) * (cov 0 0 + cov 1 1) / 4 - (cov 0 0 * cov 1 1 - cov 0 1 * cov 0 1)) := ⟨_, rfl⟩
  obtain ⟨t0, t2⟩ := eig2 ht
  have i00 : idMat 0 0 = 1 := rfl
  have i11 : idMat 1 1 = 1 := rfl
  have i01 : idMat 0 1 = 0 := rfl
  have i10 : idMat 1 0 = 0 := rfl
  have hu : u = solveEVP2 ε cov := rfl
  simp only [solveEVP2, sym 1 0, ← ht] at hu
  by_cases h0 : |(cov 0 0 + cov 1 1) / 2 + t| > ε
  · rw [if_pos h0] at hu
    by_cases n0 : Real.sqrt ((cov 0 0 - ((cov 0 0 + cov 1 1) / 2 - t)) * (cov 0 0 - ((cov 0 0 + cov 1 1) / 2 - t)) + cov 0 1 * cov 0 1) < ε
    · by_cases n1 : Real.sqrt (cov 0 1 * cov 0 1 + (cov 1 1 - ((cov 0 0 + cov 1 1) / 2 - t)) * (cov 1 1 - ((cov 0 0 + cov 1 1) / 2 - t))) < ε
      · right; left
        simp only [i00, i11, i01, i10, mul_one, mul_zero, sub_zero, n0, n1, if_true] at hu
        have hu0 : u 0 = 1 ∧ u 1 = 0 := by rw [hu]; simp [vec3]
        refine ⟨hu0, ?_, fun x y hv => ?_⟩
        · exact sqrt_lt_abs n1
        · have := quad2_le t0 t2 x y hv
          rw [add_comm] at n1
          have n1' := (abs_lt.1 (sqrt_lt_abs n1)).2
          have : Q (u 0) (u 1) = cov 0 0 := by
            show quad2 _ _ _ _ _ = _
            rw [hu0.1, hu0.2]; unfold quad2; ring
          show quad2 _ _ _ _ _ ≤ _
          linarith
      · left
        simp only [i00, i11, i01, i10, mul_one, mul_zero, sub_zero, n0, if_true] at hu
        rw [if_neg n1] at hu
        have hs := col2_spec t2 hε rfl n1 (Or.inr ⟨rfl, rfl⟩)
        have hu0 := congrFun hu 0
        have hu1 := congrFun hu 1
        simp only [vec3, if_true, one_ne_zero, if_false] at hu0 hu1
        rw [← hu0, ← hu1] at hs
        exact ⟨hs.1, fun x y hv => (quad2_le t0 t2 x y hv).trans hs.2.ge⟩
    · left
      simp only [i00, i11, i01, i10, mul_one, mul_zero, sub_zero, n0, if_false, sym 1 0] at hu
      have hs := col2_spec t2 hε rfl n0 (Or.inl ⟨rfl, rfl⟩)
      have hu0 := congrFun hu 0
      have hu1 := congrFun hu 1
      simp only [vec3, if_true, one_ne_zero, if_false] at hu0 hu1
      rw [← hu0, ← hu1] at hs
      exact ⟨hs.1, fun x y hv => (quad2_le t0 t2 x y hv).trans hs.2.ge⟩
  · rw [if_neg h0] at hu
    refine Or.inr (Or.inr ⟨by rw [hu]; simp [vec3], fun x y hv => (quad2_le t0 t2 x y hv).trans ?_⟩)
    exact (abs_le.1 (not_lt.1 h0)).2

/-! ## The quadratic form of the covariance matrix -/

theorem covMat_eq (dim : ℕ) (x w center : ℕ → ℝ) (pts : List ℕ) (p q : ℕ) :
    covMat dim x w center pts p q = (pts.map fun i => w i * (coord dim x i p - center p) * (coord dim x i q - center q)).sum := by
  unfold covMat
  rw [← List.foldl_map (f := fun i => w i * (coord dim x i p - center p) * (coord dim x i q - center q)) (g := fun a b => a + b)]
  exact (List.sum_eq_foldl).symm

theorem covMat_sym (dim : ℕ) (x w center : ℕ → ℝ) (pts : List ℕ) (p q : ℕ) : covMat dim x w center pts p q = covMat dim x w center pts q p := by
  rw [covMat_eq, covMat_eq]
  congr 1
  exact List.map_congr_left fun i _ => by ring

end Htool
