import Verif.Direction

/-! # C61: the splitting direction is the direction of largest extent

The specification is `spread`: the weighted sum, over the points of the cluster, of the squared component of `point - center` along a direction. -/

namespace Htool
open Finset

/-- The component along `d` of the vector from the center to point `i`. -/
def along (dim : ℕ) (x center : ℕ → ℝ) (d : ℕ → ℝ) (i : ℕ) : ℝ := ∑ p ∈ range dim, (coord dim x i p - center p) * d p

/-- The weighted spread of the points along `d`. -/
def spread (dim : ℕ) (x w center : ℕ → ℝ) (pts : List ℕ) (d : ℕ → ℝ) : ℝ := (pts.map fun i => w i * along dim x center d i ^ 2).sum

/-- `d` has length 1. -/
def UnitDir (dim : ℕ) (d : ℕ → ℝ) : Prop := ∑ p ∈ range dim, d p ^ 2 = 1

theorem spread_two (x w center : ℕ → ℝ) (pts : List ℕ) (d : ℕ → ℝ) :
    spread 2 x w center pts d = quad2 (covMat 2 x w center pts 0 0) (covMat 2 x w center pts 1 1) (covMat 2 x w center pts 0 1) (d 0) (d 1) := by
  simp only [covMat_eq, spread, along, quad2, sum_range_succ, sum_range_zero, zero_add]
  induction pts with
  | nil => simp
  | cons i l ih => simp only [List.map_cons, List.sum_cons]; rw [ih]; ring

theorem spread_three (x w center : ℕ → ℝ) (pts : List ℕ) (d : ℕ → ℝ) :
    spread 3 x w center pts d = quad3 (covMat 3 x w center pts 0 0) (covMat 3 x w center pts 1 1) (covMat 3 x w center pts 2 2)
      (covMat 3 x w center pts 0 1) (covMat 3 x w center pts 0 2) (covMat 3 x w center pts 1 2) (d 0) (d 1) (d 2) := by
  simp only [covMat_eq, spread, along, quad3, sum_range_succ, sum_range_zero, zero_add]
  induction pts with
  | nil => simp
  | cons i l ih => simp only [List.map_cons, List.sum_cons]; rw [ih]; ring

theorem spread_nonneg {dim : ℕ} {x w center : ℕ → ℝ} {pts : List ℕ} (hw : ∀ i ∈ pts, 0 ≤ w i) (d : ℕ → ℝ) : 0 ≤ spread dim x w center pts d := by
  refine List.sum_nonneg fun y hy => ?_
  obtain ⟨i, hi, rfl⟩ := List.mem_map.1 hy
  exact mul_nonneg (hw i hi) (sq_nonneg _)

/-- **C61 (dimension 2).** The direction is a unit vector along which the points spread at least as much as along any other, up to the machine epsilon, unless the
points do not spread (up to epsilon) in any direction: then the zero vector is returned. Holds for weights of any sign. -/
theorem C61_direction_2D {ε : ℝ} (hε : 0 < ε) (third : ℝ) (x w center : ℕ → ℝ) (pts : List ℕ) :
    let u := largestExtent ε third 2 x w center pts
    (UnitDir 2 u ∧ ∀ v, UnitDir 2 v → spread 2 x w center pts v ≤ spread 2 x w center pts u + ε) ∨
    ((u 0 = 0 ∧ u 1 = 0) ∧ ∀ v, UnitDir 2 v → spread 2 x w center pts v ≤ ε) := by
  intro u
  have hu : u = solveEVP2 ε (covMat 2 x w center pts) := by show largestExtent _ _ _ _ _ _ _ = _; simp [largestExtent]
  have un : ∀ v : ℕ → ℝ, UnitDir 2 v ↔ v 0 ^ 2 + v 1 ^ 2 = 1 := by intro v; simp [UnitDir, sum_range_succ]
  simp only [spread_two, un]
  rcases solveEVP2_spec hε (covMat_sym 2 x w center pts) with h | h | h
  · left; rw [hu]; exact ⟨h.1, fun v hv => (h.2 _ _ hv).trans (by linarith)⟩
  · left
    rw [hu]
    obtain ⟨⟨h0, h1⟩, h2, h3⟩ := h
    exact ⟨by rw [h0, h1]; norm_num, fun v hv => h3 _ _ hv⟩
  · right; rw [hu]; exact ⟨h.1, fun v hv => h.2 _ _ hv⟩

/-- **C61 (dimension 3).** With nonnegative weights and a literal for `π/3` that is larger than `π/3` by at most `η`: the direction is a unit vector along which the
points spread at least `1 - 4 η²` times as much as along any other unit vector; or the covariances are small (sum of squares below the machine epsilon) and the
direction is the best one up to `2 √ε`; or the points do not spread (up to `2 ε`) and the zero vector is returned. -/
theorem C61_direction_3D {ε third η : ℝ} (hε : 0 < ε) (h1 : Real.pi / 3 < third) (h2 : third ≤ Real.pi / 3 + η) (hη : η ≤ 1 / 4) {x w center : ℕ → ℝ}
    {pts : List ℕ} (hw : ∀ i ∈ pts, 0 ≤ w i) :
    let u := largestExtent ε third 3 x w center pts
    (UnitDir 3 u ∧ ∀ v, UnitDir 3 v → (1 - 4 * η ^ 2) * spread 3 x w center pts v ≤ spread 3 x w center pts u) ∨
    (UnitDir 3 u ∧ covMat 3 x w center pts 0 1 ^ 2 + covMat 3 x w center pts 0 2 ^ 2 + covMat 3 x w center pts 1 2 ^ 2 < ε ∧
      ∀ v, UnitDir 3 v → spread 3 x w center pts v ≤ spread 3 x w center pts u + 2 * Real.sqrt ε) ∨
    ((u 0 = 0 ∧ u 1 = 0 ∧ u 2 = 0) ∧ ∀ v, UnitDir 3 v → spread 3 x w center pts v ≤ 2 * ε) := by
  intro u
  have hu : u = solveEVP3 ε third (covMat 3 x w center pts) := by show largestExtent _ _ _ _ _ _ _ = _; simp [largestExtent]
  have un : ∀ v : ℕ → ℝ, UnitDir 3 v ↔ v 0 ^ 2 + v 1 ^ 2 + v 2 ^ 2 = 1 := by intro v; simp [UnitDir, sum_range_succ]
  have psd : ∀ a b c, 0 ≤ quad3 (covMat 3 x w center pts 0 0) (covMat 3 x w center pts 1 1) (covMat 3 x w center pts 2 2)
      (covMat 3 x w center pts 0 1) (covMat 3 x w center pts 0 2) (covMat 3 x w center pts 1 2) a b c := by
    intro a b c
    have := spread_nonneg (dim := 3) (x := x) (center := center) hw (vec3 a b c)
    rw [spread_three] at this
    simpa [vec3] using this
  simp only [spread_three, un]
  rcases solveEVP3_spec hε h1 h2 hη (covMat_sym 3 x w center pts) psd with h | h | h
  · left; rw [hu]; exact ⟨h.1, fun v hv => h.2 _ _ _ hv⟩
  · right; left; rw [hu]; exact ⟨h.2.1, h.1, fun v hv => h.2.2 _ _ _ hv⟩
  · right; right; rw [hu]; exact ⟨h.1, fun v hv => h.2 _ _ _ hv⟩

/-- The literal of the code (evp.hpp 97) is larger than `π/3`, by less than `10⁻¹⁵`. -/
theorem C61_literal : Real.pi / 3 < 1.047197551196598 ∧ (1.047197551196598 : ℝ) ≤ Real.pi / 3 + 1e-15 := by
  have a := Real.pi_gt_d20
  have b := Real.pi_lt_d20
  constructor <;> norm_num at a b ⊢ <;> linarith

/-- **C61 (dimension 3, the literal of the code).** With the constants of the code (`ε = 2⁻⁵²`, double precision). -/
theorem C61_direction_3D_double {x w center : ℕ → ℝ} {pts : List ℕ} (hw : ∀ i ∈ pts, 0 ≤ w i) :
    let u := largestExtent (1 / 2 ^ 52) 1.047197551196598 3 x w center pts
    (UnitDir 3 u ∧ ∀ v, UnitDir 3 v → (1 - 1e-29) * spread 3 x w center pts v ≤ spread 3 x w center pts u + 1 / 2 ^ 25) ∨
    ((u 0 = 0 ∧ u 1 = 0 ∧ u 2 = 0) ∧ ∀ v, UnitDir 3 v → spread 3 x w center pts v ≤ 1 / 2 ^ 51) := by
  intro u
  have s25 : 2 * Real.sqrt (1 / 2 ^ 52) = 1 / 2 ^ 25 := by
    have : (1 / 2 ^ 52 : ℝ) = (1 / 2 ^ 26) ^ 2 := by norm_num
    rw [this, Real.sqrt_sq (by positivity)]; norm_num
  rcases C61_direction_3D (ε := 1 / 2 ^ 52) (by positivity) C61_literal.1 C61_literal.2 (by norm_num) (x := x) (center := center) hw with h | h | h
  · refine Or.inl ⟨h.1, fun v hv => ?_⟩
    have a := h.2 v hv
    have b := spread_nonneg (dim := 3) (x := x) (center := center) hw v
    have : (1 - 1e-29) * spread 3 x w center pts v ≤ (1 - 4 * (1e-15) ^ 2) * spread 3 x w center pts v :=
      mul_le_mul_of_nonneg_right (by norm_num) b
    have c : (0 : ℝ) ≤ 1 / 2 ^ 25 := by positivity
    exact this.trans (a.trans (le_add_of_nonneg_right c))
  · refine Or.inl ⟨h.1, fun v hv => ?_⟩
    have a := h.2.2 v hv
    have b := spread_nonneg (dim := 3) (x := x) (center := center) hw v
    rw [s25] at a
    refine le_trans ?_ a
    have : (0 : ℝ) ≤ 1e-29 * spread 3 x w center pts v := by positivity
    linarith
  · refine Or.inr ⟨h.1, fun v hv => (h.2 v hv).trans (by norm_num)⟩

/-- With the exact value of `π/3` instead, the 3D direction of a point set whose two largest variances agree would not be a unit vector: all cross products vanish
(in the code, a division of 0 by 0). Here the covariance matrix is `4/3 I` minus `1/3` of the all-ones matrix. -/
theorem C61_exact_third_degenerate :
    let cov : ℕ → ℕ → ℝ := fun i j => (if i = j then 4 / 3 else 0) - 1 / 3
    let u := solveEVP3 (1 / 2 ^ 52) (Real.pi / 3) cov
    ¬ (u 0 ^ 2 + u 1 ^ 2 + u 2 ^ 2 = 1) := by
  intro cov u
  have sym : ∀ i j, cov i j = cov j i := by
    intro i j
    show (if i = j then (4 / 3 : ℝ) else 0) - 1 / 3 = (if j = i then 4 / 3 else 0) - 1 / 3
    by_cases h : i = j
    · rw [if_pos h, if_pos h.symm]
    · rw [if_neg h, if_neg (Ne.symm h)]
  have c00 : cov 0 0 = 1 := by show (if 0 = 0 then (4 / 3 : ℝ) else 0) - 1 / 3 = 1; norm_num
  have c11 : cov 1 1 = 1 := by show (if 1 = 1 then (4 / 3 : ℝ) else 0) - 1 / 3 = 1; norm_num
  have c22 : cov 2 2 = 1 := by show (if 2 = 2 then (4 / 3 : ℝ) else 0) - 1 / 3 = 1; norm_num
  have c01 : cov 0 1 = -1 / 3 := by show (if 0 = 1 then (4 / 3 : ℝ) else 0) - 1 / 3 = _; norm_num
  have c02 : cov 0 2 = -1 / 3 := by show (if 0 = 2 then (4 / 3 : ℝ) else 0) - 1 / 3 = _; norm_num
  have c12 : cov 1 2 = -1 / 3 := by show (if 1 = 2 then (4 / 3 : ℝ) else 0) - 1 / 3 = _; norm_num
  have hp : (1 / 3 : ℝ) = Real.sqrt (((cov 0 0 - 1) ^ 2 + (cov 1 1 - 1) ^ 2 + (cov 2 2 - 1) ^ 2 + 2 * (cov 0 1 ^ 2 + cov 0 2 ^ 2 + cov 1 2 ^ 2)) / 6) := by
    rw [c00, c11, c22, c01, c02, c12, eq_comm, show (((1 - 1) ^ 2 + (1 - 1) ^ 2 + (1 - 1) ^ 2 + 2 * ((-1 / 3) ^ 2 + (-1 / 3) ^ 2 + (-1 / 3) ^ 2)) / 6 : ℝ) =
      (1 / 3) ^ 2 by norm_num, Real.sqrt_sq (by norm_num)]
  have h := solveEVP3_eq (ε := 1 / 2 ^ 52) (Real.pi / 3) sym (by rw [c01, c02, c12]; norm_num) (q := 1) (p := 1 / 3) (by rw [c00, c11, c22]; norm_num) hp (by norm_num)
  have hr : evpPhi (Real.pi / 3) (((1 / (1 / 3) * (1 - 1)) * ((1 / (1 / 3) * (1 - 1)) * (1 / (1 / 3) * (1 - 1)) - 1 / (1 / 3) * (-1 / 3) * (1 / (1 / 3) * (-1 / 3))) -
      1 / (1 / 3) * (-1 / 3) * (1 / (1 / 3) * (-1 / 3) * (1 / (1 / 3) * (1 - 1)) - 1 / (1 / 3) * (-1 / 3) * (1 / (1 / 3) * (-1 / 3))) +
      1 / (1 / 3) * (-1 / 3) * (1 / (1 / 3) * (-1 / 3) * (1 / (1 / 3) * (-1 / 3)) - 1 / (1 / 3) * (1 - 1) * (1 / (1 / 3) * (-1 / 3)))) / 2) = Real.pi / 3 := by
    unfold evpPhi; rw [if_pos (by norm_num)]
  simp only [c00, c11, c22, c01, c02, c12] at h
  rw [hr, Real.cos_pi_div_three] at h
  have hu : u = _ := h
  rw [hu, if_neg (by norm_num)]
  have z : crossDir (vec3 (-1 / 3) (-1 / 3) (-1 / 3)) (vec3 (-1 / 3) (-1 / 3) (-1 / 3)) (vec3 (-1 / 3) (-1 / 3) (-1 / 3)) = fun _ => 0 := by
    have cz : crossCol (vec3 (-1 / 3) (-1 / 3) (-1 / 3)) (vec3 (-1 / 3) (-1 / 3) (-1 / 3)) = fun _ => 0 := by
      funext p; unfold crossCol; simp [vec3]
    unfold crossDir
    simp [cz]
  have a1 : (1 / 3 * (1 / (1 / 3) * (1 - 1) - 2 * (1 / 2)) : ℝ) = -1 / 3 := by norm_num
  have a2 : (1 / 3 * (1 / (1 / 3) * (-1 / 3)) : ℝ) = -1 / 3 := by norm_num
  rw [a1, a2]
  have s0 : symCol (-1 / 3) (-1 / 3) (-1 / 3) (-1 / 3) (-1 / 3) (-1 / 3) 0 = vec3 (-1 / 3) (-1 / 3) (-1 / 3) := rfl
  have s1 : symCol (-1 / 3) (-1 / 3) (-1 / 3) (-1 / 3) (-1 / 3) (-1 / 3) 1 = vec3 (-1 / 3) (-1 / 3) (-1 / 3) := rfl
  have s2 : symCol (-1 / 3) (-1 / 3) (-1 / 3) (-1 / 3) (-1 / 3) (-1 / 3) 2 = vec3 (-1 / 3) (-1 / 3) (-1 / 3) := rfl
  rw [s0, s1, s2, z]
  norm_num

/-- Three points in the plane, spread along the diagonal: the second case is excluded, so the first case of the theorem applies. -/
example : ¬ (∀ v, UnitDir 2 v → spread 2 (fun k => (k / 2 : ℕ)) (fun _ => 1) (fun _ => 0) [0, 1, 2] v ≤ 1 / 2 ^ 52) := by
  intro h
  have := h (fun p => if p = 0 then 1 else 0) (by simp [UnitDir, sum_range_succ])
  simp [spread, along, coord, sum_range_succ] at this
  norm_num at this

example : ¬ (∀ v, UnitDir 3 v → spread 3 (fun k => (k / 3 : ℕ)) (fun _ => 1) (fun _ => 0) [0, 1, 2] v ≤ 1 / 2 ^ 51) := by
  intro h
  have := h (fun p => if p = 0 then 1 else 0) (by simp [UnitDir, sum_range_succ])
  simp [spread, along, coord, sum_range_succ] at this
  norm_num at this

end Htool
