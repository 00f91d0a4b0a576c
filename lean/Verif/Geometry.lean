import Verif.ClusterBuild
import Mathlib.Analysis.SpecialFunctions.Pow.Real
import Mathlib.Algebra.Order.BigOperators.Group.Finset

/-! # Geometry of clusters

Model of `ClusterTreeBuilder::compute_center`, `compute_radius` (recursive_build.hpp 176-220) and
`ComputeBoundingBox::compute_direction` (direction_computation.hpp 58-96). -/

namespace Htool
open Finset

section Real

/-- Coordinates of a point as stored: `coordinates[spatial_dimension*i+p]`. -/
def coord (dim : ℕ) (x : ℕ → ℝ) (i p : ℕ) : ℝ := x (dim * i + p)

/-- `compute_center` (recursive_build.hpp 176-200): weighted mean of the points of the slice. -/
noncomputable def computeCenter (dim : ℕ) (x w : ℕ → ℝ) (perm : List ℕ) (offset size : ℕ) : ℕ → ℝ :=
  fun p =>
    ((slice perm offset size).foldl (fun acc i => acc + w i * coord dim x i p) 0) *
      (1 / (slice perm offset size).foldl (fun acc i => acc + w i) 0)

/-- `norm2` of the vector from the center to a point (vector.hpp 95, recursive_build.hpp 213-216). -/
noncomputable def distTo (dim : ℕ) (x : ℕ → ℝ) (center : ℕ → ℝ) (i : ℕ) : ℝ :=
  Real.sqrt |∑ p ∈ range dim, (coord dim x i p - center p) * (coord dim x i p - center p)|

/-- `compute_radius` (recursive_build.hpp 203-220): running maximum started at 0. -/
noncomputable def computeRadius (dim : ℕ) (x radii : ℕ → ℝ) (center : ℕ → ℝ) (perm : List ℕ)
    (offset size : ℕ) : ℝ :=
  (slice perm offset size).foldl (fun acc i => max acc (distTo dim x center i + radii i)) 0

/-- The pair `(m_radius, m_center)` stored in a cluster (recursive_build.hpp 70-71, 88-89, 139-140). -/
noncomputable def ballGeo (dim : ℕ) (x radii w : ℕ → ℝ) (perm : List ℕ) (offset size : ℕ) :
    ℝ × (ℕ → ℝ) :=
  let center := computeCenter dim x w perm offset size
  (computeRadius dim x radii center perm offset size, center)

theorem le_foldl_max (f : ℕ → ℝ) (l : List ℕ) (a : ℝ) :
    a ≤ l.foldl (fun acc i => max acc (f i)) a ∧
    ∀ i ∈ l, f i ≤ l.foldl (fun acc i => max acc (f i)) a := by
  induction l generalizing a with
  | nil => simp
  | cons b l ih =>
    simp only [List.foldl_cons]
    obtain ⟨h1, h2⟩ := ih (max a (f b))
    refine ⟨le_trans (le_max_left _ _) h1, ?_⟩
    intro i hi
    rcases List.mem_cons.1 hi with rfl | hi
    · exact le_trans (le_max_right _ _) h1
    · exact h2 i hi

end Real

section BoundingBox
variable {K : Type*} [Field K] [LinearOrder K]

/-- Bounding box loop for one axis (direction_computation.hpp 65-77): `(min_point[p], max_point[p])` started from
`numeric_limits<T>::max()` and `numeric_limits<T>::min()`; for floating-point types the latter is the smallest *positive*
normal number. -/
def bbox (dim : ℕ) (x : ℕ → K) (tmax tmin : K) (p : ℕ) (pts : List ℕ) : K × K :=
  pts.foldl (fun acc i =>
    let v := x (dim * i + p)
    (if acc.1 > v then v else acc.1, if acc.2 < v then v else acc.2)) (tmax, tmin)

/-- Axis selection (direction_computation.hpp 80-88): index of the first strictly larger extent. -/
def bboxAxis (dim : ℕ) (x : ℕ → K) (tmax tmin : K) (pts : List ℕ) : ℕ :=
  ((List.range dim).foldl (fun (acc : K × ℕ) p =>
    let e := (bbox dim x tmax tmin p pts).2 - (bbox dim x tmax tmin p pts).1
    if acc.1 < e then (e, p) else acc) (tmin, 0)).2

/-- Lower and upper ends of the points along an axis. -/
theorem bbox_min (dim : ℕ) (x : ℕ → K) (tmax tmin : K) (p : ℕ) (pts : List ℕ)
    (h : ∃ i ∈ pts, x (dim * i + p) ≤ tmax) :
    (∀ i ∈ pts, (bbox dim x tmax tmin p pts).1 ≤ x (dim * i + p)) ∧
    ∃ i ∈ pts, (bbox dim x tmax tmin p pts).1 = x (dim * i + p) := by
  have key : ∀ (l : List ℕ) (a : K × K),
      let r := l.foldl (fun acc i =>
        let v := x (dim * i + p)
        (if acc.1 > v then v else acc.1, if acc.2 < v then v else acc.2)) a
      r.1 ≤ a.1 ∧ (∀ i ∈ l, r.1 ≤ x (dim * i + p)) ∧ (r.1 = a.1 ∨ ∃ i ∈ l, r.1 = x (dim * i + p)) := by
    intro l
    induction l with
    | nil => intro a; simp
    | cons b l ih =>
      intro a
      obtain ⟨h1, h2, h3⟩ := ih (if a.1 > x (dim * b + p) then x (dim * b + p) else a.1,
        if a.2 < x (dim * b + p) then x (dim * b + p) else a.2)
      simp only [List.foldl_cons] at h1 h2 h3 ⊢
      split_ifs at h1 h2 h3 ⊢ with hc hd hd
      all_goals
        refine ⟨?_, ?_, ?_⟩
        · first | exact h1 | exact h1.trans (le_of_lt hc)
        · intro i hi
          rcases List.mem_cons.1 hi with rfl | hi
          · first | exact h1 | exact h1.trans (not_lt.1 hc)
          · exact h2 i hi
        · rcases h3 with h3 | ⟨i, hi, h3⟩
          · first | exact Or.inl h3 | exact Or.inr ⟨b, by simp, h3⟩
          · exact Or.inr ⟨i, by simp [hi], h3⟩
  obtain ⟨h1, h2, h3⟩ := key pts (tmax, tmin)
  refine ⟨h2, ?_⟩
  rcases h3 with h3 | h3
  · obtain ⟨i, hi, hle⟩ := h
    refine ⟨i, hi, le_antisymm (h2 i hi) ?_⟩
    exact hle.trans (le_of_eq h3.symm)
  · exact h3

theorem bbox_max (dim : ℕ) (x : ℕ → K) (tmax tmin : K) (p : ℕ) (pts : List ℕ)
    (h : ∃ i ∈ pts, tmin ≤ x (dim * i + p)) :
    (∀ i ∈ pts, x (dim * i + p) ≤ (bbox dim x tmax tmin p pts).2) ∧
    ∃ i ∈ pts, (bbox dim x tmax tmin p pts).2 = x (dim * i + p) := by
  have key : ∀ (l : List ℕ) (a : K × K),
      let r := l.foldl (fun acc i =>
        let v := x (dim * i + p)
        (if acc.1 > v then v else acc.1, if acc.2 < v then v else acc.2)) a
      a.2 ≤ r.2 ∧ (∀ i ∈ l, x (dim * i + p) ≤ r.2) ∧ (r.2 = a.2 ∨ ∃ i ∈ l, r.2 = x (dim * i + p)) := by
    intro l
    induction l with
    | nil => intro a; simp
    | cons b l ih =>
      intro a
      obtain ⟨h1, h2, h3⟩ := ih (if a.1 > x (dim * b + p) then x (dim * b + p) else a.1,
        if a.2 < x (dim * b + p) then x (dim * b + p) else a.2)
      simp only [List.foldl_cons] at h1 h2 h3 ⊢
      split_ifs at h1 h2 h3 ⊢ with hd hc hc
      all_goals
        refine ⟨?_, ?_, ?_⟩
        · first | exact h1 | exact (le_of_lt hc).trans h1
        · intro i hi
          rcases List.mem_cons.1 hi with rfl | hi
          · first | exact h1 | exact (not_lt.1 hc).trans h1
          · exact h2 i hi
        · rcases h3 with h3 | ⟨i, hi, h3⟩
          · first | exact Or.inl h3 | exact Or.inr ⟨b, by simp, h3⟩
          · exact Or.inr ⟨i, by simp [hi], h3⟩
  obtain ⟨h1, h2, h3⟩ := key pts (tmax, tmin)
  refine ⟨h2, ?_⟩
  rcases h3 with h3 | h3
  · obtain ⟨i, hi, hle⟩ := h
    refine ⟨i, hi, le_antisymm ?_ (h2 i hi)⟩
    exact (le_of_eq h3).trans hle
  · exact h3

theorem axis_fold (e : ℕ → K) (n : ℕ) (a0 : K) :
    let r := (List.range n).foldl (fun (acc : K × ℕ) p => if acc.1 < e p then (e p, p) else acc) (a0, 0)
    a0 ≤ r.1 ∧ (∀ p < n, e p ≤ r.1) ∧ ((r.1 = a0 ∧ r.2 = 0) ∨ (r.2 < n ∧ e r.2 = r.1)) := by
  induction n with
  | zero => simp
  | succ n ih =>
    simp only [List.range_succ, List.foldl_append, List.foldl_cons, List.foldl_nil]
    obtain ⟨h1, h2, h3⟩ := ih
    set r := (List.range n).foldl (fun (acc : K × ℕ) p => if acc.1 < e p then (e p, p) else acc) (a0, 0)
    split_ifs with hc
    · refine ⟨h1.trans (le_of_lt hc), ?_, Or.inr ⟨by simp, rfl⟩⟩
      intro p hp
      rcases Nat.lt_succ_iff_lt_or_eq.1 hp with hp | rfl
      · exact (h2 p hp).trans (le_of_lt hc)
      · exact le_refl _
    · refine ⟨h1, ?_, ?_⟩
      · intro p hp
        rcases Nat.lt_succ_iff_lt_or_eq.1 hp with hp | rfl
        · exact h2 p hp
        · exact not_lt.1 hc
      · rcases h3 with h3 | h3
        · exact Or.inl h3
        · exact Or.inr ⟨by omega, h3.2⟩

end BoundingBox

end Htool
