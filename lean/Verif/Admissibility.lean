import Verif.Geometry
import Verif.BlockTree
import Mathlib.Analysis.InnerProductSpace.PiL2

/-! # The admissibility condition of Rjasanow and Steinbach

Model of `RjasanowSteinbach::ComputeAdmissibility` (hmatrix/interfaces/virtual_admissibility_condition.hpp 18-25) on clusters which
store a radius and a center (`ballGeo`), and of the operators of vector.hpp it uses. -/

namespace Htool
open Finset

/-- `operator-` of two vectors (vector.hpp 70-75), entry by entry. -/
def vecSub (a b : ℕ → ℝ) : ℕ → ℝ := fun p => a p - b p

/-- `dprod` of two real vectors (vector.hpp 85-88): `inner_product` started at `T(0)`. -/
def dprodR (dim : ℕ) (a b : ℕ → ℝ) : ℝ := (List.range dim).foldl (fun acc p => acc + a p * b p) 0

/-- `norm2` of a real vector (vector.hpp 94-95). -/
noncomputable def norm2R (dim : ℕ) (u : ℕ → ℝ) : ℝ := Real.sqrt |dprodR dim u u|

/-- `ComputeAdmissibility(target, source, eta)` (virtual_admissibility_condition.hpp 21-24). `geo` is the pair radius, center of a
cluster. Exact arithmetic. -/
noncomputable def rjasanowSteinbach (dim : ℕ) (eta : ℝ) (target source : CNode (ℝ × (ℕ → ℝ))) : Bool :=
  decide (2 * min target.geo.1 source.geo.1 <
    eta * max (norm2R dim (vecSub target.geo.2 source.geo.2) - target.geo.1 - source.geo.1) 0)

/-! ## Lemmas -/

/-- Euclidean distance of two points with `dim` coordinates (specification). -/
noncomputable def eDist (dim : ℕ) (a b : ℕ → ℝ) : ℝ := Real.sqrt (∑ p ∈ range dim, (a p - b p) ^ 2)

theorem norm2R_eq (dim : ℕ) (a b : ℕ → ℝ) : norm2R dim (vecSub a b) = eDist dim a b := by
  have h : ∀ (n : ℕ) (f : ℕ → ℝ) , (List.range n).foldl (fun acc p => acc + f p) 0 = ∑ p ∈ range n, f p := by
    intro n f
    induction n with
    | zero => simp
    | succ n ih => rw [List.range_succ, List.foldl_append, ih, Finset.sum_range_succ]; rfl
  unfold norm2R dprodR eDist vecSub
  rw [h dim (fun p => (a p - b p) * (a p - b p)), abs_of_nonneg (Finset.sum_nonneg fun p _ => mul_self_nonneg _)]
  congr 1
  exact Finset.sum_congr rfl (fun p _ => by ring)

theorem eDist_eq (dim : ℕ) (a b : ℕ → ℝ) :
    eDist dim a b = dist (WithLp.toLp 2 (fun p : Fin dim => a p)) (WithLp.toLp 2 (fun p : Fin dim => b p)) := by
  rw [EuclideanSpace.dist_eq, eDist, Finset.sum_range]
  congr 1
  refine Finset.sum_congr rfl (fun p _ => ?_)
  simp [Real.dist_eq, sq_abs]

theorem eDist_comm (dim : ℕ) (a b : ℕ → ℝ) : eDist dim a b = eDist dim b a := by
  rw [eDist_eq, eDist_eq, dist_comm]

theorem eDist_triangle (dim : ℕ) (a b c : ℕ → ℝ) : eDist dim a c ≤ eDist dim a b + eDist dim b c := by
  simp only [eDist_eq]; exact dist_triangle _ _ _

theorem eDist_self (dim : ℕ) (a : ℕ → ℝ) : eDist dim a a = 0 := by rw [eDist_eq, dist_self]

theorem eDist_nonneg (dim : ℕ) (a b : ℕ → ℝ) : 0 ≤ eDist dim a b := Real.sqrt_nonneg _

theorem rs_iff (dim : ℕ) (eta : ℝ) (a b : CNode (ℝ × (ℕ → ℝ))) : rjasanowSteinbach dim eta a b = true ↔
    2 * min a.geo.1 b.geo.1 < eta * max (eDist dim a.geo.2 b.geo.2 - a.geo.1 - b.geo.1) 0 := by
  unfold rjasanowSteinbach
  rw [decide_eq_true_iff, norm2R_eq]

end Htool
