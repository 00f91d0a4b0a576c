import Verif.Splitting
import Mathlib.Data.Rat.Defs
import Mathlib.Algebra.Order.Ring.Rat
import Mathlib.Algebra.Field.Rat

/-! # Property C01: splitting a cluster tiles it -/

namespace Htool

/-- **C01 (RegularSplitting).** If the strategy decides to split, there are exactly `k` children, they are consecutive
and cover exactly `[offset, offset+size)`, and each one is larger than the minimal size. -/
theorem C01_regular_splitting_tiles (offset size k minSize : ℕ) (hk : 1 ≤ k)
    (h : regularSplitting offset size k minSize ≠ []) :
    (regularSplitting offset size k minSize).length = k ∧
    Tiles offset (offset + size) (regularSplitting offset size k minSize) ∧
    ∀ iv ∈ regularSplitting offset size k minSize, iv.2 > minSize :=
  regularSplitting_spec offset size k minSize hk h

/-- **C01 (GeometricSplitting).** Same statement, for every point cloud, direction and array content (sorted or not). -/
theorem C01_geometric_splitting_tiles {K : Type*} [Field K] [LinearOrder K] (dim : ℕ)
    (x dir : ℕ → K) (perm : List ℕ) (offset size k minSize : ℕ) (hk : 1 ≤ k)
    (h : geometricSplitting dim x dir perm offset size k minSize ≠ []) :
    (geometricSplitting dim x dir perm offset size k minSize).length = k ∧
    Tiles offset (offset + size) (geometricSplitting dim x dir perm offset size k minSize) ∧
    ∀ iv ∈ geometricSplitting dim x dir perm offset size k minSize, iv.2 > minSize :=
  geometricSplitting_spec dim x dir perm offset size k minSize hk h

/-- **C01 (covering, stated point-wise).** Every index of the parent is in exactly one child and no other index is. -/
theorem C01_children_cover_each_index_once {K : Type*} [Field K] [LinearOrder K] (dim : ℕ)
    (x dir : ℕ → K) (perm : List ℕ) (offset size k minSize : ℕ) (hk : 1 ≤ k) (ivs : List (ℕ × ℕ))
    (hivs : ivs = regularSplitting offset size k minSize ∨
      ivs = geometricSplitting dim x dir perm offset size k minSize)
    (hne : ivs ≠ []) (i : ℕ) :
    ivs.countP (fun iv => decide (InIv i iv)) = if offset ≤ i ∧ i < offset + size then 1 else 0 := by
  rcases hivs with rfl | rfl
  · exact (regularSplitting_spec _ _ _ _ hk hne).2.1.countP i
  · exact (geometricSplitting_spec _ _ _ _ _ _ _ _ hk hne).2.1.countP i

/-- The regular strategy splits exactly when every child would be larger than the minimal size. -/
theorem C01_regular_splits_iff (offset size k minSize : ℕ) :
    regularSplitting offset size k minSize ≠ [] ↔ size / k > minSize := by
  unfold regularSplitting; simp only
  split_ifs with h <;> simp [h]

/-- Non-vacuity: a concrete regular split, not a power of the number of children. -/
example : regularSplitting 5 11 3 2 = [(5, 3), (8, 3), (11, 5)] := by decide

/-- Non-vacuity: a concrete geometric split in dimension 1 which differs from the regular one. -/
example : geometricSplitting (K := ℚ) 1 (fun i => ([0, 1, 2, 3, 4, 9, 10] : List ℚ).getD i 0)
    (fun _ => 1) [0, 1, 2, 3, 4, 5, 6] 0 7 2 1 = [(0, 5), (5, 2)] := by decide +kernel

end Htool
