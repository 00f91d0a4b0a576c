import Verif.Tiles
import Mathlib.Algebra.Order.Field.Basic
import Mathlib.Algebra.BigOperators.Group.Finset.Basic
import Mathlib.Algebra.BigOperators.Intervals

/-! # Splitting strategies

Model of `include/htool/clustering/tree_builder/splitting.hpp`. -/

namespace Htool
open Finset

/-- The `for` loop of `RegularSplitting::splitting` (splitting.hpp 33-35): first `m` children. -/
def regularLoop (offset cs : ℕ) (m : ℕ) : List (ℕ × ℕ) :=
  (List.range m).map (fun p => (offset + cs * p, cs))

/-- `RegularSplitting::splitting` (splitting.hpp 25-40). The empty list is `current_partition.clear()`.
The code divides by `k`; callers must have `k ≥ 1`. -/
def regularSplitting (offset size k minSize : ℕ) : List (ℕ × ℕ) :=
  let cs := size / k
  if cs > minSize then
    regularLoop offset cs (k - 1) ++ [(offset + cs * (k - 1), size - cs * (k - 1))]
  else []

/-- `std::find_if` on positions `[first, last)` of the array: index of the first position
satisfying `p`, or `last`. -/
def findIf (p : ℕ → Bool) (first last : ℕ) : ℕ :=
  ((List.range' first (last - first)).find? p).getD last

section Geometric
variable {K : Type*} [Field K] [LinearOrder K]

/-- `dprod(dir, x_a - x_b)` (vector.hpp, used in splitting.hpp 62 and 71): inner product of the direction with the
difference of two points stored contiguously in `x`. -/
def dirDist (dim : ℕ) (x : ℕ → K) (dir : ℕ → K) (a b : ℕ) : K :=
  ∑ q ∈ range dim, dir q * (x (dim * a + q) - x (dim * b + q))

/-- The `for` loop of `GeometricSplitting::splitting` (splitting.hpp 69-83). `m` iterations remain;
`count` is the iterator position, `first` the index of the current `first_point`. Returns the pairs
`(offsets[p],sizes[p])` of the remaining iterations and the final `count`.
In the `break` branch the remaining entries keep their initial value 0. -/
def geometricLoop (dim : ℕ) (x dir : ℕ → K) (perm : List ℕ) (last : ℕ) (cgs : K) :
    ℕ → ℕ → ℕ → List (ℕ × ℕ) × ℕ
  | 0, count, _ => ([], count)
  | m + 1, count, first =>
    let r := findIf (fun i => decide (dirDist dim x dir (perm.getD i 0) first > cgs)) count last
    if r ≠ perm.length then
      let rest := geometricLoop dim x dir perm last cgs m r (perm.getD r 0)
      ((count, r - count) :: rest.1, rest.2)
    else (List.replicate (m + 1) (0, 0), count)

/-- `GeometricSplitting::splitting` (splitting.hpp 49-97). -/
def geometricSplitting (dim : ℕ) (x dir : ℕ → K) (perm : List ℕ) (offset size k minSize : ℕ) :
    List (ℕ × ℕ) :=
  if size > k then
    let first := perm.getD offset 0
    let lastp := perm.getD (offset + size - 1) 0
    let cgs := dirDist dim x dir lastp first / (k : K)
    let res := geometricLoop dim x dir perm (offset + size) cgs (k - 1) offset first
    let sizes := res.1.map Prod.snd
    let pairs := res.1 ++ [(res.2, size - sizes.sum)]
    if pairs.all (fun pr => decide (pr.2 > minSize)) then pairs
    else regularSplitting offset size k minSize
  else []
end Geometric

/-! ## Lemmas -/

theorem regularLoop_tiles (offset cs m : ℕ) :
    Tiles offset (offset + cs * m) (regularLoop offset cs m) := by
  induction m with
  | zero => simp [regularLoop, Tiles]
  | succ m ih =>
    have : regularLoop offset cs (m + 1) = regularLoop offset cs m ++ [(offset + cs * m, cs)] := by
      simp [regularLoop, List.range_succ]
    rw [this]
    refine ih.append ⟨rfl, ?_⟩
    show _ = _
    ring

theorem regularSplitting_spec (offset size k minSize : ℕ) (hk : 1 ≤ k)
    (h : regularSplitting offset size k minSize ≠ []) :
    (regularSplitting offset size k minSize).length = k ∧
    Tiles offset (offset + size) (regularSplitting offset size k minSize) ∧
    ∀ iv ∈ regularSplitting offset size k minSize, iv.2 > minSize := by
  unfold regularSplitting at *
  simp only at *
  split_ifs at h ⊢ with hc
  · have hmul : size / k * k ≤ size := Nat.div_mul_le_self size k
    obtain ⟨m, rfl⟩ : ∃ m, k = m + 1 := ⟨k - 1, by omega⟩
    simp only [Nat.add_sub_cancel] at *
    have hexp : size / (m + 1) * (m + 1) = size / (m+1) * m + size / (m+1) := by ring
    refine ⟨by simp [regularLoop], ?_, ?_⟩
    · refine (regularLoop_tiles _ _ _).append ⟨rfl, ?_⟩
      show _ = _
      omega
    · intro iv hiv
      rcases List.mem_append.1 hiv with hiv | hiv
      · obtain ⟨p, -, rfl⟩ := List.mem_map.1 hiv; exact hc
      · simp at hiv; subst hiv; simp only; omega
  · exact absurd rfl h

theorem findIf_bounds (p : ℕ → Bool) (first last : ℕ) (h : first ≤ last) :
    first ≤ findIf p first last ∧ findIf p first last ≤ last := by
  unfold findIf
  cases hf : (List.range' first (last - first)).find? p with
  | none => simp [h]
  | some v =>
    have := List.mem_of_find?_eq_some hf
    rw [List.mem_range'_1] at this
    simp; omega

section Geometric
variable {K : Type*} [Field K] [LinearOrder K]

/-- Either the loop ran to the end and its intervals tile `[count, final count)`, or some size is 0. -/
theorem geometricLoop_spec (dim : ℕ) (x dir : ℕ → K) (perm : List ℕ) (last : ℕ) (cgs : K)
    (m count first : ℕ) (h : count ≤ last) :
    let res := geometricLoop dim x dir perm last cgs m count first
    res.1.length = m ∧
    ((Tiles count res.2 res.1 ∧ res.2 ≤ last) ∨ ∃ iv ∈ res.1, iv.2 = 0) := by
  induction m generalizing count first with
  | zero => exact ⟨rfl, Or.inl ⟨rfl, h⟩⟩
  | succ m ih =>
    simp only [geometricLoop]
    set r := findIf (fun i => decide (dirDist dim x dir (perm.getD i 0) first > cgs)) count last
      with hr
    have hb := findIf_bounds (fun i => decide (dirDist dim x dir (perm.getD i 0) first > cgs))
      count last h
    rw [← hr] at hb
    split_ifs with hne
    · have := ih r (perm.getD r 0) hb.2
      refine ⟨congrArg (· + 1) this.1, ?_⟩
      rcases this.2 with ⟨h1, h2⟩ | ⟨iv, h1, h2⟩
      · left
        refine ⟨⟨rfl, ?_⟩, h2⟩
        rw [show count + (r - count) = r by omega]
        exact h1
      · right; exact ⟨iv, List.mem_cons_of_mem _ h1, h2⟩
    · exact ⟨by simp, Or.inr ⟨(0, 0), by simp, rfl⟩⟩

theorem geometricSplitting_spec (dim : ℕ) (x dir : ℕ → K) (perm : List ℕ)
    (offset size k minSize : ℕ) (hk : 1 ≤ k)
    (h : geometricSplitting dim x dir perm offset size k minSize ≠ []) :
    (geometricSplitting dim x dir perm offset size k minSize).length = k ∧
    Tiles offset (offset + size) (geometricSplitting dim x dir perm offset size k minSize) ∧
    ∀ iv ∈ geometricSplitting dim x dir perm offset size k minSize, iv.2 > minSize := by
  unfold geometricSplitting at *
  split_ifs at h ⊢ with hs
  · simp only at *
    set res := geometricLoop dim x dir perm (offset + size)
      (dirDist dim x dir (perm.getD (offset + size - 1) 0) (perm.getD offset 0) / (k : K))
      (k - 1) offset (perm.getD offset 0) with hres
    have hsp := geometricLoop_spec dim x dir perm (offset + size)
      (dirDist dim x dir (perm.getD (offset + size - 1) 0) (perm.getD offset 0) / (k : K))
      (k - 1) offset (perm.getD offset 0) (by omega)
    simp only [← hres] at hsp
    split_ifs at h ⊢ with hall
    · rw [List.all_eq_true] at hall
      have hall' : ∀ iv ∈ res.1 ++ [(res.2, size - (res.1.map Prod.snd).sum)],
          iv.2 > minSize := fun iv hiv => of_decide_eq_true (hall iv hiv)
      refine ⟨by simp [hsp.1]; omega, ?_, hall'⟩
      rcases hsp.2 with ⟨h1, h2⟩ | ⟨iv, h1, h2⟩
      · have hsum := h1.sum
        refine h1.append ⟨rfl, ?_⟩
        show _ = _
        have := h1.le
        omega
      · have := hall' iv (by simp [h1])
        omega
    · exact regularSplitting_spec _ _ _ _ hk h
  · exact absurd rfl h
end Geometric

end Htool
