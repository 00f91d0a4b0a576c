import Verif.Assembled
import Verif.Props.ClusterIO
import Mathlib.Data.Rat.Defs
import Mathlib.Algebra.Order.Field.Basic
import Mathlib.Data.Rat.Cast.Order
import Mathlib.Tactic.Linarith
import Mathlib.Tactic.FieldSimp

/-! # Reported information and display files of an H-matrix

Model of `hmatrix_output.hpp` and `hmatrix_distributed_output.hpp`. `std::size_t` is unbounded, `double` is exact (rational), `unsigned int` has 32 bits.
Formatting of the numbers (`std::to_string`), timings and the OpenMP counts are not modelled. -/

namespace Htool
variable {R : Type*}

/-! ## Statistics of one H-matrix -/

/-- `is_dense()`. -/
def HNode.isDenseB (n : HNode R) : Bool := match n.data with | .dense _ => true | _ => false

/-- `is_low_rank()`. -/
def HNode.isLowRankB (n : HNode R) : Bool := match n.data with | .lowRank _ _ _ => true | _ => false

/-- `get_low_rank_data()->rank_of()`; only called on low-rank blocks. -/
def HNode.rank (n : HNode R) : ℕ := match n.data with | .lowRank r _ _ => r | _ => 0

/-- `get_rank()` (hmatrix.hpp 142-144). -/
def HNode.getRank (n : HNode R) : ℤ := match n.data with | .lowRank r _ _ => r | _ => -1

/-- `get_leaves` (hmatrix_output.hpp 117-127). -/
def outLeaves (A : HTree R) : List (HTree R) × List (HTree R) :=
  A.preorderTraversal.foldl (fun acc b =>
    if b.isLeaf && b.label.isDenseB then (acc.1 ++ [b], acc.2)
    else if b.isLeaf && b.label.isLowRankB then (acc.1, acc.2 ++ [b]) else acc) ([], [])

/-- Product of two `unsigned int` (hmatrix_output.hpp 209-210; hmatrix_distributed_output.hpp 42). -/
def mulU32 (a b : ℕ) : ℕ := a * b % 2 ^ 32

/-- The variables of the two loops: maximum, minimum, sum of the sizes of the dense blocks (0), of the low-rank blocks (1), of the ranks (2), and the number of
coefficients. -/
structure InfoAcc where
  max0 : ℕ
  max1 : ℕ
  max2 : ℕ
  min0 : ℕ
  min1 : ℕ
  min2 : ℕ
  sum0 : ℚ
  sum1 : ℚ
  sum2 : ℚ
  coef : ℚ

/-- Body of the loop on low-rank blocks (hmatrix_output.hpp 150-162; hmatrix_distributed_output.hpp 56-68). -/
def lowStep (acc : InfoAcc) (b : HTree R) : InfoAcc :=
  let r := b.label.tsz
  let c := b.label.ssz
  let k := b.label.rank
  { acc with max1 := max acc.max1 (r * c), min1 := min acc.min1 (r * c), sum1 := acc.sum1 + (r * c : ℕ),
             max2 := max acc.max2 k, min2 := min acc.min2 k, sum2 := acc.sum2 + k, coef := acc.coef + (k : ℚ) * ((r : ℚ) + c) }

/-- Body of the loop on dense blocks (hmatrix_output.hpp 163-175; hmatrix_distributed_output.hpp 69-81). -/
def denseStep (acc : InfoAcc) (b : HTree R) : InfoAcc :=
  let r := b.label.tsz
  let c := b.label.ssz
  { acc with max0 := max acc.max0 (r * c), min0 := min acc.min0 (r * c), sum0 := acc.sum0 + (r * c : ℕ),
             coef := acc.coef + (if b.label.sym ≠ .N then (r : ℚ) * ((c : ℚ) + 1) / 2 else (r : ℚ) * c) }

/-- What `get_hmatrix_information` reports. -/
structure HInfo where
  targetSize : ℕ
  sourceSize : ℕ
  denseMax : ℕ
  denseMean : ℚ
  denseMin : ℕ
  lowMax : ℕ
  lowMean : ℚ
  lowMin : ℕ
  rankMax : ℕ
  rankMean : ℚ
  rankMin : ℕ
  nLow : ℕ
  nDense : ℕ
  ratio : ℚ
  saving : ℚ

/-- `get_hmatrix_information` (hmatrix_output.hpp 130-213). -/
def hmatrixInfo (A : HTree R) : HInfo :=
  let nr := A.label.tsz
  let nc := A.label.ssz
  let m := max nc nr
  let dense := (outLeaves A).1
  let low := (outLeaves A).2
  let a := dense.foldl denseStep (low.foldl lowStep ⟨0, 0, 0, m, m, m, 0, 0, 0, 0⟩)
  { targetSize := nr
    sourceSize := nc
    denseMax := a.max0
    denseMean := if dense.length = 0 then 0 else a.sum0 / dense.length
    denseMin := if dense.length = 0 then 0 else a.min0
    lowMax := a.max1
    lowMean := if low.length = 0 then 0 else a.sum1 / low.length
    lowMin := if low.length = 0 then 0 else a.min1
    rankMax := a.max2
    rankMean := if low.length = 0 then 0 else a.sum2 / low.length
    rankMin := if low.length = 0 then 0 else a.min2
    nLow := low.length
    nDense := dense.length
    ratio := (mulU32 nr nc : ℚ) / a.coef
    saving := 1 - a.coef / (mulU32 nr nc : ℚ) }

/-! ## Statistics over MPI ranks -/

/-- Local data of `get_distributed_hmatrix_information` before the reductions (hmatrix_distributed_output.hpp 40-88). `size_t += double` converts the sum back to
an integer. -/
structure LocalInfo where
  acc : InfoAcc
  rows : ℕ
  cols : ℕ
  size : ℕ
  nDense : ℕ
  nLow : ℕ
  coef : ℕ

/-- The integer counter of coefficients (hmatrix_distributed_output.hpp 55, 67, 76-80). -/
def coefStepLow (n : ℕ) (b : HTree R) : ℕ := n + b.label.rank * (b.label.tsz + b.label.ssz)

/-- As above, dense blocks: the sum of a `size_t` and a `double` is truncated. -/
def coefStepDense (n : ℕ) (b : HTree R) : ℕ :=
  if b.label.sym ≠ .N then ⌊(n : ℚ) + ((b.label.tsz * (b.label.ssz + 1) : ℕ) : ℚ) / 2⌋₊ else n + b.label.tsz * b.label.ssz

/-- The local part (hmatrix_distributed_output.hpp 40-88). -/
def localInfo (A : HTree R) : LocalInfo :=
  let size := mulU32 A.label.ssz A.label.tsz
  let dense := (outLeaves A).1
  let low := (outLeaves A).2
  { acc := dense.foldl denseStep (low.foldl lowStep ⟨0, 0, 0, size, size, size, 0, 0, 0, 0⟩)
    rows := A.label.tsz
    cols := A.label.ssz
    size := size
    nDense := dense.length
    nLow := low.length
    coef := dense.foldl coefStepDense (low.foldl coefStepLow 0) }

/-- `MPI_Reduce` with `MPI_MAX` over the ranks (`n + 1` of them). -/
def redMax (f : ℕ → ℕ) (n : ℕ) : ℕ := (List.range n).foldl (fun a i => max a (f (i + 1))) (f 0)

/-- `MPI_Reduce` with `MPI_MIN`. -/
def redMin (f : ℕ → ℕ) (n : ℕ) : ℕ := (List.range n).foldl (fun a i => min a (f (i + 1))) (f 0)

/-- What rank 0 reports. -/
structure DistInfo where
  targetMax : ℕ
  targetMean : ℚ
  targetMin : ℕ
  sourceMax : ℕ
  sourceMean : ℚ
  sourceMin : ℕ
  denseMax : ℕ
  denseMean : ℚ
  denseMin : ℕ
  lowMax : ℕ
  lowMean : ℚ
  lowMin : ℕ
  rankMax : ℕ
  rankMean : ℚ
  rankMin : ℕ
  nLow : ℕ
  nDense : ℕ
  ratio : ℚ
  saving : ℚ

/-- `get_distributed_hmatrix_information` on rank 0 of `n + 1` ranks (hmatrix_distributed_output.hpp 90-148). `A p` is the H-matrix of rank `p`. -/
def distInfo (n : ℕ) (A : ℕ → HTree R) : DistInfo :=
  let L := fun p => localInfo (A p)
  let nd := ∑ p ∈ Finset.range (n + 1), (L p).nDense
  let nl := ∑ p ∈ Finset.range (n + 1), (L p).nLow
  let total := ∑ p ∈ Finset.range (n + 1), (L p).size
  let coef := ∑ p ∈ Finset.range (n + 1), (L p).coef
  { targetMax := redMax (fun p => (L p).rows) n
    targetMean := (∑ p ∈ Finset.range (n + 1), ((L p).rows : ℚ)) / (n + 1 : ℕ)
    targetMin := redMin (fun p => (L p).rows) n
    sourceMax := redMax (fun p => (L p).cols) n
    sourceMean := (∑ p ∈ Finset.range (n + 1), ((L p).cols : ℚ)) / (n + 1 : ℕ)
    sourceMin := redMin (fun p => (L p).cols) n
    denseMax := redMax (fun p => (L p).acc.max0) n
    denseMean := if nd = 0 then 0 else (∑ p ∈ Finset.range (n + 1), (L p).acc.sum0) / nd
    denseMin := if nd = 0 then 0 else redMin (fun p => (L p).acc.min0) n
    lowMax := redMax (fun p => (L p).acc.max1) n
    lowMean := if nl = 0 then 0 else (∑ p ∈ Finset.range (n + 1), (L p).acc.sum1) / nl
    lowMin := if nl = 0 then 0 else redMin (fun p => (L p).acc.min1) n
    rankMax := redMax (fun p => (L p).acc.max2) n
    rankMean := if nl = 0 then 0 else (∑ p ∈ Finset.range (n + 1), (L p).acc.sum2) / nl
    rankMin := if nl = 0 then 0 else redMin (fun p => (L p).acc.min2) n
    nLow := nl
    nDense := nd
    ratio := (total : ℚ) / coef
    saving := 1 - (coef : ℚ) / total }

/-! ## Display files -/

section files
open ClusterIO

/-- `operator<<` of a `DisplayBlock` (hmatrix_output.hpp 24-35) whose fields are those of a block `b` of the H-matrix with root `A` (48, 67): offsets relative to
the root, which are non-negative. -/
def displayLine (A b : HNode R) : Str :=
  commas [intStr (b.toff - A.toff : ℤ), natStr b.tsz, intStr (b.soff - A.soff : ℤ), natStr b.ssz, intStr b.getRank]

/-- `save_leaves_with_rank` (hmatrix_output.hpp 38-56): the contents of the file. -/
def saveLeavesFile (A : HTree R) : Str :=
  let blocks := A.preorderTraversal.foldl (fun acc b => if b.isLeaf then acc ++ [displayLine A.label b.label] else acc) []
  commas [natStr A.label.tsz, natStr A.label.ssz] ++ ['\n'] ++ (blocks.map fun l => l ++ ['\n']).flatten

/-- `std::find` on the list of depths, as an index; the length if absent. -/
def findDepth (depths : List ℕ) (d : ℕ) : ℕ := depths.findIdx (fun x => x = d)

/-- The vector of lists of lines filled by `save_levels` (hmatrix_output.hpp 60-71). A node carries its `m_depth`. -/
def levelBlocks (A : Tree (HNode R × ℕ)) (depths : List ℕ) : ℕ → List Str :=
  A.preorderTraversal.foldl (fun acc b =>
    if findDepth depths b.label.2 < depths.length then
      Function.update acc (findDepth depths b.label.2) (acc (findDepth depths b.label.2) ++ [displayLine A.label.1 b.label.1])
    else acc) (fun _ => [])

/-- The contents of file number `p` (hmatrix_output.hpp 73-82). -/
def saveLevelFile (A : Tree (HNode R × ℕ)) (depths : List ℕ) (p : ℕ) : Str :=
  commas [natStr A.label.1.tsz, natStr A.label.1.ssz] ++ ['\n'] ++ ((levelBlocks A depths p).map fun l => l ++ ['\n']).flatten ++ ['\n']

end files

/-! ## Lemmas -/

theorem isLeaf_eq {α : Type*} (t : Tree α) : t.isLeaf = decide (t.children = []) := by
  rw [Bool.eq_iff_iff, decide_eq_true_iff]; exact isLeaf_iff

/-- The leaves met by a preorder traversal. -/
theorem pre_filter_leaves {α : Type*} (t : Tree α) : t.pre.filter (fun b => b.isLeaf) = t.leaves := by
  induction t using Tree.ind with
  | h a cs ih =>
    have hl : Tree.preL cs = cs.flatMap Tree.pre := by
      clear ih
      induction cs with
      | nil => rfl
      | cons c cs ih => simp [Tree.preL, ih]
    rw [Tree.pre, hl]
    by_cases hc : cs = []
    · subst hc
      simp [Tree.leaves, isLeaf_iff.2 (show (Tree.node a []).children = [] from rfl)]
    · have : (Tree.node a cs).isLeaf = false := by
        rw [isLeaf_eq, decide_eq_false_iff_not]; exact hc
      rw [List.filter_cons, this, Tree.leaves_node_ne hc, Tree.leavesL_eq]
      simp only [Bool.false_eq_true, if_false]
      clear this hc hl
      induction cs with
      | nil => rfl
      | cons c cs ih2 =>
        simp only [List.flatMap_cons, List.filter_append]
        rw [ih c (by simp), ih2 (fun d hd => ih d (by simp [hd]))]

/-- Dense leaves, from left to right. -/
def HTree.denseLeaves (A : HTree R) : List (HTree R) := A.leaves.filter fun b => b.label.isDenseB

/-- Low-rank leaves, from left to right. -/
def HTree.lowLeaves (A : HTree R) : List (HTree R) := A.leaves.filter fun b => b.label.isLowRankB

theorem not_both (n : HNode R) : ¬ (n.isDenseB = true ∧ n.isLowRankB = true) := by
  unfold HNode.isDenseB HNode.isLowRankB
  cases n.data <;> simp

theorem outLeaves_eq (A : HTree R) : outLeaves A = (A.denseLeaves, A.lowLeaves) := by
  have key : ∀ (l : List (HTree R)) (acc : List (HTree R) × List (HTree R)),
      l.foldl (fun acc b => if b.isLeaf && b.label.isDenseB then (acc.1 ++ [b], acc.2)
        else if b.isLeaf && b.label.isLowRankB then (acc.1, acc.2 ++ [b]) else acc) acc =
      (acc.1 ++ (l.filter fun b => b.isLeaf).filter (fun b => b.label.isDenseB), acc.2 ++ (l.filter fun b => b.isLeaf).filter (fun b => b.label.isLowRankB)) := by
    intro l
    induction l with
    | nil => intro acc; simp
    | cons b l ih =>
      intro acc
      rw [List.foldl_cons, ih]
      have nb := not_both b.label
      cases hl : b.isLeaf <;> cases hd : b.label.isDenseB <;> cases hr : b.label.isLowRankB <;>
        simp_all [List.filter_cons]
  unfold outLeaves HTree.denseLeaves HTree.lowLeaves
  rw [key, Tree.preorderTraversal_eq, pre_filter_leaves]
  simp

theorem foldl_low (l : List (HTree R)) (a : InfoAcc) : l.foldl lowStep a =
    ⟨a.max0, l.foldl (fun m b => max m (b.label.tsz * b.label.ssz)) a.max1, l.foldl (fun m b => max m b.label.rank) a.max2,
     a.min0, l.foldl (fun m b => min m (b.label.tsz * b.label.ssz)) a.min1, l.foldl (fun m b => min m b.label.rank) a.min2,
     a.sum0, a.sum1 + (l.map fun b => ((b.label.tsz * b.label.ssz : ℕ) : ℚ)).sum, a.sum2 + (l.map fun b => (b.label.rank : ℚ)).sum,
     a.coef + (l.map fun b => (b.label.rank : ℚ) * ((b.label.tsz : ℚ) + b.label.ssz)).sum⟩ := by
  induction l generalizing a with
  | nil => simp
  | cons b l ih => rw [List.foldl_cons, ih]; simp only [lowStep, List.foldl_cons, List.map_cons, List.sum_cons]; congr 1 <;> ring

/-- Coefficients counted for a dense block. -/
def denseCoef (n : HNode R) : ℚ := if n.sym ≠ .N then (n.tsz : ℚ) * ((n.ssz : ℚ) + 1) / 2 else (n.tsz : ℚ) * n.ssz

theorem foldl_dense (l : List (HTree R)) (a : InfoAcc) : l.foldl denseStep a =
    ⟨l.foldl (fun m b => max m (b.label.tsz * b.label.ssz)) a.max0, a.max1, a.max2,
     l.foldl (fun m b => min m (b.label.tsz * b.label.ssz)) a.min0, a.min1, a.min2,
     a.sum0 + (l.map fun b => ((b.label.tsz * b.label.ssz : ℕ) : ℚ)).sum, a.sum1, a.sum2,
     a.coef + (l.map fun b => denseCoef b.label).sum⟩ := by
  induction l generalizing a with
  | nil => simp
  | cons b l ih => rw [List.foldl_cons, ih]; simp only [denseStep, denseCoef, List.foldl_cons, List.map_cons, List.sum_cons]; congr 1 <;> ring

/-- `m` is the largest element of `l`; 0 for the empty list. -/
def IsLargest (m : ℕ) (l : List ℕ) : Prop := (∀ x ∈ l, x ≤ m) ∧ (m ∈ l ∨ (l = [] ∧ m = 0))

/-- `m` is the smallest element of `l`; 0 for the empty list. -/
def IsSmallest (m : ℕ) (l : List ℕ) : Prop := (l = [] ∧ m = 0) ∨ (m ∈ l ∧ ∀ x ∈ l, m ≤ x)

theorem foldl_max {α : Type*} (f : α → ℕ) (l : List α) (m : ℕ) :
    m ≤ l.foldl (fun m b => max m (f b)) m ∧ (∀ b ∈ l, f b ≤ l.foldl (fun m b => max m (f b)) m) ∧
      (l.foldl (fun m b => max m (f b)) m = m ∨ ∃ b ∈ l, l.foldl (fun m b => max m (f b)) m = f b) := by
  induction l generalizing m with
  | nil => simp
  | cons a l ih =>
    obtain ⟨h1, h2, h3⟩ := ih (max m (f a))
    rw [List.foldl_cons]
    refine ⟨(le_max_left _ _).trans h1, ?_, ?_⟩
    · intro b hb
      rcases List.mem_cons.1 hb with rfl | hb
      · exact (le_max_right _ _).trans h1
      · exact h2 b hb
    · rcases h3 with h3 | ⟨b, hb, h3⟩
      · rw [h3]
        rcases max_cases m (f a) with h | h
        · exact Or.inl h.1
        · exact Or.inr ⟨a, by simp, h.1⟩
      · exact Or.inr ⟨b, by simp [hb], h3⟩

theorem foldl_min {α : Type*} (f : α → ℕ) (l : List α) (m : ℕ) :
    l.foldl (fun m b => min m (f b)) m ≤ m ∧ (∀ b ∈ l, l.foldl (fun m b => min m (f b)) m ≤ f b) ∧
      (l.foldl (fun m b => min m (f b)) m = m ∨ ∃ b ∈ l, l.foldl (fun m b => min m (f b)) m = f b) := by
  induction l generalizing m with
  | nil => simp
  | cons a l ih =>
    obtain ⟨h1, h2, h3⟩ := ih (min m (f a))
    rw [List.foldl_cons]
    refine ⟨h1.trans (min_le_left _ _), ?_, ?_⟩
    · intro b hb
      rcases List.mem_cons.1 hb with rfl | hb
      · exact h1.trans (min_le_right _ _)
      · exact h2 b hb
    · rcases h3 with h3 | ⟨b, hb, h3⟩
      · rw [h3]
        rcases min_cases m (f a) with h | h
        · exact Or.inl h.1
        · exact Or.inr ⟨a, by simp, h.1⟩
      · exact Or.inr ⟨b, by simp [hb], h3⟩

theorem isLargest_foldl {α : Type*} (f : α → ℕ) (l : List α) : IsLargest (l.foldl (fun m b => max m (f b)) 0) (l.map f) := by
  obtain ⟨-, h2, h3⟩ := foldl_max f l 0
  refine ⟨fun x hx => ?_, ?_⟩
  · obtain ⟨b, hb, rfl⟩ := List.mem_map.1 hx
    exact h2 b hb
  · rcases h3 with h3 | ⟨b, hb, h3⟩
    · cases l with
      | nil => exact Or.inr ⟨rfl, rfl⟩
      | cons a l =>
        have := h2 a (by simp)
        rw [h3] at this
        left
        rw [h3]
        exact List.mem_map.2 ⟨a, by simp, by omega⟩
    · left; rw [h3]; exact List.mem_map_of_mem hb

/-- The minimum started from `m` is right if some element is at most `m`. -/
theorem isSmallest_foldl {α : Type*} (f : α → ℕ) (l : List α) {m : ℕ} (h : l = [] ∨ ∃ b ∈ l, f b ≤ m) :
    IsSmallest (if l.length = 0 then 0 else l.foldl (fun m b => min m (f b)) m) (l.map f) := by
  by_cases hl : l = []
  · subst hl; exact Or.inl ⟨rfl, rfl⟩
  · obtain ⟨b, hb, hbm⟩ := h.resolve_left hl
    rw [if_neg (by simpa using hl)]
    right
    obtain ⟨h1, h2, h3⟩ := foldl_min f l m
    refine ⟨?_, fun x hx => ?_⟩
    · rcases h3 with h3 | ⟨c, hc, h3⟩
      · have := h2 b hb
        rw [h3] at this ⊢
        exact List.mem_map.2 ⟨b, hb, by omega⟩
      · rw [h3]; exact List.mem_map_of_mem hc
    · obtain ⟨c, hc, rfl⟩ := List.mem_map.1 hx
      exact h2 c hc

end Htool
