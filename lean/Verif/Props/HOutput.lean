import Verif.HOutput
import Verif.Props.HBuild
import Mathlib.Data.Finset.Prod
import Mathlib.Algebra.BigOperators.Intervals

/-! # C62-C64: information and display files of an H-matrix -/

namespace Htool
open Finset
variable {R : Type*}

/-! ## Specification -/

/-- Number of coefficients a leaf stores: all entries of a dense block, the lower triangle (with the diagonal) of a symmetric dense block, the two factors of a
low-rank block. -/
def HNode.stored (n : HNode R) : ℕ :=
  match n.data with
  | .dense _ => if n.sym = .N then #(range n.tsz ×ˢ range n.ssz) else #((range n.tsz ×ˢ range n.ssz).filter fun x => x.2 ≤ x.1)
  | .lowRank k _ _ => #(range n.tsz ×ˢ range k) + #(range k ×ˢ range n.ssz)
  | .hier => 0

/-- Number of coefficients stored by an H-matrix. -/
def HTree.stored (A : HTree R) : ℕ := (A.leaves.map fun l => l.label.stored).sum

/-- Number of entries of a block. -/
def HNode.area (n : HNode R) : ℕ := n.tsz * n.ssz

/-- Symmetric dense leaves are square. Holds for the output of the builder (`HTree.Fit`). -/
def HTree.SymSquare (A : HTree R) : Prop := ∀ l ∈ A.leaves, l.label.sym ≠ .N → l.label.tsz = l.label.ssz

theorem card_triangle (n : ℕ) : 2 * #((range n ×ˢ range n).filter fun x => x.2 ≤ x.1) = n * (n + 1) := by
  have h : #((range n ×ˢ range n).filter fun x => x.2 ≤ x.1) = ∑ i ∈ range n, (i + 1) := by
    rw [card_filter, Finset.sum_product]
    refine sum_congr rfl fun i hi => ?_
    rw [← card_filter]
    have : (range n).filter (fun j => j ≤ i) = range (i + 1) := by
      ext j; simp only [mem_filter, mem_range] at *; omega
    rw [this, card_range]
  rw [h, mul_comm, sum_add_distrib, add_mul, sum_range_id_mul_two]
  simp
  cases n with
  | zero => rfl
  | succ n => simp; ring

theorem stored_dense {n : HNode R} (hd : n.isDenseB = true) (hs : n.sym ≠ .N → n.tsz = n.ssz) : denseCoef n = n.stored := by
  unfold denseCoef HNode.stored
  unfold HNode.isDenseB at hd
  cases hn : n.data with
  | dense M =>
    by_cases h : n.sym = .N
    · simp [h]
    · simp only [h, ne_eq, not_false_eq_true, if_true, if_false]
      rw [hs h]
      have := card_triangle n.ssz
      have h2 : (2 : ℚ) * (#((range n.ssz ×ˢ range n.ssz).filter fun x => x.2 ≤ x.1) : ℕ) = (n.ssz : ℚ) * (n.ssz + 1) := by exact_mod_cast this
      linarith
  | lowRank k U V => rw [hn] at hd; cases hd
  | hier => rw [hn] at hd; cases hd

theorem stored_low {n : HNode R} (hd : n.isLowRankB = true) : (n.rank : ℚ) * ((n.tsz : ℚ) + n.ssz) = n.stored := by
  unfold HNode.rank HNode.stored
  unfold HNode.isLowRankB at hd
  cases hn : n.data with
  | lowRank k U V => simp; ring
  | dense M => rw [hn] at hd; cases hd
  | hier => rw [hn] at hd; cases hd

theorem sum_kinds {M : Type*} [AddCommMonoid M] (l : List (HTree R)) (f : HTree R → M) (h0 : ∀ b ∈ l, b.label.data = .hier → f b = 0) :
    ((l.filter fun b => b.label.isLowRankB).map f).sum + ((l.filter fun b => b.label.isDenseB).map f).sum = (l.map f).sum := by
  induction l with
  | nil => simp
  | cons b l ih =>
    have ih := ih (fun c hc => h0 c (by simp [hc]))
    have hb := h0 b (by simp)
    rw [List.map_cons, List.sum_cons, ← ih]
    cases hn : b.label.data with
    | dense M =>
      have h1 : b.label.isDenseB = true := by unfold HNode.isDenseB; rw [hn]
      have h2 : b.label.isLowRankB = false := by unfold HNode.isLowRankB; rw [hn]
      rw [List.filter_cons, List.filter_cons, if_neg (by simp [h2]), if_pos h1, List.map_cons, List.sum_cons, add_left_comm]
    | lowRank k U V =>
      have h1 : b.label.isDenseB = false := by unfold HNode.isDenseB; rw [hn]
      have h2 : b.label.isLowRankB = true := by unfold HNode.isLowRankB; rw [hn]
      rw [List.filter_cons, List.filter_cons, if_pos h2, if_neg (by simp [h1]), List.map_cons, List.sum_cons, add_assoc]
    | hier =>
      have h1 : b.label.isDenseB = false := by unfold HNode.isDenseB; rw [hn]
      have h2 : b.label.isLowRankB = false := by unfold HNode.isLowRankB; rw [hn]
      rw [List.filter_cons, List.filter_cons, if_neg (by simp [h2]), if_neg (by simp [h1]), hb hn, zero_add]

/-- The number of coefficients computed by the two loops. -/
theorem coef_eq {A : HTree R} (hA : A.SymSquare) :
    (A.lowLeaves.map fun b => (b.label.rank : ℚ) * ((b.label.tsz : ℚ) + b.label.ssz)).sum + (A.denseLeaves.map fun b => denseCoef b.label).sum = A.stored := by
  have h1 : (A.lowLeaves.map fun b => (b.label.rank : ℚ) * ((b.label.tsz : ℚ) + b.label.ssz)) = A.lowLeaves.map fun b => ((b.label.stored : ℕ) : ℚ) :=
    List.map_congr_left fun b hb => stored_low (List.mem_filter.1 hb).2
  have h2 : (A.denseLeaves.map fun b => denseCoef b.label) = A.denseLeaves.map fun b => ((b.label.stored : ℕ) : ℚ) :=
    List.map_congr_left fun b hb => stored_dense (List.mem_filter.1 hb).2 (hA b (List.mem_filter.1 hb).1)
  rw [h1, h2]
  unfold HTree.lowLeaves HTree.denseLeaves
  rw [sum_kinds A.leaves (fun b => ((b.label.stored : ℕ) : ℚ)) (fun b _ h => by unfold HNode.stored; rw [h]; rfl)]
  unfold HTree.stored
  rw [Nat.cast_list_sum, List.map_map]
  rfl

/-! ## C62 -/

/-- The list of sizes of blocks. -/
def areas (l : List (HTree R)) : List ℕ := l.map fun b => b.label.area

/-- The list of ranks of blocks. -/
def ranks (l : List (HTree R)) : List ℕ := l.map fun b => b.label.rank

/-- **C62 (counts, maxima, means).** -/
theorem C62_counts_max_mean (A : HTree R) :
    let I := hmatrixInfo A
    I.targetSize = A.label.tsz ∧ I.sourceSize = A.label.ssz ∧ I.nDense = A.denseLeaves.length ∧ I.nLow = A.lowLeaves.length ∧
    IsLargest I.denseMax (areas A.denseLeaves) ∧ IsLargest I.lowMax (areas A.lowLeaves) ∧ IsLargest I.rankMax (ranks A.lowLeaves) ∧
    I.denseMean = ((areas A.denseLeaves).sum : ℚ) / A.denseLeaves.length ∧ I.lowMean = ((areas A.lowLeaves).sum : ℚ) / A.lowLeaves.length ∧
    I.rankMean = ((ranks A.lowLeaves).sum : ℚ) / A.lowLeaves.length := by
  intro I
  have e : I = hmatrixInfo A := rfl
  simp only [hmatrixInfo, outLeaves_eq, foldl_low, foldl_dense] at e
  rw [e]
  have mean : ∀ (l : List (HTree R)) (f : HTree R → ℕ),
      (if l.length = 0 then (0 : ℚ) else (0 + (l.map fun b => ((f b : ℕ) : ℚ)).sum) / (l.length : ℚ)) = ((l.map f).sum : ℚ) / l.length := by
    intro l f
    rw [Nat.cast_list_sum, List.map_map, zero_add]
    split_ifs with h
    · rw [h]; simp
    · rfl
  exact ⟨rfl, rfl, rfl, rfl, isLargest_foldl _ _, isLargest_foldl _ _, isLargest_foldl _ _, mean _ _, mean _ _, mean _ _⟩

/-- **C62 (minima), partial.** The reported minimum of the sizes is right if one block of the kind is not larger than the larger dimension of the matrix; the
minimum of the ranks is right if one rank is at most that dimension. -/
theorem C62_min_partial (A : HTree R) (hd : A.denseLeaves = [] ∨ ∃ b ∈ A.denseLeaves, b.label.area ≤ max A.label.ssz A.label.tsz)
    (hl : A.lowLeaves = [] ∨ ∃ b ∈ A.lowLeaves, b.label.area ≤ max A.label.ssz A.label.tsz)
    (hr : A.lowLeaves = [] ∨ ∃ b ∈ A.lowLeaves, b.label.rank ≤ max A.label.ssz A.label.tsz) :
    let I := hmatrixInfo A
    IsSmallest I.denseMin (areas A.denseLeaves) ∧ IsSmallest I.lowMin (areas A.lowLeaves) ∧ IsSmallest I.rankMin (ranks A.lowLeaves) := by
  intro I
  have e : I = hmatrixInfo A := rfl
  simp only [hmatrixInfo, outLeaves_eq, foldl_low, foldl_dense] at e
  rw [e]
  exact ⟨isSmallest_foldl _ _ hd, isSmallest_foldl _ _ hl, isSmallest_foldl _ _ hr⟩

/-- One dense block of size 2 × 2. -/
def exOneDense : HTree ℤ := .node ⟨0, 2, 0, 2, .N, .N, .N, .N, .dense fun _ _ => 1⟩ []

theorem outLeaves_one {n : HNode R} {M : ℕ → ℕ → R} (h : n.data = .dense M) : outLeaves (.node n []) = ([.node n []], []) := by
  have h1 : n.isDenseB = true := by unfold HNode.isDenseB; rw [h]
  have h2 : n.isLowRankB = false := by unfold HNode.isLowRankB; rw [h]
  rw [outLeaves_eq]
  unfold HTree.denseLeaves HTree.lowLeaves
  simp [Tree.leaves, h1, h2]

theorem exOneDense_leaves : outLeaves exOneDense = ([exOneDense], []) := outLeaves_one rfl

/-- **C62 (minima) is false:** the minimum is started from the larger dimension, not from the number of entries. The only block of `exOneDense` has 4 entries, the
reported minimum is 2. -/
theorem C62_min_false : (hmatrixInfo exOneDense).denseMin = 2 ∧ areas exOneDense.denseLeaves = [4] ∧
    ¬ IsSmallest (hmatrixInfo exOneDense).denseMin (areas exOneDense.denseLeaves) := by
  have h1 : (hmatrixInfo exOneDense).denseMin = 2 := by
    simp only [hmatrixInfo, exOneDense_leaves]; rfl
  have h2 : areas exOneDense.denseLeaves = [4] := by
    have := outLeaves_eq exOneDense
    rw [exOneDense_leaves] at this
    rw [show exOneDense.denseLeaves = [exOneDense] from (congrArg Prod.fst this).symm]; rfl
  refine ⟨h1, h2, ?_⟩
  rw [h1, h2]
  rintro (⟨h, -⟩ | ⟨h, -⟩) <;> simp at h

/-- **C62 (compression), partial.** For matrices with fewer than `2³²` entries: the compression ratio is the number of entries over the number of stored
coefficients and the space saving is the fraction of the entries not stored. -/
theorem C62_compression_partial {A : HTree R} (hA : A.SymSquare) (h32 : A.label.area < 2 ^ 32) :
    (hmatrixInfo A).ratio = (A.label.area : ℚ) / A.stored ∧ (hmatrixInfo A).saving = 1 - (A.stored : ℚ) / A.label.area := by
  simp only [hmatrixInfo, outLeaves_eq, foldl_low, foldl_dense, zero_add, coef_eq hA]
  unfold mulU32
  unfold HNode.area at *
  rw [Nat.mod_eq_of_lt h32]
  exact ⟨rfl, rfl⟩

/-- One dense block of size 65536 × 65537. -/
def exLarge : HTree ℤ := .node ⟨0, 65536, 0, 65537, .N, .N, .N, .N, .dense fun _ _ => 1⟩ []

theorem exLarge_leaves : outLeaves exLarge = ([exLarge], []) := outLeaves_one rfl

theorem exLarge_coef : denseCoef exLarge.label = 65536 * 65537 := by
  simp [denseCoef, exLarge]

/-- **C62 (compression) is false for large matrices:** the number of entries is computed with 32 bits. A matrix of size 65536 × 65537 stored as one dense block,
without any compression, gets the space saving -65536 instead of 0. -/
theorem C62_compression_overflows : exLarge.SymSquare ∧ exLarge.stored = exLarge.label.area ∧ (hmatrixInfo exLarge).ratio = 1 / 65537 ∧
    (hmatrixInfo exLarge).saving = -65536 := by
  refine ⟨?_, ?_, ?_, ?_⟩
  · intro l hl h
    simp only [exLarge, Tree.leaves, List.mem_singleton] at hl
    subst hl; exact absurd rfl h
  · simp [HTree.stored, exLarge, Tree.leaves, HNode.stored, HNode.area]
  · simp only [hmatrixInfo, exLarge_leaves, foldl_dense, List.foldl_nil, List.map_cons, List.map_nil, List.sum_cons, List.sum_nil, exLarge_coef]
    rw [show mulU32 exLarge.label.tsz exLarge.label.ssz = 65536 from rfl]
    norm_num
  · simp only [hmatrixInfo, exLarge_leaves, foldl_dense, List.foldl_nil, List.map_cons, List.map_nil, List.sum_cons, List.sum_nil, exLarge_coef]
    rw [show mulU32 exLarge.label.tsz exLarge.label.ssz = 65536 from rfl]
    norm_num

/-! ### Entries and stored coefficients of a built H-matrix -/

theorem area_count {n : HNode R} {a b : ℕ × ℕ} (h1 : Inside (n.toff, n.tsz) a) (h2 : Inside (n.soff, n.ssz) b) :
    n.area = ∑ i ∈ Ico a.1 (a.1 + a.2), ∑ j ∈ Ico b.1 (b.1 + b.2), (if n.Has i j then 1 else 0) := by
  unfold Inside at h1 h2
  simp only at h1 h2
  have e : ∀ i j, (if n.Has i j then (1 : ℕ) else 0) = (if i ∈ Ico n.toff (n.toff + n.tsz) then 1 else 0) * (if j ∈ Ico n.soff (n.soff + n.ssz) then 1 else 0) := by
    intro i j
    unfold HNode.Has InIv
    simp only [mem_Ico]
    by_cases h3 : n.toff ≤ i ∧ i < n.toff + n.tsz <;> by_cases h4 : n.soff ≤ j ∧ j < n.soff + n.ssz <;> simp [h3, h4]
  simp only [e, ← mul_sum, ← sum_mul]
  rw [sum_ite_mem, sum_ite_mem]
  have i1 : Ico a.1 (a.1 + a.2) ∩ Ico n.toff (n.toff + n.tsz) = Ico n.toff (n.toff + n.tsz) := by
    ext x; simp only [mem_inter, mem_Ico]; omega
  have i2 : Ico b.1 (b.1 + b.2) ∩ Ico n.soff (n.soff + n.ssz) = Ico n.soff (n.soff + n.ssz) := by
    ext x; simp only [mem_inter, mem_Ico]; omega
  rw [i1, i2]
  simp [HNode.area]

theorem sum_areas {l : List (HTree R)} {a b : ℕ × ℕ} (h : ∀ c ∈ l, Inside (c.label.toff, c.label.tsz) a ∧ Inside (c.label.soff, c.label.ssz) b) :
    (areas l).sum = ∑ i ∈ Ico a.1 (a.1 + a.2), ∑ j ∈ Ico b.1 (b.1 + b.2), l.countP (fun c => decide (c.label.Has i j)) := by
  induction l with
  | nil => simp [areas]
  | cons c l ih =>
    have := ih (fun d hd => h d (by simp [hd]))
    have hc := h c (by simp)
    unfold areas at this ⊢
    rw [List.map_cons, List.sum_cons, this, area_count hc.1 hc.2, ← sum_add_distrib]
    refine sum_congr rfl fun i _ => ?_
    rw [← sum_add_distrib]
    refine sum_congr rfl fun j _ => ?_
    rw [List.countP_cons, add_comm]
    simp

/-- The leaves (and the mirror images of those under a symmetric block) cover every entry once. Holds for built H-matrices (`C62_built`). -/
structure HTree.CoversOnce (A : HTree R) : Prop where
  inside : ∀ l ∈ A.leaves, Inside (l.label.toff, l.label.tsz) (A.label.toff, A.label.tsz) ∧ Inside (l.label.soff, l.label.ssz) (A.label.soff, A.label.ssz)
  mirror : ∀ l ∈ (getLeavesH A).2, Inside (l.label.soff, l.label.ssz) (A.label.toff, A.label.tsz) ∧ Inside (l.label.toff, l.label.tsz) (A.label.soff, A.label.ssz)
  once : ∀ i j, InIv i (A.label.toff, A.label.tsz) → InIv j (A.label.soff, A.label.ssz) →
    A.leaves.countP (fun l => decide (l.label.Has i j)) + (getLeavesH A).2.countP (fun l => decide (l.label.Has j i)) = 1

/-- The sizes of the leaves and of the mirrored leaves add up to the number of entries. -/
theorem C62_areas_sum {A : HTree R} (h : A.CoversOnce) : (areas A.leaves).sum + (areas (getLeavesH A).2).sum = A.label.area := by
  have m : (areas (getLeavesH A).2).sum = ∑ i ∈ Ico A.label.toff (A.label.toff + A.label.tsz), ∑ j ∈ Ico A.label.soff (A.label.soff + A.label.ssz),
      (getLeavesH A).2.countP (fun c => decide (c.label.Has j i)) := by
    rw [sum_areas (a := (A.label.soff, A.label.ssz)) (b := (A.label.toff, A.label.tsz)) (fun c hc => ⟨(h.mirror c hc).2, (h.mirror c hc).1⟩)]
    rw [sum_comm]
  rw [sum_areas h.inside, m, ← sum_add_distrib]
  have : ∀ i ∈ Ico A.label.toff (A.label.toff + A.label.tsz), ((∑ j ∈ Ico A.label.soff (A.label.soff + A.label.ssz), A.leaves.countP (fun c => decide (c.label.Has i j))) +
      ∑ j ∈ Ico A.label.soff (A.label.soff + A.label.ssz), (getLeavesH A).2.countP (fun c => decide (c.label.Has j i))) = A.label.ssz := by
    intro i hi
    rw [← sum_add_distrib]
    rw [sum_congr rfl (fun j hj => h.once i j (by simpa [InIv] using hi) (by simpa [InIv] using hj))]
    simp
  rw [sum_congr rfl this]
  simp [HNode.area]

/-- **C62 (space saving).** If every entry is covered once and every low-rank block stores no more than the dense block would, the reported space saving of a matrix
with fewer than `2³²` entries lies between 0 and 1. -/
theorem C62_saving_range {A : HTree R} (hA : A.SymSquare) (hc : A.CoversOnce) (h32 : A.label.area < 2 ^ 32)
    (hk : ∀ l ∈ A.lowLeaves, l.label.rank * (l.label.tsz + l.label.ssz) ≤ l.label.area) :
    0 ≤ (hmatrixInfo A).saving ∧ (hmatrixInfo A).saving ≤ 1 := by
  have hs : A.stored ≤ A.label.area := by
    have : A.stored ≤ (areas A.leaves).sum := by
      unfold HTree.stored areas
      refine List.sum_le_sum fun l hl => ?_
      unfold HNode.stored
      cases hd : l.label.data with
      | dense M =>
        have hc : #(range l.label.tsz ×ˢ range l.label.ssz) = l.label.area := by simp [HNode.area]
        simp only
        split_ifs
        · exact hc.le
        · exact (card_filter_le _ _).trans hc.le
      | lowRank k U V =>
        have h1 : l.label.isLowRankB = true := by unfold HNode.isLowRankB; rw [hd]
        have := hk l (List.mem_filter.2 ⟨hl, h1⟩)
        have hr : l.label.rank = k := by unfold HNode.rank; rw [hd]
        rw [hr] at this
        simp only [card_product, card_range]
        calc _ = k * (l.label.tsz + l.label.ssz) := by ring
          _ ≤ _ := this
      | hier => exact Nat.zero_le _
    have h2 := C62_areas_sum hc
    omega
  rw [(C62_compression_partial hA h32).2]
  have h1 : (A.stored : ℚ) ≤ A.label.area := by exact_mod_cast hs
  have h0 : (0 : ℚ) ≤ A.stored := by positivity
  have ha : (0 : ℚ) ≤ A.label.area := by positivity
  constructor
  · have := div_le_one_of_le₀ h1 ha
    linarith
  · have := div_nonneg h0 ha
    linarith

section built
variable {G : Type*} [CommRing R] [StarRing R]

/-- Four blocks of size 3 × 3, the off-diagonal ones of rank 1. -/
def exFour : HTree ℤ := .node ⟨0, 6, 0, 6, .N, .N, .N, .N, .hier⟩
  [.node ⟨0, 3, 0, 3, .N, .N, .N, .N, .dense fun _ _ => 1⟩ [], .node ⟨0, 3, 3, 3, .N, .N, .N, .N, .lowRank 1 (fun _ _ => 1) (fun _ _ => 1)⟩ [],
   .node ⟨3, 3, 0, 3, .N, .N, .N, .N, .lowRank 1 (fun _ _ => 1) (fun _ _ => 1)⟩ [], .node ⟨3, 3, 3, 3, .N, .N, .N, .N, .dense fun _ _ => 1⟩ []]

theorem exFour_mirror : (getLeavesH exFour).2 = [] := by
  refine List.eq_nil_of_length_eq_zero ?_
  rw [(getLeavesH_perm exFour).2.length_eq]
  rfl

theorem exFour_covers : exFour.CoversOnce := by
  refine ⟨?_, ?_, ?_⟩
  · intro l hl
    simp only [exFour, Tree.leaves, Tree.leavesL, List.append_nil, List.cons_append, List.nil_append, List.mem_cons, List.not_mem_nil, or_false] at hl
    rcases hl with rfl | rfl | rfl | rfl <;> simp [Inside, exFour]
  · intro l hl; rw [exFour_mirror] at hl; cases hl
  · rw [exFour_mirror]
    intro i j hi hj
    have hi : i < 6 := by simpa [exFour, InIv, Tree.label] using hi
    have hj : j < 6 := by simpa [exFour, InIv, Tree.label] using hj
    interval_cases i <;> interval_cases j <;> rfl

/-- The hypotheses of `C62_saving_range`, `C62_compression_partial` and `C64_leaves_cover` hold for `exFour`: 30 of 36 coefficients are stored. -/
example : exFour.SymSquare ∧ exFour.CoversOnce ∧ exFour.label.area < 2 ^ 32 ∧ (∀ l ∈ exFour.lowLeaves, l.label.rank * (l.label.tsz + l.label.ssz) ≤ l.label.area) ∧
    (getLeavesH exFour).2 = [] ∧ exFour.stored = 30 ∧ exFour.label.area = 36 := by
  have h1 : exFour.SymSquare := by
    intro l hl
    simp only [exFour, Tree.leaves, Tree.leavesL, List.append_nil, List.cons_append, List.nil_append, List.mem_cons, List.not_mem_nil, or_false] at hl
    rcases hl with rfl | rfl | rfl | rfl <;> simp
  refine ⟨h1, exFour_covers, by decide, ?_, exFour_mirror, rfl, rfl⟩
  intro l hl
  have hl := (List.mem_filter.1 hl).1
  simp only [exFour, Tree.leaves, Tree.leavesL, List.append_nil, List.cons_append, List.nil_append, List.mem_cons, List.not_mem_nil, or_false] at hl
  rcases hl with rfl | rfl | rfl | rfl <;> simp [HNode.rank, HNode.area]

/-- The hypotheses of `C62_min_partial` are met by one block of size 1 × 3. -/
example : let A : HTree ℤ := .node ⟨0, 1, 0, 3, .N, .N, .N, .N, .dense fun _ _ => 1⟩ []
    (A.denseLeaves = [] ∨ ∃ b ∈ A.denseLeaves, b.label.area ≤ max A.label.ssz A.label.tsz) ∧ A.lowLeaves = [] :=
  ⟨Or.inr ⟨_, List.mem_singleton.2 rfl, by decide⟩, rfl⟩

/-- **C62 (built H-matrices).** The H-matrix returned by a build, under any schedule, meets the hypotheses of the theorems above, every leaf is counted, and the
number of low-rank blocks reported is the number of admissible blocks minus the reported number of false positives. -/
theorem C62_built {T : ℕ} (hT : 0 < T) {E : BEnv G} {cplx : Bool} {lr : LRGen R} {dg : Option (DenseGen R)} {fuel : ℕ}
    {t s r : CTree G} (hcov : Covered E t s r) {gen : ℕ → ℕ → R} (hgen : UserGen E cplx dg gen r.iv) {m m' : Mem R} {B' : Builder} {H : Tree ℕ}
    (h : BuildStep T E lr dg fuel t s gen m Builder.empty m' B' H) :
    HTree.SymSquare (H.map m'.heap) ∧ HTree.CoversOnce (H.map m'.heap) ∧
    (hmatrixInfo (H.map m'.heap)).targetSize = r.sz ∧ (hmatrixInfo (H.map m'.heap)).sourceSize = s.sz ∧
    (hmatrixInfo (H.map m'.heap)).nDense + (hmatrixInfo (H.map m'.heap)).nLow = (H.map m'.heap).leaves.length ∧
    ∃ b, buildBlocks E fuel t s = some b ∧ (hmatrixInfo (H.map m'.heap)).nLow + B'.fp = b.leaves.countP (fun c => decide (c.label.kind = .adm)) := by
  obtain ⟨b, h1, h2, -, -, -, -, -, hfp, -⟩ := build_spec hT hcov.buildOK (sysInv_empty m) h
  obtain ⟨hb, e1, e2⟩ := hcov.blocks h1
  rw [h2]
  rw [← e1] at hgen
  have fit : HTree.Fit cplx E.sym.toH (assembled E lr dg gen b) := assembled_fit hb hgen.genOK
  have hlab : (assembled E lr dg gen b).label = finalNode E lr dg gen b := by
    cases b with | node a cs => rw [assembled_node]; rfl
  have hnode : ((assembled E lr dg gen b).label.toff, (assembled E lr dg gen b).label.tsz) = b.label.t.iv := by rw [hlab]; rfl
  have hnodes : ((assembled E lr dg gen b).label.soff, (assembled E lr dg gen b).label.ssz) = b.label.s.iv := by rw [hlab]; rfl
  have data : ∀ l ∈ (assembled E lr dg gen b).leaves, l.label.data ≠ .hier := fun l hl => (fit.leafOK l hl).data
  have hI : ∀ A : HTree R, (hmatrixInfo A).nDense = A.denseLeaves.length ∧ (hmatrixInfo A).nLow = A.lowLeaves.length := fun A =>
    ⟨(C62_counts_max_mean A).2.2.1, (C62_counts_max_mean A).2.2.2.1⟩
  refine ⟨fun l hl hs => (fit.leafOK l hl).square hs, ⟨fit.inside, fun l hl => (fit.mirror l hl).2, ?_⟩, ?_, ?_, ?_, b, h1, ?_⟩
  · intro i j hi hj
    rw [hnode] at hi; rw [hnodes] at hj
    rw [← (getLeavesH_perm (assembled E lr dg gen b)).1.countP_eq]
    exact assembled_cover hb ⟨hi, hj⟩
  · rw [(C62_counts_max_mean _).1, hlab, ← e1]; rfl
  · rw [(C62_counts_max_mean _).2.1, hlab, ← e2]; rfl
  · rw [(hI _).1, (hI _).2]
    have := sum_kinds (assembled E lr dg gen b).leaves (fun _ => (1 : ℕ)) (fun l hl h => absurd h (data l hl))
    unfold HTree.denseLeaves HTree.lowLeaves
    simp only [List.map_const', List.sum_replicate, smul_eq_mul, mul_one] at this
    omega
  · rw [(hI _).2]
    have hf : B'.fp = fallbacks lr gen b := by rw [hfp, ← failCount_eq E]; simp [Builder.empty]
    have c1 : (assembled E lr dg gen b).lowLeaves.length = b.leaves.countP (fun c => decide (c.label.kind = .adm ∧
        ¬ ((lr gen c.label.t.iv c.label.s.iv).urows ≠ c.label.t.sz ∨ (lr gen c.label.t.iv c.label.s.iv).vcols ≠ c.label.s.sz))) := by
      unfold HTree.lowLeaves
      rw [← List.countP_eq_length_filter, ← (getLeavesH_perm _).1.countP_eq, ← (getLeavesFrom_perm b).1.countP_eq]
      refine (forall₂_countP (leaves_rel (lr := lr) (dg := dg) (gen := gen) hb).1 fun c l hcl => ?_).symm
      have hd := hcl.label.data
      rw [Bool.eq_iff_iff, decide_eq_true_iff]
      unfold HNode.isLowRankB
      rw [hd]
      unfold blockData
      cases hk : c.label.kind with
      | adm =>
        simp only [true_and, admOf]
        have hiff := lrFails_iff (n := (mkCell E c.label : HNode R)) (r := lrOf lr gen (mkCell E c.label))
        by_cases hfl : lrFails (mkCell E c.label : HNode R) (lrOf lr gen (mkCell E c.label)) = true
        · have h5 := hiff.1 hfl
          have h6 : (lr gen c.label.t.iv c.label.s.iv).urows ≠ c.label.t.sz ∨ (lr gen c.label.t.iv c.label.s.iv).vcols ≠ c.label.s.sz := h5
          rw [if_pos hfl]
          simp [denseOf, h6]
        · have h5 := fun h => hfl (hiff.2 h)
          have h6 : ¬ ((lr gen c.label.t.iv c.label.s.iv).urows ≠ c.label.t.sz ∨ (lr gen c.label.t.iv c.label.s.iv).vcols ≠ c.label.s.sz) := h5
          rw [if_neg hfl]
          simp [h6]
      | dense => simp [denseData]; cases dg <;> simp [denseOf]
      | hier => simp
    have c2 : fallbacks lr gen b = b.leaves.countP (fun c => decide (c.label.kind = .adm ∧
        ((lr gen c.label.t.iv c.label.s.iv).urows ≠ c.label.t.sz ∨ (lr gen c.label.t.iv c.label.s.iv).vcols ≠ c.label.s.sz))) := by
      unfold fallbacks
      rw [← pre_filter_leaves, List.countP_filter]
      refine List.countP_congr fun c hc => ?_
      simp only [decide_eq_true_eq, Bool.and_eq_true]
      have ok := hcov.buildOK
      have := (C15_only_admissible_compressed ok.wfT ok.wfS ok.memT ok.memS ok.part h1 c hc).1
      constructor
      · intro h5; exact ⟨h5, isLeaf_iff.2 (this h5.1).2.2.2.2.2⟩
      · intro h5; exact h5.1
    rw [c1, hf, c2]
    generalize b.leaves = L
    induction L with
    | nil => rfl
    | cons c L ih =>
      simp only [List.countP_cons]
      by_cases h1 : c.label.kind = .adm <;>
        by_cases h2 : ((lr gen c.label.t.iv c.label.s.iv).urows ≠ c.label.t.sz ∨ (lr gen c.label.t.iv c.label.s.iv).vcols ≠ c.label.s.sz) <;>
        simp only [h1, h2, true_and, false_and, not_true_eq_false, not_false_eq_true, and_false, and_true, decide_true, decide_false, if_true, if_false, Bool.false_eq_true] <;> omega

end built

/-- A build satisfying the hypotheses of `C62_built` exists. -/
example : ∃ (m' : Mem ℤ) (B' : Builder) (H : Tree ℕ), Covered exPointEnv exPoint exPoint exPoint ∧ UserGen exPointEnv false none (fun _ _ => (3 : ℤ)) exPoint.iv ∧
    BuildStep 2 exPointEnv exLr none 5 exPoint exPoint (fun _ _ => 3) exMem Builder.empty m' B' H := by
  obtain ⟨b, hb⟩ := Option.isSome_iff_exists.1 (show (buildBlocks exPointEnv 5 exPoint exPoint).isSome by decide +kernel)
  obtain ⟨m1, B1, H1, s1⟩ := build_exists (T := 2) (lr := exLr) (dg := none) exPoint_ok (gen := fun _ _ => (3 : ℤ)) (sysInv_empty exMem) hb
  exact ⟨m1, B1, H1, .plain exPoint_wf exPoint_wf (fun x hx => by simp [exPointEnv, exPoint, Tree.pre, Tree.preL] at hx; subst hx; simp [Tree.sz])
      (fun x hx => by simp [exPointEnv, exPoint, Tree.pre, Tree.preL] at hx; subst hx; simp [Tree.sz]) rfl (Tree.mem_pre_self _)
      (Tree.mem_pre_self _) (Or.inl rfl), ⟨by simp [exPointEnv], by simp [exPointEnv], by simp [exPointEnv], by simp⟩, s1⟩

/-! ## C63: information over MPI ranks -/

/-- All blocks of a kind over the ranks `0 … n`. -/
def overRanks (n : ℕ) (f : ℕ → List (HTree R)) : List (HTree R) := (List.range (n + 1)).flatMap f

theorem redMax_spec (f : ℕ → ℕ) (n : ℕ) : (∀ p < n + 1, f p ≤ redMax f n) ∧ ∃ p < n + 1, redMax f n = f p := by
  obtain ⟨h1, h2, h3⟩ := foldl_max (fun i => f (i + 1)) (List.range n) (f 0)
  refine ⟨fun p hp => ?_, ?_⟩
  · cases p with
    | zero => exact h1
    | succ p => exact h2 p (List.mem_range.2 (by omega))
  · rcases h3 with h3 | ⟨b, hb, h3⟩
    · exact ⟨0, by omega, h3⟩
    · exact ⟨b + 1, by have := List.mem_range.1 hb; omega, h3⟩

theorem redMin_spec (f : ℕ → ℕ) (n : ℕ) : (∀ p < n + 1, redMin f n ≤ f p) ∧ ∃ p < n + 1, redMin f n = f p := by
  obtain ⟨h1, h2, h3⟩ := foldl_min (fun i => f (i + 1)) (List.range n) (f 0)
  refine ⟨fun p hp => ?_, ?_⟩
  · cases p with
    | zero => exact h1
    | succ p => exact h2 p (List.mem_range.2 (by omega))
  · rcases h3 with h3 | ⟨b, hb, h3⟩
    · exact ⟨0, by omega, h3⟩
    · exact ⟨b + 1, by have := List.mem_range.1 hb; omega, h3⟩

/-- Largest over the ranks of the largest of each rank. -/
theorem largest_ranks {n : ℕ} {f : ℕ → List (HTree R)} {g : HTree R → ℕ} {m : ℕ → ℕ} (h : ∀ p < n + 1, IsLargest (m p) ((f p).map g)) :
    IsLargest (redMax m n) ((overRanks n f).map g) := by
  obtain ⟨h1, p, hp, h2⟩ := redMax_spec m n
  have mem : ∀ x, x ∈ (overRanks n f).map g ↔ ∃ q < n + 1, x ∈ (f q).map g := by
    intro x
    unfold overRanks
    simp only [List.mem_map, List.mem_flatMap, List.mem_range]
    constructor
    · rintro ⟨a, ⟨q, hq, ha⟩, rfl⟩; exact ⟨q, hq, a, ha, rfl⟩
    · rintro ⟨q, hq, a, ha, rfl⟩; exact ⟨a, ⟨q, hq, ha⟩, rfl⟩
  refine ⟨fun x hx => ?_, ?_⟩
  · obtain ⟨q, hq, hx⟩ := (mem x).1 hx
    exact ((h q hq).1 x hx).trans (h1 q hq)
  · rcases (h p hp).2 with hm | ⟨-, hm⟩
    · left; rw [h2]; exact (mem _).2 ⟨p, hp, hm⟩
    · by_cases he : (overRanks n f).map g = []
      · exact Or.inr ⟨he, by rw [h2, hm]⟩
      · left
        obtain ⟨x, hx⟩ := List.exists_mem_of_ne_nil _ he
        obtain ⟨q, hq, hx'⟩ := (mem x).1 hx
        have := ((h q hq).1 x hx').trans (h1 q hq)
        rw [h2, hm] at this ⊢
        have : x = 0 := by omega
        rw [← this]; exact hx

theorem sum_ranks (n : ℕ) (f : ℕ → List (HTree R)) (g : HTree R → ℕ) :
    ((overRanks n f).map g).sum = ∑ p ∈ range (n + 1), ((f p).map g).sum := by
  unfold overRanks
  induction n with
  | zero => simp
  | succ n ih =>
    rw [List.range_succ, List.flatMap_append, List.map_append, List.sum_append, ih, sum_range_succ _ (n + 1)]
    simp

theorem length_ranks (n : ℕ) (f : ℕ → List (HTree R)) : (overRanks n f).length = ∑ p ∈ range (n + 1), (f p).length := by
  have := sum_ranks n f (fun _ => 1)
  simpa using this

/-- **C63 (counts, maxima, means over the ranks).** -/
theorem C63_counts_max_mean (n : ℕ) (A : ℕ → HTree R) :
    let I := distInfo n A
    let D := overRanks n fun p => (A p).denseLeaves
    let L := overRanks n fun p => (A p).lowLeaves
    I.nDense = D.length ∧ I.nLow = L.length ∧
    IsLargest I.denseMax (areas D) ∧ IsLargest I.lowMax (areas L) ∧ IsLargest I.rankMax (ranks L) ∧
    I.denseMean = ((areas D).sum : ℚ) / D.length ∧ I.lowMean = ((areas L).sum : ℚ) / L.length ∧ I.rankMean = ((ranks L).sum : ℚ) / L.length ∧
    ((∀ p ≤ n, (A p).label.tsz ≤ I.targetMax ∧ I.targetMin ≤ (A p).label.tsz) ∧ (∃ p ≤ n, I.targetMax = (A p).label.tsz) ∧ ∃ p ≤ n, I.targetMin = (A p).label.tsz) ∧
    ((∀ p ≤ n, (A p).label.ssz ≤ I.sourceMax ∧ I.sourceMin ≤ (A p).label.ssz) ∧ (∃ p ≤ n, I.sourceMax = (A p).label.ssz) ∧ ∃ p ≤ n, I.sourceMin = (A p).label.ssz) ∧
    I.targetMean = ((∑ p ∈ range (n + 1), (A p).label.tsz : ℕ) : ℚ) / (n + 1) ∧ I.sourceMean = ((∑ p ∈ range (n + 1), (A p).label.ssz : ℕ) : ℚ) / (n + 1) := by
  intro I D L
  have e : I = distInfo n A := rfl
  simp only [distInfo, localInfo, outLeaves_eq, foldl_low, foldl_dense] at e
  rw [e]
  have mean : ∀ (f : ℕ → List (HTree R)) (g : HTree R → ℕ),
      (if ∑ p ∈ range (n + 1), (f p).length = 0 then (0 : ℚ) else
        (∑ p ∈ range (n + 1), (0 + ((f p).map fun b => ((g b : ℕ) : ℚ)).sum)) / ((∑ p ∈ range (n + 1), (f p).length : ℕ) : ℚ)) =
      (((overRanks n f).map g).sum : ℚ) / (overRanks n f).length := by
    intro f g
    rw [length_ranks, sum_ranks]
    split_ifs with h
    · rw [h]; simp
    · congr 1
      rw [Nat.cast_sum]
      refine sum_congr rfl fun p _ => ?_
      rw [zero_add, Nat.cast_list_sum, List.map_map]; rfl
  have mm : ∀ f : ℕ → ℕ, (∀ p ≤ n, f p ≤ redMax f n ∧ redMin f n ≤ f p) ∧ (∃ p ≤ n, redMax f n = f p) ∧ ∃ p ≤ n, redMin f n = f p := by
    intro f
    obtain ⟨h1, p, hp, h2⟩ := redMax_spec f n
    obtain ⟨h3, q, hq, h4⟩ := redMin_spec f n
    exact ⟨fun r hr => ⟨h1 r (by omega), h3 r (by omega)⟩, ⟨p, by omega, h2⟩, q, by omega, h4⟩
  exact ⟨(length_ranks _ _).symm, (length_ranks _ _).symm, largest_ranks fun p _ => isLargest_foldl _ _, largest_ranks fun p _ => isLargest_foldl _ _,
    largest_ranks fun p _ => isLargest_foldl _ _, mean _ _, mean _ _, mean _ _, mm _, mm _, by push_cast; rfl, by push_cast; rfl⟩

theorem coefDense_eq {n : ℕ} {b : HTree R} (hd : b.label.isDenseB = true) (hs : b.label.sym ≠ .N → b.label.tsz = b.label.ssz) :
    coefStepDense n b = n + b.label.stored := by
  have h := stored_dense hd hs
  unfold denseCoef at h
  unfold coefStepDense
  by_cases hN : b.label.sym = .N
  · simp only [hN, ne_eq, not_true_eq_false, if_false] at h ⊢
    have : (b.label.tsz * b.label.ssz : ℕ) = b.label.stored := by exact_mod_cast h
    omega
  · simp only [hN, ne_eq, not_false_eq_true, if_true] at h ⊢
    push_cast
    rw [h, ← Nat.cast_add, Nat.floor_natCast]

theorem coef_nat {A : HTree R} (hA : A.SymSquare) : (localInfo A).coef = A.stored := by
  unfold localInfo
  simp only [outLeaves_eq]
  have h1 : ∀ (l : List (HTree R)) (n : ℕ), (∀ b ∈ l, b.label.isLowRankB = true) → l.foldl coefStepLow n = n + (l.map fun b => b.label.stored).sum := by
    intro l
    induction l with
    | nil => intro n _; simp
    | cons b l ih =>
      intro n h
      rw [List.foldl_cons, ih _ (fun c hc => h c (by simp [hc])), List.map_cons, List.sum_cons]
      have := stored_low (h b (by simp))
      have : b.label.rank * (b.label.tsz + b.label.ssz) = b.label.stored := by exact_mod_cast this
      unfold coefStepLow
      omega
  have h2 : ∀ (l : List (HTree R)) (n : ℕ), (∀ b ∈ l, b.label.isDenseB = true ∧ (b.label.sym ≠ .N → b.label.tsz = b.label.ssz)) →
      l.foldl coefStepDense n = n + (l.map fun b => b.label.stored).sum := by
    intro l
    induction l with
    | nil => intro n _; simp
    | cons b l ih =>
      intro n h
      have hb := h b (by simp)
      rw [List.foldl_cons, ih _ (fun c hc => h c (by simp [hc])), List.map_cons, List.sum_cons, coefDense_eq hb.1 hb.2]
      omega
  rw [h1 A.lowLeaves _ (fun b hb => (List.mem_filter.1 hb).2), h2 A.denseLeaves _ (fun b hb => ⟨(List.mem_filter.1 hb).2, hA b (List.mem_filter.1 hb).1⟩), zero_add]
  exact sum_kinds A.leaves (fun b => b.label.stored) (fun b _ h => by unfold HNode.stored; rw [h])

/-- **C63 (compression over the ranks), partial.** If every local matrix has fewer than `2³²` entries: all entries over all stored coefficients. -/
theorem C63_compression_partial {n : ℕ} {A : ℕ → HTree R} (hA : ∀ p ≤ n, (A p).SymSquare) (h32 : ∀ p ≤ n, (A p).label.area < 2 ^ 32) :
    (distInfo n A).ratio = ((∑ p ∈ range (n + 1), (A p).label.area : ℕ) : ℚ) / ((∑ p ∈ range (n + 1), (A p).stored : ℕ) : ℚ) ∧
    (distInfo n A).saving = 1 - ((∑ p ∈ range (n + 1), (A p).stored : ℕ) : ℚ) / ((∑ p ∈ range (n + 1), (A p).label.area : ℕ) : ℚ) := by
  have h1 : ∑ p ∈ range (n + 1), (localInfo (A p)).coef = ∑ p ∈ range (n + 1), (A p).stored :=
    sum_congr rfl fun p hp => coef_nat (hA p (by have := mem_range.1 hp; omega))
  have h2 : ∑ p ∈ range (n + 1), (localInfo (A p)).size = ∑ p ∈ range (n + 1), (A p).label.area := by
    refine sum_congr rfl fun p hp => ?_
    have := h32 p (by have := mem_range.1 hp; omega)
    unfold HNode.area at *
    show mulU32 _ _ = _
    unfold mulU32
    rw [mul_comm, Nat.mod_eq_of_lt this]
  unfold distInfo
  simp only [h1, h2, and_self]

/-- Smallest over the ranks: right if for every rank some block (of any rank) is at most the starting value of that rank. -/
theorem smallest_ranks {n : ℕ} {f : ℕ → List (HTree R)} {g : HTree R → ℕ} {s : ℕ → ℕ}
    (h : overRanks n f = [] ∨ ∀ p ≤ n, ∃ b ∈ overRanks n f, g b ≤ s p) :
    IsSmallest (if ∑ p ∈ range (n + 1), (f p).length = 0 then 0 else redMin (fun p => (f p).foldl (fun m b => min m (g b)) (s p)) n) ((overRanks n f).map g) := by
  rw [← length_ranks]
  by_cases he : overRanks n f = []
  · rw [he]; exact Or.inl ⟨rfl, rfl⟩
  · have h := h.resolve_left he
    rw [if_neg (by simpa using he)]
    obtain ⟨h1, p, hp, h2⟩ := redMin_spec (fun p => (f p).foldl (fun m b => min m (g b)) (s p)) n
    have low : ∀ b ∈ overRanks n f, redMin (fun p => (f p).foldl (fun m b => min m (g b)) (s p)) n ≤ g b := by
      intro b hb
      obtain ⟨q, hq, hbq⟩ := List.mem_flatMap.1 hb
      exact (h1 q (List.mem_range.1 hq)).trans ((foldl_min g (f q) (s q)).2.1 b hbq)
    right
    refine ⟨?_, fun x hx => ?_⟩
    · obtain ⟨b, hb, hbs⟩ := h p (by omega)
      have hlb := low b hb
      rw [h2] at hlb ⊢
      rcases (foldl_min g (f p) (s p)).2.2 with h3 | ⟨c, hc, h3⟩
      · rw [h3] at hlb ⊢
        exact List.mem_map.2 ⟨b, hb, by omega⟩
      · rw [h3]; exact List.mem_map.2 ⟨c, List.mem_flatMap.2 ⟨p, List.mem_range.2 hp, hc⟩, rfl⟩
    · obtain ⟨b, hb, rfl⟩ := List.mem_map.1 hx
      exact low b hb

/-- **C63 (minima over the ranks), partial.** Right if no rank has fewer entries than the smallest block of the kind. -/
theorem C63_min_partial (n : ℕ) (A : ℕ → HTree R) (h32 : ∀ p ≤ n, (A p).label.area < 2 ^ 32)
    (hd : overRanks n (fun p => (A p).denseLeaves) = [] ∨ ∀ p ≤ n, ∃ b ∈ overRanks n (fun p => (A p).denseLeaves), b.label.area ≤ (A p).label.area)
    (hl : overRanks n (fun p => (A p).lowLeaves) = [] ∨ ∀ p ≤ n, ∃ b ∈ overRanks n (fun p => (A p).lowLeaves), b.label.area ≤ (A p).label.area)
    (hr : overRanks n (fun p => (A p).lowLeaves) = [] ∨ ∀ p ≤ n, ∃ b ∈ overRanks n (fun p => (A p).lowLeaves), b.label.rank ≤ (A p).label.area) :
    let I := distInfo n A
    IsSmallest I.denseMin (areas (overRanks n fun p => (A p).denseLeaves)) ∧ IsSmallest I.lowMin (areas (overRanks n fun p => (A p).lowLeaves)) ∧
      IsSmallest I.rankMin (ranks (overRanks n fun p => (A p).lowLeaves)) := by
  intro I
  have e : I = distInfo n A := rfl
  simp only [distInfo, localInfo, outLeaves_eq, foldl_low, foldl_dense] at e
  have hs : ∀ p ≤ n, mulU32 (A p).label.ssz (A p).label.tsz = (A p).label.area := by
    intro p hp
    have := h32 p hp
    unfold HNode.area at *
    unfold mulU32
    rw [mul_comm, Nat.mod_eq_of_lt this]
  have key : ∀ {f : ℕ → List (HTree R)} {g : HTree R → ℕ}, (overRanks n f = [] ∨ ∀ p ≤ n, ∃ b ∈ overRanks n f, g b ≤ (A p).label.area) →
      (overRanks n f = [] ∨ ∀ p ≤ n, ∃ b ∈ overRanks n f, g b ≤ mulU32 (A p).label.ssz (A p).label.tsz) :=
    fun h => h.imp_right fun h p hp => by rw [hs p hp]; exact h p hp
  rw [e]
  exact ⟨smallest_ranks (key hd), smallest_ranks (key hl), smallest_ranks (key hr)⟩

/-- Rank 0 holds a dense block of size 2 × 2, rank 1 a low-rank block of size 3 × 3. -/
def exTwoRanks : ℕ → HTree ℤ
  | 0 => exOneDense
  | _ => .node ⟨2, 3, 0, 3, .N, .N, .N, .N, .lowRank 1 (fun _ _ => 1) (fun _ _ => 1)⟩ []

/-- **C63 (minima) is false:** a rank without low-rank block contributes its number of entries. The only low-rank block has 9 entries, the reported minimum is 4. -/
theorem C63_min_false : (distInfo 1 exTwoRanks).lowMin = 4 ∧ areas (overRanks 1 fun p => (exTwoRanks p).lowLeaves) = [9] ∧
    ¬ IsSmallest (distInfo 1 exTwoRanks).lowMin (areas (overRanks 1 fun p => (exTwoRanks p).lowLeaves)) := by
  have o1 : outLeaves (exTwoRanks 1) = ([], [exTwoRanks 1]) := by rw [outLeaves_eq]; rfl
  have o0 : outLeaves (exTwoRanks 0) = ([exOneDense], []) := exOneDense_leaves
  have h1 : (distInfo 1 exTwoRanks).lowMin = 4 := by
    simp only [distInfo, localInfo, sum_range_succ, sum_range_zero, o0, o1, redMin, List.range_succ, List.range_zero, List.nil_append, List.foldl_cons,
      List.foldl_nil, zero_add]
    rfl
  have h2 : areas (overRanks 1 fun p => (exTwoRanks p).lowLeaves) = [9] := by rfl
  refine ⟨h1, h2, ?_⟩
  rw [h1, h2]
  rintro (⟨h, -⟩ | ⟨h, -⟩) <;> simp at h

/-- The hypotheses of `C63_compression_partial` and `C63_min_partial` hold for two processes holding `exFour` each. -/
example : let A : ℕ → HTree ℤ := fun _ => exFour
    (∀ p ≤ 1, (A p).label.area < 2 ^ 32) ∧
    (∀ p ≤ 1, ∃ b ∈ overRanks 1 (fun p => (A p).denseLeaves), b.label.area ≤ (A p).label.area) ∧
    (∀ p ≤ 1, ∃ b ∈ overRanks 1 (fun p => (A p).lowLeaves), b.label.area ≤ (A p).label.area ∧ b.label.rank ≤ (A p).label.area) :=
  ⟨fun _ _ => show 36 < 2 ^ 32 by decide, fun _ _ => ⟨_, List.mem_cons.2 (Or.inl rfl), show 9 ≤ 36 by decide⟩,
    fun _ _ => ⟨_, List.mem_cons.2 (Or.inl rfl), show 9 ≤ 36 by decide, show 1 ≤ 36 by decide⟩⟩

/-! ## C64: display files -/

section files
open ClusterIO

/-- A line of a display file as integers: target offset, target size, source offset, source size, and the rank of a low-rank block or `-1` for every other block. -/
def HNode.display (b A : HNode R) : List ℤ :=
  [(b.toff : ℤ) - A.toff, b.tsz, (b.soff : ℤ) - A.soff, b.ssz, match b.data with | .lowRank r _ _ => (r : ℤ) | _ => -1]

/-- Reading a display file: lines, fields separated by commas, decimal integers. An empty line has no readable field. -/
def readDisplay (s : Str) : List (List (Option ℤ)) := (getLines s).map fun l => (splitStr ',' l).map strtol

theorem natStr_free {n : ℕ} {d : Char} (hd : d ≠ '-') (h : ¬ (48 ≤ d.toNat ∧ d.toNat ≤ 57)) : d ∉ natStr n := by
  rw [← intStr_natCast]; exact intStr_free hd h

/-- Printing integers separated by commas and reading them back. -/
theorem read_line {zs : List ℤ} (hne : zs ≠ []) : (splitStr ',' (commas (zs.map intStr))).map strtol = zs.map some := by
  rw [commas_eq, splitStr_sepBy (by simpa using hne)]
  · rw [List.map_map]; exact List.map_congr_left fun z _ => strtol_intStr z
  · intro x hx
    obtain ⟨z, -, rfl⟩ := List.mem_map.1 hx
    exact intStr_free (by decide) (by decide)

theorem line_no_newline (zs : List ℤ) : '\n' ∉ commas (zs.map intStr) := by
  rw [commas_eq]
  intro h
  rcases mem_sepBy h with h | ⟨x, hx, h⟩
  · exact absurd h (by decide)
  · obtain ⟨z, -, rfl⟩ := List.mem_map.1 hx
    exact intStr_free (by decide) (by decide) h

theorem displayLine_eq (A b : HNode R) : displayLine A b = commas ((b.display A).map intStr) := rfl

/-- Reading lines that are lists of integers. -/
theorem read_lines {L : List (List ℤ)} (h : ∀ zs ∈ L, zs ≠ []) :
    readDisplay (L.map fun zs => commas (zs.map intStr) ++ ['\n']).flatten = L.map (List.map some) := by
  have e : (L.map fun zs => commas (zs.map intStr) ++ ['\n']) = (L.map fun zs => commas (zs.map intStr)).map fun l => l ++ ['\n'] := by
    rw [List.map_map]; rfl
  unfold readDisplay
  rw [e, getLines_lines]
  · rw [List.map_map]
    exact List.map_congr_left fun zs hzs => read_line (h zs hzs)
  · intro r hr
    obtain ⟨zs, -, rfl⟩ := List.mem_map.1 hr
    exact line_no_newline zs

theorem display_ne (b A : HNode R) : b.display A ≠ [] := by simp [HNode.display]

theorem saveLeaves_text (A : HTree R) :
    saveLeavesFile A = (([(A.label.tsz : ℤ), (A.label.ssz : ℤ)] :: A.leaves.map fun l => l.label.display A.label).map fun zs => commas (zs.map intStr)
      ++ ['\n']).flatten := by
  have key : ∀ (l : List (HTree R)) (acc : List Str), l.foldl (fun acc b => if b.isLeaf then acc ++ [displayLine A.label b.label] else acc) acc =
      acc ++ (l.filter fun b => b.isLeaf).map fun b => displayLine A.label b.label := by
    intro l
    induction l with
    | nil => intro acc; simp
    | cons b l ih =>
      intro acc
      rw [List.foldl_cons, ih, List.filter_cons]
      split_ifs <;> simp
  unfold saveLeavesFile
  simp only
  rw [key, Tree.preorderTraversal_eq, pre_filter_leaves]
  simp only [List.nil_append, List.map_map, List.map_cons, List.flatten_cons, List.map_nil, intStr_natCast]
  rfl

/-- **C64 (leaves).** Reading the file written by `save_leaves_with_rank` gives the sizes of the matrix and then, for every leaf from left to right, its position
relative to the root, its size and its rank (-1 for a dense block). -/
theorem C64_leaves_file (A : HTree R) :
    readDisplay (saveLeavesFile A) = ([(A.label.tsz : ℤ), (A.label.ssz : ℤ)] :: A.leaves.map fun l => l.label.display A.label).map (List.map some) := by
  rw [saveLeaves_text]
  refine read_lines ?_
  intro zs hzs
  rcases List.mem_cons.1 hzs with rfl | h
  · simp
  · obtain ⟨l, -, rfl⟩ := List.mem_map.1 h
    exact display_ne _ _

/-- A line of the file covers the entry `(i, j)`. -/
def lineCovers (i j : ℕ) : List ℤ → Bool
  | [a, b, c, d, _] => decide (a ≤ i ∧ (i : ℤ) < a + b ∧ c ≤ j ∧ (j : ℤ) < c + d)
  | _ => false

/-- **C64 (leaves cover the matrix).** The rectangles of the leaves file of an H-matrix without mirrored leaves cover every entry exactly once. -/
theorem C64_leaves_cover {A : HTree R} (hA : A.CoversOnce) (hm : (getLeavesH A).2 = []) {i j : ℕ} (hi : i < A.label.tsz) (hj : j < A.label.ssz) :
    ∃ lines : List (List ℤ), (readDisplay (saveLeavesFile A)).tail = lines.map (List.map some) ∧ lines.countP (lineCovers i j) = 1 := by
  refine ⟨A.leaves.map fun l => l.label.display A.label, by rw [C64_leaves_file]; rfl, ?_⟩
  have := hA.once (A.label.toff + i) (A.label.soff + j) ⟨by simp, by simpa using hi⟩ ⟨by simp, by simpa using hj⟩
  rw [hm, List.countP_nil, add_zero] at this
  rw [List.countP_map, ← this]
  refine List.countP_congr fun l hl => ?_
  simp only [Function.comp_apply, HNode.display, lineCovers]
  rw [decide_eq_true_iff, decide_eq_true_iff]
  constructor
  · rintro ⟨h1, h2, h3, h4⟩
    unfold HNode.Has InIv
    refine ⟨⟨?_, ?_⟩, ?_, ?_⟩ <;> simp only <;> omega
  · rintro ⟨⟨h1, h2⟩, h3, h4⟩
    simp only at h1 h2 h3 h4
    refine ⟨?_, ?_, ?_, ?_⟩ <;> omega

theorem findDepth_iff {depths : List ℕ} (hn : depths.Nodup) {p : ℕ} (hp : p < depths.length) (d : ℕ) : findDepth depths d = p ↔ d = depths[p] := by
  unfold findDepth
  constructor
  · intro h
    have h1 : depths.findIdx (fun x => decide (x = d)) < depths.length := by rw [h]; exact hp
    have := List.findIdx_getElem (w := h1)
    simp only [decide_eq_true_eq] at this
    subst h
    exact this.symm
  · rintro rfl
    rw [List.findIdx_eq hp]
    refine ⟨by simp, fun k hk => ?_⟩
    simp only [decide_eq_false_iff_not]
    intro he
    have := (List.Nodup.getElem_inj_iff hn).1 he
    omega

theorem levelBlocks_eq (A : Tree (HNode R × ℕ)) (depths : List ℕ) {p : ℕ} (hp : p < depths.length) :
    levelBlocks A depths p = (A.pre.filter fun b => decide (findDepth depths b.label.2 = p)).map fun b => displayLine A.label.1 b.label.1 := by
  have key : ∀ (l : List (Tree (HNode R × ℕ))) (acc : ℕ → List Str), l.foldl (fun acc b =>
      if findDepth depths b.label.2 < depths.length then
        Function.update acc (findDepth depths b.label.2) (acc (findDepth depths b.label.2) ++ [displayLine A.label.1 b.label.1])
      else acc) acc p = acc p ++ (l.filter fun b => decide (findDepth depths b.label.2 = p)).map fun b => displayLine A.label.1 b.label.1 := by
    intro l
    induction l with
    | nil => intro acc; simp
    | cons b l ih =>
      intro acc
      rw [List.foldl_cons, ih, List.filter_cons]
      by_cases h : findDepth depths b.label.2 = p
      · rw [h, if_pos hp]; simp
      · have h0 : (if findDepth depths b.label.2 < depths.length then
            Function.update acc (findDepth depths b.label.2) (acc (findDepth depths b.label.2) ++ [displayLine A.label.1 b.label.1]) else acc) p = acc p := by
          split_ifs
          · rw [Function.update_of_ne (Ne.symm h)]
          · rfl
        rw [h0]
        simp [h]
  unfold levelBlocks
  rw [key, Tree.preorderTraversal_eq, List.nil_append]

/-- The text of a level file, for any list of depths. -/
theorem saveLevel_read (A : Tree (HNode R × ℕ)) (depths : List ℕ) {p : ℕ} (hp : p < depths.length) :
    readDisplay (saveLevelFile A depths p) = ([(A.label.1.tsz : ℤ), (A.label.1.ssz : ℤ)] ::
      (A.pre.filter fun b => decide (findDepth depths b.label.2 = p)).map fun b => b.label.1.display A.label.1).map (List.map some) ++ [[none]] := by
  obtain ⟨L, hL⟩ : ∃ L : List (List ℤ), L = ([(A.label.1.tsz : ℤ), (A.label.1.ssz : ℤ)] ::
      (A.pre.filter fun b => decide (findDepth depths b.label.2 = p)).map fun b => b.label.1.display A.label.1) := ⟨_, rfl⟩
  have hne : ∀ zs ∈ L, zs ≠ [] := by
    intro zs hzs
    rw [hL] at hzs
    rcases List.mem_cons.1 hzs with rfl | h
    · simp
    · obtain ⟨l, -, rfl⟩ := List.mem_map.1 h
      exact display_ne _ _
  have e : saveLevelFile A depths p = ((L.map (fun zs : List ℤ => commas (zs.map intStr)) ++ [[]]).map fun l => l ++ ['\n']).flatten := by
    unfold saveLevelFile
    rw [levelBlocks_eq A depths hp, hL]
    simp only [List.map_append, List.flatten_append, List.map_map, List.map_cons, List.flatten_cons, List.map_nil, intStr_natCast, List.flatten_nil, List.append_nil,
      List.nil_append]
    rfl
  rw [← hL]
  unfold readDisplay
  rw [e, getLines_lines]
  · rw [List.map_append, List.map_map]
    congr 1
    · exact List.map_congr_left fun zs hzs => read_line (hne zs hzs)
  · intro r hr
    rcases List.mem_append.1 hr with hr | hr
    · obtain ⟨zs, -, rfl⟩ := List.mem_map.1 hr
      exact line_no_newline zs
    · rw [List.mem_singleton.1 hr]; simp

/-- **C64 (levels), partial.** With pairwise different depths, file number `p` of `save_levels` lists exactly the blocks whose depth is `depths[p]`, in preorder,
and ends with an empty line. -/
theorem C64_level_files_partial (A : Tree (HNode R × ℕ)) {depths : List ℕ} (hn : depths.Nodup) {p : ℕ} (hp : p < depths.length) :
    readDisplay (saveLevelFile A depths p) = ([(A.label.1.tsz : ℤ), (A.label.1.ssz : ℤ)] ::
      (A.pre.filter fun b => decide (b.label.2 = depths[p])).map fun b => b.label.1.display A.label.1).map (List.map some) ++ [[none]] := by
  rw [saveLevel_read A depths hp]
  simp only [findDepth_iff hn hp]

/-- **C64 (levels) is false with a repeated depth:** the second file for the same depth lists no block. -/
theorem C64_repeated_depth_empty (A : Tree (HNode R × ℕ)) (d : ℕ) :
    readDisplay (saveLevelFile A [d, d] 1) = [[some (A.label.1.tsz : ℤ), some (A.label.1.ssz : ℤ)], [none]] := by
  rw [saveLevel_read A [d, d] (by simp)]
  have : ∀ x, ¬ findDepth [d, d] x = 1 := by
    intro x
    unfold findDepth
    by_cases h : d = x <;> simp [List.findIdx_cons, h]
  simp [this]

end files

end Htool
