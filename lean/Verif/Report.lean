import Verif.HOutput
import Verif.DdmInfo

/-! # The reports of `get_hmatrix_information` and `get_distributed_hmatrix_information`

The maps of texts returned and printed by `hmatrix_output.hpp` (193-242) and `hmatrix_distributed_output.hpp` (26-28, 120-228). The numbers are those of
`Verif.HOutput`; here: the keys, the information and timings left by the builder, the reductions on them, and the layout of the printed text.
`std::to_string(double)` is a parameter. -/

namespace Htool.Report
open ClusterIO (Str intStr natStr stoi FitsInt digitVal)
open Info (Map Sorted)
variable {R : Type*}

/-- `m_information` and `m_timings` of `HMatrixTreeData` (hmatrix_tree_data.hpp 28-29), both in the order of their keys; durations in seconds. -/
structure TreeInfo where
  information : Map
  timings : List (Str × ℚ)

/-- A sequence of assignments `m[key] = value`. -/
def setAll (l : List (Str × Str)) (m : Map) : Map := l.foldl (fun m e => m.set e.1 e.2) m

/-- `std::to_string(duration.count()) + " second(s)"`. -/
def seconds (fmtQ : ℚ → Str) (q : ℚ) : Str := fmtQ q ++ " second(s)".toList

/-- What the end of `build` stores (tree_builder.hpp 213-216): `fp` is `m_false_positive`, `t1` and `t2` the two durations. -/
def builderInfo (fp : ℕ) (t1 t2 : ℚ) : TreeInfo where
  information := setAll [("Number_of_false_positive".toList, natStr fp)] []
  timings := [("Block_tree_walltime".toList, t1), ("Blocks_computation_walltime".toList, t2)]

/-- The assignments of hmatrix_output.hpp 195-212; `thr` is `omp_get_max_threads()` if OpenMP is used. -/
def localEntries (fmtQ : ℚ → Str) (thr : Option ℕ) (I : HInfo) : List (Str × Str) :=
  [("Target_size".toList, natStr I.targetSize), ("Source_size".toList, natStr I.sourceSize),
   ("Dense_block_size_max".toList, natStr I.denseMax), ("Dense_block_size_mean".toList, fmtQ I.denseMean), ("Dense_block_size_min".toList, natStr I.denseMin),
   ("Low_rank_block_size_max".toList, natStr I.lowMax), ("Low_rank_block_size_mean".toList, fmtQ I.lowMean), ("Low_rank_block_size_min".toList, natStr I.lowMin),
   ("Rank_max".toList, natStr I.rankMax), ("Rank_mean".toList, fmtQ I.rankMean), ("Rank_min".toList, natStr I.rankMin),
   ("Number_of_low_rank_blocks".toList, natStr I.nLow), ("Number_of_dense_blocks".toList, natStr I.nDense),
   ("Compression_ratio".toList, fmtQ I.ratio), ("Space_saving".toList, fmtQ I.saving)] ++
  (match thr with | some t => [("Number_of_threads".toList, natStr t)] | none => [])

/-- The map returned by `get_hmatrix_information` (hmatrix_output.hpp 193-220). -/
def localReport (fmtQ : ℚ → Str) (thr : Option ℕ) (I : HInfo) (D : TreeInfo) : Map :=
  setAll (D.timings.map fun e => (e.1, seconds fmtQ e.2)) (setAll D.information (setAll (localEntries fmtQ thr I) []))

/-- `is_positive_integer` (hmatrix_distributed_output.hpp 26-28), in the C locale. -/
def isPositiveInteger (s : Str) : Bool := !s.isEmpty && (s.find? fun c => !(digitVal c).isSome).isNone

/-- Names and values to be reduced (hmatrix_distributed_output.hpp 148-155); `none` = exception of `std::stoi`. -/
def intEntries (m : Map) : Option (List (Str × ℤ)) :=
  (m.filter fun e => isPositiveInteger e.2).mapM fun e => (stoi e.2).map fun z => (e.1, z)

/-- `MPI_Reduce` with `MPI_INT` and `MPI_SUM` over the ranks `0..n`: not allowed if the counts differ; an overflow is not allowed either. -/
def sumReduce (n : ℕ) (v : ℕ → List ℤ) : Option (List ℤ) :=
  if ∀ p ∈ List.range (n + 1), (v p).length = (v 0).length then
    let s := (List.range (v 0).length).map fun i => ((List.range (n + 1)).map fun p => (v p).getD i 0).sum
    if ∀ z ∈ s, FitsInt z then some s else none
  else none

/-- `MPI_Reduce` of vectors of `double` with an operation: not allowed if the counts differ. -/
def opReduce (op : ℚ → ℚ → ℚ) (n : ℕ) (v : ℕ → List ℚ) : Option (List ℚ) :=
  if ∀ p ∈ List.range (n + 1), (v p).length = (v 0).length then
    some ((List.range (v 0).length).map fun i => (List.range n).foldl (fun a p => op a ((v (p + 1)).getD i 0)) ((v 0).getD i 0))
  else none

/-- The assignments of hmatrix_distributed_output.hpp 121-146. -/
def distEntries (fmtQ : ℚ → Str) (thr : Option ℕ) (n : ℕ) (I : DistInfo) : List (Str × Str) :=
  [("Target_size_max".toList, natStr I.targetMax), ("Target_size_mean".toList, fmtQ I.targetMean), ("Target_size_min".toList, natStr I.targetMin),
   ("Source_size_max".toList, natStr I.sourceMax), ("Source_size_mean".toList, fmtQ I.sourceMean), ("Source_size_min".toList, natStr I.sourceMin),
   ("Dense_block_size_max".toList, natStr I.denseMax), ("Dense_block_size_mean".toList, fmtQ I.denseMean), ("Dense_block_size_min".toList, natStr I.denseMin),
   ("Low_rank_block_size_max".toList, natStr I.lowMax), ("Low_rank_block_size_mean".toList, fmtQ I.lowMean), ("Low_rank_block_size_min".toList, natStr I.lowMin),
   ("Rank_max".toList, natStr I.rankMax), ("Rank_mean".toList, fmtQ I.rankMean), ("Rank_min".toList, natStr I.rankMin),
   ("Number_of_low_rank_blocks".toList, natStr I.nLow), ("Number_of_dense_blocks".toList, natStr I.nDense),
   ("Compression_ratio".toList, fmtQ I.ratio), ("Space_saving".toList, fmtQ I.saving), ("Number_of_MPI_tasks".toList, natStr (n + 1))] ++
  (match thr with
   | some t => [("Number_of_threads_per_tasks".toList, natStr t), ("Number_of_procs".toList, natStr ((n + 1) * t))]
   | none => [("Number_of_procs".toList, natStr (n + 1))])

/-- The assignments of hmatrix_distributed_output.hpp 197-204 for the names of rank 0 and the reduced timings. -/
def timingEntries (fmtQ : ℚ → Str) (n : ℕ) (names : List Str) (mx mn sm : List ℚ) : List (Str × Str) :=
  (List.range mx.length).flatMap fun i =>
    [(names.getD i [] ++ "_max".toList, seconds fmtQ (mx.getD i 0)),
     (names.getD i [] ++ "_mean".toList, seconds fmtQ (sm.getD i 0 / (n + 1 : ℕ))),
     (names.getD i [] ++ "_min".toList, seconds fmtQ (mn.getD i 0))]

/-- Values of all ranks, if no rank throws. -/
def allRanks {α : Type*} [Inhabited α] (n : ℕ) (f : ℕ → Option α) : Option (ℕ → α) :=
  ((List.range (n + 1)).mapM f).map fun l p => l.getD p default

/-- The map returned by `get_distributed_hmatrix_information` (hmatrix_distributed_output.hpp 120-206) on the rank `r` of the ranks `0..n`; `I` is what the
first part computed, `D p` the tree data of rank `p`. `none`: an exception or an erroneous MPI call. -/
def distReport (fmtQ : ℚ → Str) (thr : Option ℕ) (n : ℕ) (I : DistInfo) (D : ℕ → TreeInfo) (r : ℕ) : Option Map :=
  (allRanks n fun p => intEntries (D p).information).bind fun ents =>
  (sumReduce n fun p => (ents p).map Prod.snd).bind fun sums =>
  (opReduce max n fun p => (D p).timings.map Prod.snd).bind fun mx =>
  (opReduce min n fun p => (D p).timings.map Prod.snd).bind fun mn =>
  (opReduce (· + ·) n fun p => (D p).timings.map Prod.snd).bind fun sm =>
  some (if r = 0 then
    setAll (timingEntries fmtQ n ((D 0).timings.map Prod.fst) mx mn sm)
      (setAll (((ents 0).map Prod.fst).zip (sums.map intStr)) (setAll (distEntries fmtQ thr n I) []))
  else [])

/-! ## The printed text -/

/-- `std::setw(w)` with `std::setfill('_') << std::left`. -/
def padRight (w : ℕ) (s : Str) : Str := s ++ List.replicate (w - s.length) '_'

/-- `output_size` (hmatrix_output.hpp 226; hmatrix_distributed_output.hpp 214): the longest key and two more. The map is never empty. -/
def outputSize (m : Map) : ℕ := 2 + m.foldl (fun w e => max w e.1.length) 0

/-- The text of `print_hmatrix_information` (hmatrix_output.hpp 223-242) and of rank 0 in `print_distributed_hmatrix_information`
(hmatrix_distributed_output.hpp 209-228); `title` is "Hmatrix information" or "Distributed Hmatrix information". -/
def printReport (title : Str) (m : Map) : Str :=
  title ++ ['\n'] ++ (m.map fun e => padRight (outputSize m) e.1 ++ e.2 ++ ['\n']).flatten

/-! ## Lemmas -/

theorem find_setAll_not {l : List (Str × Str)} {k : Str} (h : k ∉ l.map Prod.fst) (m : Map) : (setAll l m).find k = m.find k := by
  induction l generalizing m with
  | nil => rfl
  | cons e l ih =>
    rw [List.map_cons, List.mem_cons, not_or] at h
    show (setAll l (m.set e.1 e.2)).find k = m.find k
    rw [ih h.2, Info.find_set, if_neg h.1]

theorem find_setAll_mem {l : List (Str × Str)} (hl : (l.map Prod.fst).Nodup) {k v : Str} (h : (k, v) ∈ l) (m : Map) :
    (setAll l m).find k = some v := by
  induction l generalizing m with
  | nil => cases h
  | cons e l ih =>
    rw [List.map_cons, List.nodup_cons] at hl
    show (setAll l (m.set e.1 e.2)).find k = some v
    rcases List.mem_cons.1 h with rfl | h
    · rw [find_setAll_not hl.1, Info.find_set, if_pos rfl]
    · exact ih hl.2 h _

theorem setAll_sorted {l : List (Str × Str)} {m : Map} (hm : Sorted m) : Sorted (setAll l m) := by
  induction l generalizing m with
  | nil => exact hm
  | cons e l ih => exact ih (hm.set _ _)

theorem isPositiveInteger_iff (s : Str) : isPositiveInteger s = true ↔ s ≠ [] ∧ ∀ c ∈ s, 48 ≤ c.toNat ∧ c.toNat ≤ 57 := by
  unfold isPositiveInteger
  rw [Bool.and_eq_true, Option.isNone_iff_eq_none, List.find?_eq_none]
  have hd : ∀ c : Char, (¬ (!(digitVal c).isSome) = true) ↔ (48 ≤ c.toNat ∧ c.toNat ≤ 57) := by
    intro c
    unfold digitVal
    split <;> simp_all
  constructor
  · rintro ⟨h1, h2⟩
    refine ⟨by rintro rfl; simp at h1, fun c hc => (hd c).1 (h2 c hc)⟩
  · rintro ⟨h1, h2⟩
    refine ⟨by cases s with | nil => exact absurd rfl h1 | cons => rfl, fun c hc => (hd c).2 (h2 c hc)⟩

theorem mapM_some {α β : Type*} {f : α → Option β} {g : α → β} {l : List α} (h : ∀ a ∈ l, f a = some (g a)) : l.mapM f = some (l.map g) := by
  induction l with
  | nil => rfl
  | cons a l ih =>
    rw [List.mapM_cons, h a (by simp), ih (fun b hb => h b (by simp [hb]))]
    rfl

theorem allRanks_some {α : Type*} [Inhabited α] {n : ℕ} {f : ℕ → Option α} {g : ℕ → α} (h : ∀ p ≤ n, f p = some (g p)) :
    ∃ e, allRanks n f = some e ∧ ∀ p ≤ n, e p = g p := by
  unfold allRanks
  rw [mapM_some (g := g) (fun a ha => h a (by have := List.mem_range.1 ha; omega))]
  refine ⟨_, rfl, fun p hp => ?_⟩
  show ((List.range (n + 1)).map g).getD p default = g p
  rw [List.getD_eq_getElem?_getD, List.getElem?_map, List.getElem?_range (by omega)]
  rfl

theorem sum_range_list (n : ℕ) (f : ℕ → ℤ) : ((List.range n).map f).sum = ∑ p ∈ Finset.range n, f p := by
  rw [Finset.sum_range]
  induction n with
  | zero => rfl
  | succ n ih => rw [List.range_succ, List.map_append, List.sum_append, ih, Fin.sum_univ_castSucc]; simp

/-- The names reduced on a rank. -/
def intKeys (m : Map) : List Str := (m.filter fun e => isPositiveInteger e.2).map Prod.fst

theorem Sorted.intKeys {m : Map} (h : Sorted m) : (intKeys m).Pairwise (· < ·) := by
  unfold Report.intKeys
  rw [List.pairwise_map]
  exact List.Pairwise.filter _ h

theorem mem_intKeys {m : Map} (h : Sorted m) {k : Str} : k ∈ intKeys m ↔ ∃ s, m.find k = some s ∧ isPositiveInteger s = true := by
  unfold intKeys
  rw [List.mem_map]
  constructor
  · rintro ⟨⟨a, b⟩, h1, rfl⟩
    obtain ⟨h1, h2⟩ := List.mem_filter.1 h1
    exact ⟨b, (h.mem_iff a b).1 h1, h2⟩
  · rintro ⟨s, h1, h2⟩
    exact ⟨(k, s), List.mem_filter.2 ⟨(h.mem_iff k s).2 h1, h2⟩, rfl⟩

end Htool.Report
