import Verif.Report
import Verif.Props.HOutput
import Verif.Props.HBuild
import Verif.Props.DdmInfo
import Mathlib.Order.Bounds.Basic

/-! # C73: reports

What a user reads in the reports of an H-matrix and of a distributed H-matrix. -/

namespace Htool.Report
open ClusterIO (Str intStr natStr stoi FitsInt)
open Info (Map Sorted)
variable {R G : Type*}

/-- The keys written by `get_hmatrix_information` itself. -/
def localKeys : List Str :=
  ["Target_size", "Source_size", "Dense_block_size_max", "Dense_block_size_mean", "Dense_block_size_min", "Low_rank_block_size_max",
   "Low_rank_block_size_mean", "Low_rank_block_size_min", "Rank_max", "Rank_mean", "Rank_min", "Number_of_low_rank_blocks", "Number_of_dense_blocks",
   "Compression_ratio", "Space_saving", "Number_of_threads"].map String.toList

theorem localEntries_nodup (fmtQ : ℚ → Str) (thr : Option ℕ) (I : HInfo) : ((localEntries fmtQ thr I).map Prod.fst).Nodup := by
  cases thr <;> (simp only [localEntries, List.cons_append, List.nil_append, List.map_cons, List.map_nil]; decide)

theorem localEntries_keys (fmtQ : ℚ → Str) (thr : Option ℕ) (I : HInfo) {k : Str} (h : k ∈ (localEntries fmtQ thr I).map Prod.fst) : k ∈ localKeys := by
  have : ∀ k ∈ (localEntries fmtQ thr I).map Prod.fst, k ∈ localKeys := by
    cases thr <;> (simp only [localEntries, List.cons_append, List.nil_append, List.map_cons, List.map_nil]; decide)
  exact this k h

/-- **C73 (precedence in the local report).** A timing is reported under its name; an information whose name is not that of a timing is reported as stored; the
statistics are reported unless the name is also that of an information or a timing. -/
theorem C73_local_precedence (fmtQ : ℚ → Str) (thr : Option ℕ) (I : HInfo) (D : TreeInfo) (hi : Sorted D.information) (ht : (D.timings.map Prod.fst).Nodup) :
    (∀ k q, (k, q) ∈ D.timings → (localReport fmtQ thr I D).find k = some (seconds fmtQ q)) ∧
    (∀ k v, D.information.find k = some v → k ∉ D.timings.map Prod.fst → (localReport fmtQ thr I D).find k = some v) ∧
    (∀ k v, (k, v) ∈ localEntries fmtQ thr I → D.information.find k = none → k ∉ D.timings.map Prod.fst → (localReport fmtQ thr I D).find k = some v) ∧
    (∀ k, k ∉ localKeys → D.information.find k = none → k ∉ D.timings.map Prod.fst → (localReport fmtQ thr I D).find k = none) := by
  have hk : (D.timings.map fun e => (e.1, seconds fmtQ e.2)).map Prod.fst = D.timings.map Prod.fst := by
    rw [List.map_map]; rfl
  have hin : (D.information.map Prod.fst).Nodup := by
    unfold List.Nodup
    rw [List.pairwise_map]
    exact List.Pairwise.imp (fun h => (ne_of_lt h)) hi
  have hnone : ∀ k, D.information.find k = none → k ∉ D.information.map Prod.fst := by
    intro k hk hm
    obtain ⟨⟨a, b⟩, h1, rfl⟩ := List.mem_map.1 hm
    rw [(hi.mem_iff a b).1 h1] at hk
    cases hk
  refine ⟨fun k q h => ?_, fun k v h h' => ?_, fun k v h h' h'' => ?_, fun k h h' h'' => ?_⟩ <;> unfold localReport
  · exact find_setAll_mem (by rw [hk]; exact ht) (List.mem_map.2 ⟨(k, q), h, rfl⟩) _
  · rw [find_setAll_not (by rw [hk]; exact h')]
    exact find_setAll_mem hin ((hi.mem_iff k v).2 h) _
  · rw [find_setAll_not (by rw [hk]; exact h''), find_setAll_not (hnone k h')]
    exact find_setAll_mem (localEntries_nodup fmtQ thr I) h _
  · rw [find_setAll_not (by rw [hk]; exact h''), find_setAll_not (hnone k h'), find_setAll_not (fun h3 => h (localEntries_keys fmtQ thr I h3))]
    rfl

/-- **C73 (local report of a built H-matrix).** With the data left by `build`, every statistic, the number of false positives and the two durations are
reported under their own names. -/
theorem C73_local_report (fmtQ : ℚ → Str) (thr : Option ℕ) (A : HTree R) (fp : ℕ) (t1 t2 : ℚ) :
    let I := hmatrixInfo A
    let rep := localReport fmtQ thr I (builderInfo fp t1 t2)
    rep.find "Target_size".toList = some (natStr I.targetSize) ∧ rep.find "Source_size".toList = some (natStr I.sourceSize) ∧
    rep.find "Dense_block_size_max".toList = some (natStr I.denseMax) ∧ rep.find "Dense_block_size_mean".toList = some (fmtQ I.denseMean) ∧
    rep.find "Dense_block_size_min".toList = some (natStr I.denseMin) ∧ rep.find "Low_rank_block_size_max".toList = some (natStr I.lowMax) ∧
    rep.find "Low_rank_block_size_mean".toList = some (fmtQ I.lowMean) ∧ rep.find "Low_rank_block_size_min".toList = some (natStr I.lowMin) ∧
    rep.find "Rank_max".toList = some (natStr I.rankMax) ∧ rep.find "Rank_mean".toList = some (fmtQ I.rankMean) ∧
    rep.find "Rank_min".toList = some (natStr I.rankMin) ∧ rep.find "Number_of_low_rank_blocks".toList = some (natStr I.nLow) ∧
    rep.find "Number_of_dense_blocks".toList = some (natStr I.nDense) ∧ rep.find "Compression_ratio".toList = some (fmtQ I.ratio) ∧
    rep.find "Space_saving".toList = some (fmtQ I.saving) ∧ (∀ t, thr = some t → rep.find "Number_of_threads".toList = some (natStr t)) ∧
    rep.find "Number_of_false_positive".toList = some (natStr fp) ∧
    rep.find "Block_tree_walltime".toList = some (fmtQ t1 ++ " second(s)".toList) ∧
    rep.find "Blocks_computation_walltime".toList = some (fmtQ t2 ++ " second(s)".toList) := by
  intro I rep
  have hs : Sorted (builderInfo fp t1 t2).information := setAll_sorted List.Pairwise.nil
  have ht : ((builderInfo fp t1 t2).timings.map Prod.fst).Nodup := by
    show [("Block_tree_walltime".toList : Str), "Blocks_computation_walltime".toList].Nodup
    decide
  obtain ⟨h1, h2, h3, -⟩ := C73_local_precedence fmtQ thr I (builderInfo fp t1 t2) hs ht
  have hf : ∀ k : Str, k ≠ "Number_of_false_positive".toList → (builderInfo fp t1 t2).information.find k = none := by
    intro k hk
    show (setAll [("Number_of_false_positive".toList, natStr fp)] []).find k = none
    rw [find_setAll_not (by simpa using hk)]
    rfl
  have key : ∀ k v, (k, v) ∈ localEntries fmtQ thr I → k ∈ localKeys → rep.find k = some v := by
    intro k v h hk
    have h5 : k ≠ "Number_of_false_positive".toList := by
      rintro rfl; revert hk; decide
    have h6 : k ∉ (builderInfo fp t1 t2).timings.map Prod.fst := by
      intro h6
      have : ∀ k ∈ [("Block_tree_walltime".toList : Str), "Blocks_computation_walltime".toList], k ∉ localKeys := by decide
      exact this k h6 hk
    exact h3 k v h (hf k h5) h6
  have hm : ∀ k v, (k, v) ∈ localEntries fmtQ thr I → rep.find k = some v := fun k v h =>
    key k v h (localEntries_keys fmtQ thr I (List.mem_map.2 ⟨(k, v), h, rfl⟩))
  have hg : ∀ (i : ℕ) k v, (localEntries fmtQ thr I)[i]? = some (k, v) → rep.find k = some v := fun i k v h => hm k v (List.mem_of_getElem? h)
  refine ⟨hg 0 _ _ rfl, hg 1 _ _ rfl, hg 2 _ _ rfl, hg 3 _ _ rfl, hg 4 _ _ rfl, hg 5 _ _ rfl, hg 6 _ _ rfl, hg 7 _ _ rfl, hg 8 _ _ rfl, hg 9 _ _ rfl,
    hg 10 _ _ rfl, hg 11 _ _ rfl, hg 12 _ _ rfl, hg 13 _ _ rfl, hg 14 _ _ rfl, fun t e => hg 15 _ _ ?_, h2 _ _ ?_ ?_,
    h1 _ _ (List.mem_of_getElem? (i := 0) rfl), h1 _ _ (List.mem_of_getElem? (i := 1) rfl)⟩
  · rw [e]; rfl
  · show (setAll [("Number_of_false_positive".toList, natStr fp)] []).find _ = _
    exact find_setAll_mem (by simp) (List.mem_of_getElem? (i := 0) rfl) _
  · show ("Number_of_false_positive".toList : Str) ∉ [("Block_tree_walltime".toList : Str), "Blocks_computation_walltime".toList]
    decide

/-! ## The report over the MPI ranks -/

/-- The keys written by `get_distributed_hmatrix_information` itself. -/
def distKeys : List Str :=
  ["Target_size_max", "Target_size_mean", "Target_size_min", "Source_size_max", "Source_size_mean", "Source_size_min", "Dense_block_size_max",
   "Dense_block_size_mean", "Dense_block_size_min", "Low_rank_block_size_max", "Low_rank_block_size_mean", "Low_rank_block_size_min", "Rank_max", "Rank_mean",
   "Rank_min", "Number_of_low_rank_blocks", "Number_of_dense_blocks", "Compression_ratio", "Space_saving", "Number_of_MPI_tasks",
   "Number_of_threads_per_tasks", "Number_of_procs"].map String.toList

theorem distEntries_nodup (fmtQ : ℚ → Str) (thr : Option ℕ) (n : ℕ) (I : DistInfo) : ((distEntries fmtQ thr n I).map Prod.fst).Nodup := by
  cases thr <;> (simp only [distEntries, List.cons_append, List.nil_append, List.map_cons, List.map_nil]; decide)

theorem distEntries_keys (fmtQ : ℚ → Str) (thr : Option ℕ) (n : ℕ) (I : DistInfo) {k : Str} (h : k ∈ (distEntries fmtQ thr n I).map Prod.fst) :
    k ∈ distKeys := by
  have : ∀ k ∈ (distEntries fmtQ thr n I).map Prod.fst, k ∈ distKeys := by
    cases thr <;> (simp only [distEntries, List.cons_append, List.nil_append, List.map_cons, List.map_nil]; decide)
  exact this k h

/-- A non-empty text of decimal digits. -/
def Digits (s : Str) : Prop := s ≠ [] ∧ ∀ c ∈ s, 48 ≤ c.toNat ∧ c.toNat ≤ 57

/-- The ranks `0..n` store decimal numbers under the names in `K`, with the values `val p k`, and under no other name. -/
structure SameNumbers (n : ℕ) (D : ℕ → TreeInfo) (K : Set Str) (val : ℕ → Str → ℤ) : Prop where
  sorted : ∀ p ≤ n, Sorted (D p).information
  number : ∀ p ≤ n, ∀ k ∈ K, ∃ s, (D p).information.find k = some s ∧ Digits s ∧ stoi s = some (val p k)
  other : ∀ p ≤ n, ∀ k, k ∉ K → ∀ s, (D p).information.find k = some s → ¬ Digits s
  fits : ∀ k ∈ K, FitsInt (∑ p ∈ Finset.range (n + 1), val p k)

/-- The ranks `0..n` have timings of the same names, with the values `t p k`. -/
structure SameTimings (n : ℕ) (D : ℕ → TreeInfo) (names : List Str) (t : ℕ → Str → ℚ) : Prop where
  nodup : names.Nodup
  eq : ∀ p ≤ n, (D p).timings = names.map fun k => (k, t p k)

/-- The names under which the timings are reported. -/
def timingKeys (names : List Str) : List Str := names.flatMap fun k => [k ++ "_max".toList, k ++ "_mean".toList, k ++ "_min".toList]

theorem suffix_ne {a b : Str} {x y : Char} (h : x ≠ y) : a ++ [x] ≠ b ++ [y] := by
  intro e
  have := congrArg List.getLast? e
  simp at this
  exact h this

theorem append_max_ne_mean (a b : Str) : a ++ "_max".toList ≠ b ++ "_mean".toList := by
  have h1 : a ++ "_max".toList = (a ++ "_ma".toList) ++ ['x'] := by rw [List.append_assoc]; rfl
  have h2 : b ++ "_mean".toList = (b ++ "_mea".toList) ++ ['n'] := by rw [List.append_assoc]; rfl
  rw [h1, h2]; exact suffix_ne (by decide)

theorem append_max_ne_min (a b : Str) : a ++ "_max".toList ≠ b ++ "_min".toList := by
  have h1 : a ++ "_max".toList = (a ++ "_ma".toList) ++ ['x'] := by rw [List.append_assoc]; rfl
  have h2 : b ++ "_min".toList = (b ++ "_mi".toList) ++ ['n'] := by rw [List.append_assoc]; rfl
  rw [h1, h2]; exact suffix_ne (by decide)

theorem append_mean_ne_min (a b : Str) : a ++ "_mean".toList ≠ b ++ "_min".toList := by
  have h1 : a ++ "_mean".toList = ((a ++ "_me".toList) ++ ['a']) ++ ['n'] := by rw [List.append_assoc, List.append_assoc]; rfl
  have h2 : b ++ "_min".toList = ((b ++ "_m".toList) ++ ['i']) ++ ['n'] := by rw [List.append_assoc, List.append_assoc]; rfl
  rw [h1, h2]
  intro e
  exact suffix_ne (a := a ++ "_me".toList) (b := b ++ "_m".toList) (by decide) (List.append_cancel_right e)

theorem timingKeys_nodup {names : List Str} (h : names.Nodup) : (timingKeys names).Nodup := by
  unfold timingKeys
  rw [List.nodup_flatMap]
  constructor
  · intro k _
    simp only [List.nodup_cons, List.mem_cons, List.not_mem_nil, or_false, not_or, List.nodup_nil, and_true, not_false_eq_true]
    exact ⟨⟨append_max_ne_mean k k, append_max_ne_min k k⟩, append_mean_ne_min k k⟩
  · refine List.Pairwise.imp ?_ h
    intro a b hab x h1 h2
    simp only [List.mem_cons, List.not_mem_nil, or_false] at h1 h2
    rcases h1 with rfl | rfl | rfl <;> rcases h2 with h2 | h2 | h2
    · exact hab (List.append_cancel_right h2)
    · exact append_max_ne_mean _ _ h2
    · exact append_max_ne_min _ _ h2
    · exact append_max_ne_mean _ _ h2.symm
    · exact hab (List.append_cancel_right h2)
    · exact append_mean_ne_min _ _ h2
    · exact append_max_ne_min _ _ h2.symm
    · exact append_mean_ne_min _ _ h2.symm
    · exact hab (List.append_cancel_right h2)

theorem getD_map_names {α : Type*} (names : List Str) (f : Str → α) (d : α) {i : ℕ} (hi : i < names.length) :
    (names.map f).getD i d = f (names.getD i []) := by
  rw [List.getD_eq_getElem?_getD, List.getD_eq_getElem?_getD, List.getElem?_map, List.getElem?_eq_getElem hi]
  rfl

theorem opReduce_some {op : ℚ → ℚ → ℚ} {n : ℕ} {D : ℕ → TreeInfo} {names : List Str} {t : ℕ → Str → ℚ} (h : SameTimings n D names t) :
    opReduce op n (fun p => (D p).timings.map Prod.snd) =
      some (names.map fun k => (List.range n).foldl (fun a p => op a (t (p + 1) k)) (t 0 k)) := by
  have e : ∀ p ≤ n, (D p).timings.map Prod.snd = names.map (t p) := by
    intro p hp; rw [h.eq p hp, List.map_map]; rfl
  unfold opReduce
  beta_reduce
  rw [if_pos (by
    intro p hp
    have := List.mem_range.1 hp
    rw [e p (by omega), e 0 (by omega), List.length_map, List.length_map])]
  congr 1
  rw [e 0 (by omega), List.length_map]
  refine List.ext_getElem (by simp) ?_
  intro i h1 h2
  have hi : i < names.length := by simpa using h1
  rw [List.getElem_map, List.getElem_map, List.getElem_range]
  have hg : names.getD i [] = names[i] := by simp [List.getD_eq_getElem?_getD, hi]
  rw [getD_map_names names _ _ hi, hg]
  refine List.foldl_ext _ _ _ ?_
  intro a p hp
  have := List.mem_range.1 hp
  rw [e (p + 1) (by omega), getD_map_names names _ _ hi, hg]

theorem timingEntries_eq (fmtQ : ℚ → Str) (n : ℕ) (names : List Str) (a b c : Str → ℚ) :
    timingEntries fmtQ n names (names.map a) (names.map b) (names.map c) = names.flatMap fun k =>
      [(k ++ "_max".toList, seconds fmtQ (a k)), (k ++ "_mean".toList, seconds fmtQ (c k / (n + 1 : ℕ))), (k ++ "_min".toList, seconds fmtQ (b k))] := by
  unfold timingEntries
  rw [List.length_map, List.flatMap_def, List.flatMap_def]
  congr 1
  refine List.ext_getElem (by simp) ?_
  intro i h1 h2
  have hi : i < names.length := by simpa using h1
  have hg : names.getD i [] = names[i] := by simp [List.getD_eq_getElem?_getD, hi]
  rw [List.getElem_map, List.getElem_map, List.getElem_range, getD_map_names names _ _ hi, getD_map_names names _ _ hi, getD_map_names names _ _ hi, hg]

theorem flat_keys (fmtQ : ℚ → Str) (n : ℕ) (names : List Str) (a b c : Str → ℚ) :
    (names.flatMap fun k => [(k ++ "_max".toList, seconds fmtQ (a k)), (k ++ "_mean".toList, seconds fmtQ (c k / (n + 1 : ℕ))),
      (k ++ "_min".toList, seconds fmtQ (b k))]).map Prod.fst = timingKeys names := by
  unfold timingKeys
  induction names with
  | nil => rfl
  | cons k names ih => rw [List.flatMap_cons, List.map_append, ih, List.flatMap_cons]; rfl

theorem fold_max_isGreatest (n : ℕ) (f : ℕ → ℚ) : IsGreatest {q | ∃ p ≤ n, q = f p} ((List.range n).foldl (fun a p => max a (f (p + 1))) (f 0)) := by
  induction n with
  | zero => exact ⟨⟨0, le_refl 0, rfl⟩, by
      rintro q ⟨p, hp, rfl⟩
      obtain rfl : p = 0 := by omega
      exact le_refl _⟩
  | succ n ih =>
    rw [List.range_succ, List.foldl_append, List.foldl_cons, List.foldl_nil]
    obtain ⟨⟨p, hp, h1⟩, h2⟩ := ih
    constructor
    · rcases max_choice ((List.range n).foldl (fun a p => max a (f (p + 1))) (f 0)) (f (n + 1)) with e | e
      · exact ⟨p, by omega, by rw [e, h1]⟩
      · exact ⟨n + 1, le_refl _, e⟩
    · rintro q ⟨p', hp', rfl⟩
      rcases Nat.lt_or_ge p' (n + 1) with h | h
      · exact le_max_of_le_left (h2 ⟨p', by omega, rfl⟩)
      · obtain rfl : p' = n + 1 := by omega
        exact le_max_right _ _

theorem fold_min_isLeast (n : ℕ) (f : ℕ → ℚ) : IsLeast {q | ∃ p ≤ n, q = f p} ((List.range n).foldl (fun a p => min a (f (p + 1))) (f 0)) := by
  induction n with
  | zero => exact ⟨⟨0, le_refl 0, rfl⟩, by
      rintro q ⟨p, hp, rfl⟩
      obtain rfl : p = 0 := by omega
      exact le_refl _⟩
  | succ n ih =>
    rw [List.range_succ, List.foldl_append, List.foldl_cons, List.foldl_nil]
    obtain ⟨⟨p, hp, h1⟩, h2⟩ := ih
    constructor
    · rcases min_choice ((List.range n).foldl (fun a p => min a (f (p + 1))) (f 0)) (f (n + 1)) with e | e
      · exact ⟨p, by omega, by rw [e, h1]⟩
      · exact ⟨n + 1, le_refl _, e⟩
    · rintro q ⟨p', hp', rfl⟩
      rcases Nat.lt_or_ge p' (n + 1) with h | h
      · exact min_le_of_left_le (h2 ⟨p', by omega, rfl⟩)
      · obtain rfl : p' = n + 1 := by omega
        exact min_le_right _ _

theorem fold_add (n : ℕ) (f : ℕ → ℚ) : (List.range n).foldl (fun a p => a + f (p + 1)) (f 0) = ∑ p ∈ Finset.range (n + 1), f p := by
  induction n with
  | zero => simp
  | succ n ih => rw [List.range_succ, List.foldl_append, List.foldl_cons, List.foldl_nil, ih, Finset.sum_range_succ _ (n + 1)]

theorem SameNumbers.mem_intKeys {n : ℕ} {D : ℕ → TreeInfo} {K : Set Str} {val : ℕ → Str → ℤ} (h : SameNumbers n D K val) {p : ℕ} (hp : p ≤ n) {k : Str} :
    k ∈ intKeys (D p).information ↔ k ∈ K := by
  rw [Report.mem_intKeys (h.sorted p hp)]
  constructor
  · rintro ⟨s, h1, h2⟩
    by_contra hk
    exact h.other p hp k hk s h1 ((isPositiveInteger_iff s).1 h2)
  · intro hk
    obtain ⟨s, h1, h2, -⟩ := h.number p hp k hk
    exact ⟨s, h1, (isPositiveInteger_iff s).2 h2⟩

theorem SameNumbers.intKeys_eq {n : ℕ} {D : ℕ → TreeInfo} {K : Set Str} {val : ℕ → Str → ℤ} (h : SameNumbers n D K val) {p : ℕ} (hp : p ≤ n) :
    intKeys (D p).information = intKeys (D 0).information := by
  have h1 := Report.Sorted.intKeys (h.sorted p hp)
  have h2 := Report.Sorted.intKeys (h.sorted 0 (by omega))
  have hn1 : (intKeys (D p).information).Nodup := List.Pairwise.imp (fun h => ne_of_lt h) h1
  have hn2 : (intKeys (D 0).information).Nodup := List.Pairwise.imp (fun h => ne_of_lt h) h2
  refine List.Perm.eq_of_pairwise ?_ h1 h2 ((List.perm_ext_iff_of_nodup hn1 hn2).2 fun k => by rw [h.mem_intKeys hp, h.mem_intKeys (by omega)])
  intro a b _ _ hab hba
  exact absurd (lt_trans hab hba) (lt_irrefl _)

theorem SameNumbers.intEntries {n : ℕ} {D : ℕ → TreeInfo} {K : Set Str} {val : ℕ → Str → ℤ} (h : SameNumbers n D K val) {p : ℕ} (hp : p ≤ n) :
    intEntries (D p).information = some ((intKeys (D 0).information).map fun k => (k, val p k)) := by
  rw [← h.intKeys_eq hp]
  unfold Report.intEntries
  rw [mapM_some (g := fun e => (e.1, val p e.1))]
  · unfold intKeys; rw [List.map_map]; rfl
  · rintro ⟨a, b⟩ he
    obtain ⟨h1, h2⟩ := List.mem_filter.1 he
    have hf := ((h.sorted p hp).mem_iff a b).1 h1
    have ha : a ∈ K := by
      by_contra hk
      exact h.other p hp a hk b hf ((isPositiveInteger_iff b).1 h2)
    obtain ⟨s, h3, -, h4⟩ := h.number p hp a ha
    rw [hf] at h3
    injection h3 with h3
    subst h3
    show (stoi b).map _ = _
    rw [h4]; rfl

theorem SameNumbers.sumReduce {n : ℕ} {D : ℕ → TreeInfo} {K : Set Str} {val : ℕ → Str → ℤ} (h : SameNumbers n D K val)
    {ents : ℕ → List (Str × ℤ)} (he : ∀ p ≤ n, ents p = (intKeys (D 0).information).map fun k => (k, val p k)) :
    sumReduce n (fun p => (ents p).map Prod.snd) = some ((intKeys (D 0).information).map fun k => ∑ p ∈ Finset.range (n + 1), val p k) := by
  have e : ∀ p ≤ n, (ents p).map Prod.snd = (intKeys (D 0).information).map (val p) := by
    intro p hp; rw [he p hp, List.map_map]; rfl
  unfold Report.sumReduce
  beta_reduce
  rw [if_pos (by
    intro p hp
    have := List.mem_range.1 hp
    rw [e p (by omega), e 0 (by omega), List.length_map, List.length_map])]
  have hs : ((List.range ((ents 0).map Prod.snd).length).map fun i => ((List.range (n + 1)).map fun p => ((ents p).map Prod.snd).getD i 0).sum) =
      (intKeys (D 0).information).map fun k => ∑ p ∈ Finset.range (n + 1), val p k := by
    rw [e 0 (by omega), List.length_map]
    refine List.ext_getElem (by simp) ?_
    intro i h1 h2
    have hi : i < (intKeys (D 0).information).length := by simpa using h1
    rw [List.getElem_map, List.getElem_map, List.getElem_range, sum_range_list]
    refine Finset.sum_congr rfl fun p hp => ?_
    have := Finset.mem_range.1 hp
    rw [e p (by omega), getD_map_names _ _ _ hi]
    simp [List.getD_eq_getElem?_getD, hi]
  simp only [hs]
  rw [if_pos]
  intro z hz
  obtain ⟨k, hk, rfl⟩ := List.mem_map.1 hz
  exact h.fits k ((h.mem_intKeys (by omega)).1 hk)

/-- **C73 (report over the ranks).** If all ranks store decimal numbers under the same names, and timings under the same names, rank 0 reports the sum over the
ranks under each of these names, the largest, mean and smallest duration for each timing, its statistics under the other names, and nothing else; the other ranks
report nothing. A name used twice belongs to the timings first, then to the numbers. -/
theorem C73_dist_report_partial (fmtQ : ℚ → Str) (thr : Option ℕ) {n : ℕ} (I : DistInfo) {D : ℕ → TreeInfo} {K : Set Str} {val : ℕ → Str → ℤ} {names : List Str}
    {t : ℕ → Str → ℚ} (h : SameNumbers n D K val) (ht : SameTimings n D names t) :
    ∃ rep, distReport fmtQ thr n I D 0 = some rep ∧ (∀ r, 0 < r → distReport fmtQ thr n I D r = some []) ∧
      (∀ k ∈ K, k ∉ timingKeys names → rep.find k = some (intStr (∑ p ∈ Finset.range (n + 1), val p k))) ∧
      (∀ k ∈ names, (∃ q, IsGreatest {q | ∃ p ≤ n, q = t p k} q ∧ rep.find (k ++ "_max".toList) = some (fmtQ q ++ " second(s)".toList)) ∧
        (∃ q, IsLeast {q | ∃ p ≤ n, q = t p k} q ∧ rep.find (k ++ "_min".toList) = some (fmtQ q ++ " second(s)".toList)) ∧
        rep.find (k ++ "_mean".toList) = some (fmtQ ((∑ p ∈ Finset.range (n + 1), t p k) / (n + 1)) ++ " second(s)".toList)) ∧
      (∀ k v, (k, v) ∈ distEntries fmtQ thr n I → k ∉ K → k ∉ timingKeys names → rep.find k = some v) ∧
      (∀ k, k ∉ distKeys → k ∉ K → k ∉ timingKeys names → rep.find k = none) := by
  obtain ⟨ents, h1, h2⟩ := allRanks_some (n := n) (f := fun p => intEntries (D p).information) (fun p hp => h.intEntries hp)
  have hz : ((ents 0).map Prod.fst).zip (((intKeys (D 0).information).map fun k => ∑ p ∈ Finset.range (n + 1), val p k).map intStr) =
      (intKeys (D 0).information).map fun k => (k, intStr (∑ p ∈ Finset.range (n + 1), val p k)) := by
    rw [h2 0 (by omega), List.map_map, List.map_map, List.zip_map']
    rfl
  have hnames : (D 0).timings.map Prod.fst = names := by
    rw [ht.eq 0 (by omega), List.map_map]
    exact List.map_id _
  have hrep : ∀ r, distReport fmtQ thr n I D r = some (if r = 0 then
      setAll (names.flatMap fun k => [(k ++ "_max".toList, seconds fmtQ ((List.range n).foldl (fun a p => max a (t (p + 1) k)) (t 0 k))),
        (k ++ "_mean".toList, seconds fmtQ ((List.range n).foldl (fun a p => a + (t (p + 1) k)) (t 0 k) / (n + 1 : ℕ))),
        (k ++ "_min".toList, seconds fmtQ ((List.range n).foldl (fun a p => min a (t (p + 1) k)) (t 0 k)))])
      (setAll ((intKeys (D 0).information).map fun k => (k, intStr (∑ p ∈ Finset.range (n + 1), val p k))) (setAll (distEntries fmtQ thr n I) []))
      else []) := by
    intro r
    unfold distReport
    rw [h1, Option.bind_some, h.sumReduce h2, Option.bind_some, opReduce_some ht, Option.bind_some, opReduce_some ht, Option.bind_some, opReduce_some ht,
      Option.bind_some, hz, hnames, timingEntries_eq]
  refine ⟨_, (hrep 0).trans (by rw [if_pos rfl]), fun r hr => by rw [hrep r, if_neg (by omega)], ?_, ?_, ?_, ?_⟩
  · intro k hk hkt
    rw [find_setAll_not (by rw [flat_keys]; exact hkt)]
    have hm : (k, intStr (∑ p ∈ Finset.range (n + 1), val p k)) ∈
        (intKeys (D 0).information).map fun k => (k, intStr (∑ p ∈ Finset.range (n + 1), val p k)) :=
      List.mem_map.2 ⟨k, (h.mem_intKeys (Nat.zero_le n)).2 hk, rfl⟩
    refine find_setAll_mem ?_ hm _
    rw [List.map_map]
    have := List.Pairwise.imp (fun h => ne_of_lt h) (Report.Sorted.intKeys (h.sorted 0 (by omega)))
    exact by simpa [Function.comp_def, List.Nodup] using this
  · intro k hk
    have hnd : ((names.flatMap fun k => [(k ++ "_max".toList, seconds fmtQ ((List.range n).foldl (fun a p => max a (t (p + 1) k)) (t 0 k))),
        (k ++ "_mean".toList, seconds fmtQ ((List.range n).foldl (fun a p => a + (t (p + 1) k)) (t 0 k) / (n + 1 : ℕ))),
        (k ++ "_min".toList, seconds fmtQ ((List.range n).foldl (fun a p => min a (t (p + 1) k)) (t 0 k)))]).map Prod.fst).Nodup := by
      rw [flat_keys fmtQ n names (fun k => (List.range n).foldl (fun a p => max a (t (p + 1) k)) (t 0 k))
        (fun k => (List.range n).foldl (fun a p => min a (t (p + 1) k)) (t 0 k)) (fun k => (List.range n).foldl (fun a p => a + (t (p + 1) k)) (t 0 k))]
      exact timingKeys_nodup ht.nodup
    refine ⟨⟨_, fold_max_isGreatest n fun p => t p k, find_setAll_mem hnd (List.mem_flatMap.2 ⟨k, hk, List.mem_of_getElem? (i := 0) rfl⟩) _⟩,
      ⟨_, fold_min_isLeast n fun p => t p k, find_setAll_mem hnd (List.mem_flatMap.2 ⟨k, hk, List.mem_of_getElem? (i := 2) rfl⟩) _⟩, ?_⟩
    rw [find_setAll_mem hnd (List.mem_flatMap.2 ⟨k, hk, List.mem_of_getElem? (i := 1) rfl⟩) _, fold_add n fun p => t p k]
    simp [seconds]
  · intro k v hv hk hkt
    rw [find_setAll_not (by rw [flat_keys]; exact hkt), find_setAll_not]
    · exact find_setAll_mem (distEntries_nodup fmtQ thr n I) hv _
    · rw [List.map_map]
      intro hm
      obtain ⟨k', h3, rfl⟩ := List.mem_map.1 hm
      exact hk ((h.mem_intKeys (Nat.zero_le n)).1 h3)
  · intro k hv hk hkt
    rw [find_setAll_not (by rw [flat_keys]; exact hkt), find_setAll_not, find_setAll_not (fun h3 => hv (distEntries_keys fmtQ thr n I h3))]
    · rfl
    · rw [List.map_map]
      intro hm
      obtain ⟨k', h3, rfl⟩ := List.mem_map.1 hm
      exact hk ((h.mem_intKeys (Nat.zero_le n)).1 h3)

/-- The statistics reported on rank 0 of `ranks` ranks, name by name; `thr`: number of threads of a rank if OpenMP is used. -/
structure DistFields (fmtQ : ℚ → Str) (thr : Option ℕ) (ranks : ℕ) (I : DistInfo) (rep : Map) : Prop where
  targetMax : rep.find "Target_size_max".toList = some (natStr I.targetMax)
  targetMean : rep.find "Target_size_mean".toList = some (fmtQ I.targetMean)
  targetMin : rep.find "Target_size_min".toList = some (natStr I.targetMin)
  sourceMax : rep.find "Source_size_max".toList = some (natStr I.sourceMax)
  sourceMean : rep.find "Source_size_mean".toList = some (fmtQ I.sourceMean)
  sourceMin : rep.find "Source_size_min".toList = some (natStr I.sourceMin)
  denseMax : rep.find "Dense_block_size_max".toList = some (natStr I.denseMax)
  denseMean : rep.find "Dense_block_size_mean".toList = some (fmtQ I.denseMean)
  denseMin : rep.find "Dense_block_size_min".toList = some (natStr I.denseMin)
  lowMax : rep.find "Low_rank_block_size_max".toList = some (natStr I.lowMax)
  lowMean : rep.find "Low_rank_block_size_mean".toList = some (fmtQ I.lowMean)
  lowMin : rep.find "Low_rank_block_size_min".toList = some (natStr I.lowMin)
  rankMax : rep.find "Rank_max".toList = some (natStr I.rankMax)
  rankMean : rep.find "Rank_mean".toList = some (fmtQ I.rankMean)
  rankMin : rep.find "Rank_min".toList = some (natStr I.rankMin)
  nLow : rep.find "Number_of_low_rank_blocks".toList = some (natStr I.nLow)
  nDense : rep.find "Number_of_dense_blocks".toList = some (natStr I.nDense)
  ratio : rep.find "Compression_ratio".toList = some (fmtQ I.ratio)
  saving : rep.find "Space_saving".toList = some (fmtQ I.saving)
  tasks : rep.find "Number_of_MPI_tasks".toList = some (natStr ranks)
  threads : ∀ t, thr = some t → rep.find "Number_of_threads_per_tasks".toList = some (natStr t)
  procs : rep.find "Number_of_procs".toList = some (natStr (ranks * thr.getD 1))

theorem distFields_of {fmtQ : ℚ → Str} {thr : Option ℕ} {n : ℕ} {I : DistInfo} {rep : Map}
    (h : ∀ k v, (k, v) ∈ distEntries fmtQ thr n I → rep.find k = some v) : DistFields fmtQ thr (n + 1) I rep := by
  have hg : ∀ (i : ℕ) k v, (distEntries fmtQ thr n I)[i]? = some (k, v) → rep.find k = some v := fun i k v hi => h k v (List.mem_of_getElem? hi)
  refine ⟨hg 0 _ _ rfl, hg 1 _ _ rfl, hg 2 _ _ rfl, hg 3 _ _ rfl, hg 4 _ _ rfl, hg 5 _ _ rfl, hg 6 _ _ rfl, hg 7 _ _ rfl, hg 8 _ _ rfl, hg 9 _ _ rfl, hg 10 _ _ rfl, hg 11 _ _ rfl, hg 12 _ _ rfl, hg 13 _ _ rfl, hg 14 _ _ rfl, hg 15 _ _ rfl, hg 16 _ _ rfl, hg 17 _ _ rfl, hg 18 _ _ rfl, hg 19 _ _ rfl, fun t e => hg 20 _ _ (by rw [e]; rfl), ?_⟩
  cases thr with
  | none => exact hg 20 _ _ (by rw [Option.getD_none, Nat.mul_one]; rfl)
  | some t => exact hg 21 _ _ rfl

/-- **C73 (built ranks).** Every rank builds its H-matrix with a new builder, in any number of threads and any schedule. Rank 0 then reports, under
`Number_of_false_positive`, the number of blocks over all ranks whose compression failed, and its statistics under their names. -/
theorem C73_dist_built [Zero R] (fmtQ : ℚ → Str) (thr : Option ℕ) {n : ℕ} {T : ℕ → ℕ} (hT : ∀ p ≤ n, 0 < T p) {E : ℕ → BEnv G} {lr : ℕ → LRGen R}
    {dg : ℕ → Option (DenseGen R)} {fuel : ℕ → ℕ} {tt ss : ℕ → CTree G} (hE : ∀ p ≤ n, BuildOK (E p) (tt p) (ss p)) {gen : ℕ → ℕ → ℕ → R}
    {m m' : ℕ → Mem R} {B' : ℕ → Builder} {H : ℕ → Tree ℕ}
    (hb : ∀ p ≤ n, BuildStep (T p) (E p) (lr p) (dg p) (fuel p) (tt p) (ss p) (gen p) (m p) Builder.empty (m' p) (B' p) (H p)) (t1 t2 : ℕ → ℚ)
    {b : ℕ → BTree G} (hbt : ∀ p ≤ n, buildBlocks (E p) (fuel p) (tt p) (ss p) = some (b p))
    (hfit : FitsInt ((∑ p ∈ Finset.range (n + 1), fallbacks (lr p) (gen p) (b p) : ℕ) : ℤ)) :
    let I := distInfo n fun p => (H p).map (m' p).heap
    ∃ rep, distReport fmtQ thr n I (fun p => builderInfo (B' p).fp (t1 p) (t2 p)) 0 = some rep ∧
      rep.find "Number_of_false_positive".toList = some (natStr (∑ p ∈ Finset.range (n + 1), fallbacks (lr p) (gen p) (b p))) ∧
      DistFields fmtQ thr (n + 1) I rep := by
  intro I
  have hfp : ∀ p ≤ n, (B' p).fp = fallbacks (lr p) (gen p) (b p) := by
    intro p hp
    obtain ⟨b', h1, -, h3, -⟩ := C17_fallback_every_schedule (hT p hp) (hE p hp) (hb p hp)
    rw [hbt p hp] at h1
    injection h1 with h1
    rw [h1, h3]
  have hle : ∀ p ≤ n, FitsInt ((B' p).fp : ℤ) := by
    intro p hp
    have h1 : (B' p).fp ≤ ∑ p ∈ Finset.range (n + 1), fallbacks (lr p) (gen p) (b p) := by
      rw [hfp p hp]
      exact Finset.single_le_sum (f := fun p => fallbacks (lr p) (gen p) (b p)) (fun _ _ => Nat.zero_le _) (Finset.mem_range.2 (by omega))
    unfold FitsInt at hfit ⊢
    omega
  have hone : ∀ fp k, (builderInfo fp (t1 0) (t2 0)).information.find k = if k = "Number_of_false_positive".toList then some (natStr fp) else none := by
    intro fp k
    show (Map.set "Number_of_false_positive".toList (natStr fp) []).find k = _
    rw [Info.find_set]; rfl
  have hsum : ∑ p ∈ Finset.range (n + 1), ((B' p).fp : ℤ) = ((∑ p ∈ Finset.range (n + 1), fallbacks (lr p) (gen p) (b p) : ℕ) : ℤ) := by
    push_cast
    exact Finset.sum_congr rfl fun p hp => by rw [hfp p (by have := Finset.mem_range.1 hp; omega)]
  have hN : SameNumbers n (fun p => builderInfo (B' p).fp (t1 p) (t2 p)) {"Number_of_false_positive".toList} (fun p _ => (B' p).fp) := by
    refine ⟨fun p _ => setAll_sorted List.Pairwise.nil, ?_, ?_, ?_⟩
    · rintro p hp k rfl
      refine ⟨natStr (B' p).fp, (hone _ _).trans (if_pos rfl), ⟨ClusterIO.natStr_ne _, fun c hc => ClusterIO.natStr_digit hc⟩, ClusterIO.stoi_natStr (hle p hp)⟩
    · intro p hp k hk s hs
      rw [show (builderInfo (B' p).fp (t1 p) (t2 p)).information.find k = none from (hone _ _).trans (if_neg hk)] at hs
      cases hs
    · rintro k rfl
      rw [hsum]; exact hfit
  have hTm : SameTimings n (fun p => builderInfo (B' p).fp (t1 p) (t2 p)) ["Block_tree_walltime".toList, "Blocks_computation_walltime".toList]
      (fun p k => if k = "Block_tree_walltime".toList then t1 p else t2 p) := by
    refine ⟨by decide, fun p _ => ?_⟩
    have hne : ¬ ("Blocks_computation_walltime".toList = "Block_tree_walltime".toList) := by decide
    rw [List.map_cons, List.map_cons, List.map_nil, if_pos rfl, if_neg hne]
    rfl
  obtain ⟨rep, h1, -, h3, -, h5, -⟩ := C73_dist_report_partial fmtQ thr I hN hTm
  refine ⟨rep, h1, ?_, distFields_of fun k v hkv => ?_⟩
  · rw [h3 _ rfl (by decide)]
    show some (intStr (∑ p ∈ Finset.range (n + 1), ((B' p).fp : ℤ))) = _
    rw [hsum, ClusterIO.intStr_natCast]
  · have hk : k ∈ distKeys := distEntries_keys fmtQ thr n I (List.mem_map.2 ⟨(k, v), hkv, rfl⟩)
    refine h5 k v hkv ?_ ?_
    · rintro rfl; revert hk; decide
    · intro hk'
      have : ∀ k ∈ timingKeys ["Block_tree_walltime".toList, "Blocks_computation_walltime".toList], k ∉ distKeys := by decide
      exact this k hk' hk

/-- **C73 without the hypothesis on names:** the numbers are added by position, and the name is that of rank 0. Rank 0 stores 5 under `alpha`, rank 1 stores 7
under `beta`: the report has 12 under `alpha`. -/
theorem C73_other_names_false : ∃ rep, distReport (fun _ => []) none 1 (distInfo 1 fun _ => exFour)
    (fun p => if p = 0 then ⟨[("alpha".toList, "5".toList)], []⟩ else ⟨[("beta".toList, "7".toList)], []⟩) 0 = some rep ∧
    rep.find "alpha".toList = some "12".toList ∧ rep.find "beta".toList = none :=
  ⟨_, rfl, rfl, rfl⟩

/-- **C73 without the hypothesis on names:** if the ranks do not have the same number of numeric entries the reduction is not allowed by MPI. -/
theorem C73_other_counts_false : distReport (fun _ => []) none 1 (distInfo 1 fun _ => exFour)
    (fun p => if p = 0 then ⟨[("alpha".toList, "5".toList)], []⟩ else ⟨[], []⟩) 0 = none := rfl

theorem reuse_count [Zero R] {T : ℕ} (hT : 0 < T) {E : BEnv G} {lr : LRGen R} {dg : Option (DenseGen R)} {fuel : ℕ} {t s : CTree G} (hE : BuildOK E t s)
    {gen : ℕ → ℕ → R} {m m1 m2 : Mem R} {B1 B2 : Builder} {H1 H2 : Tree ℕ} (h1 : BuildStep T E lr dg fuel t s gen m Builder.empty m1 B1 H1)
    (h2 : BuildStep T E lr dg fuel t s gen m1 B1 m2 B2 H2) {b : BTree G} (hb : buildBlocks E fuel t s = some b) :
    fallbacks lr gen b + fallbacks lr gen b ≤ B2.fp := by
  obtain ⟨b1, e1, -, -, -, -, -, -, f1, i1⟩ := build_spec hT hE (sysInv_empty m) h1
  obtain ⟨b2, e2, -, -, -, -, -, -, f2, -⟩ := build_spec hT hE i1 h2
  rw [hb] at e1 e2
  injection e1 with e1
  injection e2 with e2
  subst e1 e2
  rw [f2, f1, failCount_eq]
  simp [Builder.empty]

/-- A compression that always fails. -/
def failLr : LRGen ℤ := fun _ _ _ => ⟨0, 0, 0, fun _ _ => 0, fun _ _ => 0⟩

theorem exFail : ∃ (t : CTree (List ℕ)) (st : CState (List ℕ)) (b : BTree (List ℕ)), BuildOK (exEnv t st none none .N .N) t t ∧
    buildBlocks (exEnv t st none none .N .N) 100 t t = some b ∧ fallbacks failLr (fun _ _ => 0) b = 6 := by
  obtain ⟨t, st, h, hb⟩ := exBuild_built
  have hc : Covered (exEnv t st none none .N .N) t t t :=
    .plain hb.wf.1 hb.wf.1 hb.wf.2 hb.wf.2 rfl (Tree.mem_pre_self t) (Tree.mem_pre_self t) (Or.inl rfl)
  have h2 : ∀ r ∈ exBuild, (buildBlocks (exEnv r.1 r.2 none none .N .N) 100 r.1 r.1).isSome := by decide +kernel
  obtain ⟨b, hr⟩ := Option.isSome_iff_exists.1 (h2 (t, st) h)
  have h3 : ∀ r ∈ exBuild, ∀ b ∈ buildBlocks (exEnv r.1 r.2 none none .N .N) 100 r.1 r.1, fallbacks failLr (fun _ _ => 0) b = 6 := by decide +kernel
  exact ⟨t, st, b, hc.buildOK, hr, h3 (t, st) h b hr⟩

/-- **C73 with a builder used twice is false:** `m_false_positive` is never reset and the blocks of the first matrix are compressed again. In the matrix built
second, 6 blocks could not be compressed; the number reported for it is at least 12. -/
theorem C73_reuse_false : ∃ (E : BEnv (List ℕ)) (t : CTree (List ℕ)) (b : BTree (List ℕ)) (m1 m2 : Mem ℤ) (B1 B2 : Builder) (H1 H2 : Tree ℕ),
    buildBlocks E 100 t t = some b ∧ BuildStep 2 E failLr none 100 t t (fun _ _ => 0) exMem Builder.empty m1 B1 H1 ∧
    BuildStep 2 E failLr none 100 t t (fun _ _ => 0) m1 B1 m2 B2 H2 ∧ fallbacks failLr (fun _ _ => 0) b = 6 ∧ 12 ≤ B2.fp := by
  obtain ⟨t, st, b, hE, hb, hf⟩ := exFail
  obtain ⟨m1, B1, H1, s1⟩ := build_exists (T := 2) (lr := failLr) (dg := none) hE (gen := fun _ _ => (0 : ℤ)) (sysInv_empty exMem) hb
  obtain ⟨-, -, -, -, -, -, -, -, -, inv1⟩ := build_spec (by omega) hE (sysInv_empty exMem) s1
  obtain ⟨m2, B2, H2, s2⟩ := build_exists (T := 2) (lr := failLr) (dg := none) hE (gen := fun _ _ => (0 : ℤ)) inv1 hb
  have := reuse_count (by omega) hE s1 s2 hb
  exact ⟨_, t, b, m1, m2, B1, B2, H1, H2, hb, s1, s2, hf, by omega⟩

/-- The hypotheses of `C73_dist_built` are met: 3 ranks, 6 failures on each. -/
example : ∃ rep, ∃ (E : BEnv (List ℕ)) (t : CTree (List ℕ)) (m' : Mem ℤ) (B' : Builder) (H : Tree ℕ),
    BuildStep 2 E failLr none 100 t t (fun _ _ => 0) exMem Builder.empty m' B' H ∧
    distReport (fun _ => []) (some 2) 2 (distInfo 2 fun _ => H.map m'.heap) (fun _ => builderInfo B'.fp 1 2) 0 = some rep ∧
    rep.find "Number_of_false_positive".toList = some "18".toList := by
  obtain ⟨t, st, b, hE, hb, hf⟩ := exFail
  obtain ⟨m1, B1, H1, s1⟩ := build_exists (T := 2) (lr := failLr) (dg := none) hE (gen := fun _ _ => (0 : ℤ)) (sysInv_empty exMem) hb
  obtain ⟨rep, h1, h2, -⟩ := C73_dist_built (n := 2) (fun _ => []) (some 2) (fun _ _ => by omega) (fun _ _ => hE) (fun _ _ => s1) (fun _ => 1) (fun _ => 2)
    (fun _ _ => hb) (by rw [hf]; decide)
  refine ⟨rep, _, t, m1, B1, H1, s1, h1, ?_⟩
  rw [h2, hf]
  rfl

/-! ## The printed report -/

/-- The part of a line before the first two underscores in a row. -/
def keyOf : Str → Str
  | [] => []
  | [c] => [c]
  | c :: d :: s => if c = '_' ∧ d = '_' then [] else c :: keyOf (d :: s)

/-- Reading of a printed report: the title is dropped; the names end at the first two underscores in a row; the values start two characters after the longest
name. -/
def readReport (text : Str) : Map :=
  let ls := (ClusterIO.getLines text).drop 1
  let w := 2 + (ls.map fun l => (keyOf l).length).foldl max 0
  ls.map fun l => (keyOf l, l.drop w)

/-- A name without two underscores in a row, not ending with one. -/
def GoodKey : Str → Prop
  | [] => True
  | [c] => c ≠ '_'
  | c :: d :: s => ¬ (c = '_' ∧ d = '_') ∧ GoodKey (d :: s)

instance : DecidablePred GoodKey := fun s => by
  induction s with
  | nil => exact isTrue trivial
  | cons c s ih => cases s with
    | nil => unfold GoodKey; infer_instance
    | cons d s => unfold GoodKey; infer_instance

theorem keyOf_pad {k : Str} (h : GoodKey k) (r : Str) : keyOf (k ++ '_' :: '_' :: r) = k := by
  induction k with
  | nil => simp [keyOf]
  | cons c k ih =>
    cases k with
    | nil =>
      have hc : c ≠ '_' := h
      simp [keyOf, hc]
    | cons d k =>
      obtain ⟨h1, h2⟩ := h
      show keyOf (c :: d :: (k ++ '_' :: '_' :: r)) = _
      rw [keyOf, if_neg h1]
      congr 1
      exact ih h2

theorem foldl_max_ge (l : List ℕ) (a : ℕ) : a ≤ l.foldl max a ∧ ∀ x ∈ l, x ≤ l.foldl max a := by
  induction l generalizing a with
  | nil => exact ⟨le_refl _, by simp⟩
  | cons b l ih =>
    obtain ⟨h1, h2⟩ := ih (max a b)
    refine ⟨le_trans (le_max_left _ _) h1, fun x hx => ?_⟩
    rcases List.mem_cons.1 hx with rfl | hx
    · exact le_trans (le_max_right _ _) h1
    · exact h2 x hx

/-- **C73 (printed report).** Whatever the map, if its names have no two underscores in a row and do not end with one, and no end of line occurs in the texts,
then the printed report can be read back: the values start in one column, and every name is separated from its value. -/
theorem C73_print_round_trip (title : Str) (m : Map) (ht : '\n' ∉ title) (hk : ∀ e ∈ m, GoodKey e.1) (hn : ∀ e ∈ m, '\n' ∉ e.1 ∧ '\n' ∉ e.2) :
    readReport (printReport title m) = m := by
  have hw : outputSize m = 2 + (m.map fun e => e.1.length).foldl max 0 := by
    unfold outputSize
    rw [List.foldl_map]
  have hle : ∀ e ∈ m, e.1.length + 2 ≤ outputSize m := by
    intro e he
    have := (foldl_max_ge (m.map fun e => e.1.length) 0).2 e.1.length (List.mem_map.2 ⟨e, he, rfl⟩)
    omega
  have hlines : ClusterIO.getLines (printReport title m) = title :: m.map fun e => padRight (outputSize m) e.1 ++ e.2 := by
    have : printReport title m = ((title :: m.map fun e => padRight (outputSize m) e.1 ++ e.2).map fun r => r ++ ['\n']).flatten := by
      unfold printReport
      rw [List.map_cons, List.flatten_cons, List.map_map]
      rfl
    rw [this]
    refine ClusterIO.getLines_lines _ ?_
    intro r hr
    rcases List.mem_cons.1 hr with rfl | hr
    · exact ht
    · obtain ⟨e, he, rfl⟩ := List.mem_map.1 hr
      unfold padRight
      simp only [List.mem_append, not_or]
      refine ⟨⟨(hn e he).1, fun h => ?_⟩, (hn e he).2⟩
      exact absurd (List.eq_of_mem_replicate h) (by decide)
  have hkey : ∀ e ∈ m, keyOf (padRight (outputSize m) e.1 ++ e.2) = e.1 := by
    intro e he
    have h1 := hle e he
    obtain ⟨d, hd⟩ : ∃ d, outputSize m - e.1.length = d + 1 + 1 := ⟨outputSize m - e.1.length - 2, by omega⟩
    unfold padRight
    rw [hd, List.replicate_succ, List.replicate_succ, List.append_assoc]
    exact keyOf_pad (hk e he) _
  have hws : 2 + ((m.map fun e => padRight (outputSize m) e.1 ++ e.2).map fun l => (keyOf l).length).foldl max 0 = outputSize m := by
    rw [hw, List.map_map]
    congr 2
    refine List.map_congr_left fun e he => ?_
    show (keyOf (padRight _ e.1 ++ e.2)).length = _
    rw [← hw, hkey e he]
  unfold readReport
  rw [hlines]
  simp only [List.drop_succ_cons, List.drop_zero, hws]
  rw [List.map_map]
  conv_rhs => rw [← List.map_id m]
  refine List.map_congr_left fun e he => ?_
  have hl : (padRight (outputSize m) e.1).length = outputSize m := by
    have := hle e he
    unfold padRight
    rw [List.length_append, List.length_replicate]; omega
  show (keyOf (padRight (outputSize m) e.1 ++ e.2), (padRight (outputSize m) e.1 ++ e.2).drop (outputSize m)) = e
  rw [hkey e he, List.drop_left' hl]

/-- All names written by the library qualify. -/
theorem C73_library_keys_good : (∀ k ∈ localKeys, GoodKey k) ∧ (∀ k ∈ distKeys, GoodKey k) ∧ GoodKey "Number_of_false_positive".toList ∧
    (∀ k ∈ timingKeys ["Block_tree_walltime".toList, "Blocks_computation_walltime".toList], GoodKey k) := by decide

example : printReport "T".toList [("ab".toList, "1".toList), ("a_cd".toList, "x".toList)] = "T\nab____1\na_cd__x\n".toList := by decide

end Htool.Report
