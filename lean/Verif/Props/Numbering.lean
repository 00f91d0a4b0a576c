import Verif.Numbering

/-! # Property C10: conversions between user and cluster numbering -/

namespace Htool
variable {R D G : Type*}

theorem localPerm_root {S : Strategies D G} (hS : S.OK) {flog} (hf : FlogOK flog)
    {fuel n nc : ℕ} (hnc : 2 ≤ nc) {arg : PartArg} (ha : arg.ok n) {t : Tree (CNode G)} {st : CState G}
    (h : createClusterTree S flog fuel n nc arg = some (t, st)) :
    t.label.offset = 0 ∧ t.label.size = n ∧ LocalPerm st.perm t.label.offset t.label.size := by
  obtain ⟨h1, h2, -⟩ := create_shape hS hf hnc ha h
  refine ⟨h1, h2, ?_⟩
  have hp := (create_frozen hS hf hnc ha h).1.perm (Nat.zero_le _)
  have hlen : st.perm.length = n := by simpa using hp.length_eq
  unfold LocalPerm slice
  rw [h1, h2, List.drop_zero, List.take_of_length_le (by omega), ← List.range_eq_range']
  exact hp

theorem localPerm_part {S : Strategies D G} (hS : S.OK) {flog} (hf : FlogOK flog) {fuel n nc : ℕ} (hnc : 2 ≤ nc)
    {partition : List (ℕ × ℕ)} (ha : Tiles 0 n partition) {t : Tree (CNode G)} {st : CState G}
    (h : createClusterTree S flog fuel n nc (.given partition) = some (t, st)) {p : ℕ} (hp : p < partition.length) :
    ∃ c : CNode G, st.parts[p]? = some (some c) ∧ (c.offset, c.size) = partition[p] ∧
      LocalPerm st.perm c.offset c.size := by
  obtain ⟨parts, h1, -, -, h4⟩ := C05_given_partition_clusters hS hnc h
  have hlen : parts.length = partition.length := by rw [← h4]; simp
  have hpp : p < parts.length := by omega
  have he : (parts[p].offset, parts[p].size) = partition[p] := by
    have : (parts.map (fun c => (c.offset, c.size)))[p]'(by simpa using hpp) = partition[p] := by
      simp only [h4]
    simpa using this
  refine ⟨parts[p], by rw [h1, List.getElem?_map, List.getElem?_eq_getElem hpp]; rfl, he, ?_⟩
  have := C04_given_partition_is_local hS hf hnc ha h (List.getElem_mem hp)
  rw [← he] at this
  exact this

/-- **C10 (indices).** For the root cluster, and for each partition cluster of a tree built with a given partition, all indices used
by the conversions are in range: `permutation[off + i]` exists and `off ≤ permutation[off + i] < off + size`. -/
theorem C10_indices_in_range {S : Strategies D G} (hS : S.OK) {flog} (hf : FlogOK flog)
    {fuel n nc : ℕ} (hnc : 2 ≤ nc) {arg : PartArg} (ha : arg.ok n) {t : Tree (CNode G)} {st : CState G}
    (h : createClusterTree S flog fuel n nc arg = some (t, st)) :
    (∀ i < n, ∃ k, st.perm[t.label.offset + i]? = some k ∧ t.label.offset ≤ k ∧ k < t.label.offset + n) ∧
    (∀ partition, arg = .given partition → ∀ p (hp : p < partition.length), ∀ i < partition[p].2,
      ∃ k, st.perm[partition[p].1 + i]? = some k ∧ partition[p].1 ≤ k ∧ k < partition[p].1 + partition[p].2) := by
  have key : ∀ off size, LocalPerm st.perm off size → ∀ i < size,
      ∃ k, st.perm[off + i]? = some k ∧ off ≤ k ∧ k < off + size := by
    intro off size hl i hi
    obtain ⟨a1, a2, a3, a4⟩ := userIdx_eq hl hi
    refine ⟨(slice st.perm off size)[i], ?_, a3, by omega⟩
    have := slice_getElem? st.perm off size i
    rw [if_pos hi, List.getElem?_eq_getElem a1] at this
    exact this.symm
  constructor
  · obtain ⟨h1, h2, h3⟩ := localPerm_root hS hf hnc ha h
    rw [h2] at h3
    exact key _ _ h3
  · rintro partition rfl p hp
    obtain ⟨c, -, h2, h3⟩ := localPerm_part hS hf hnc ha h hp
    rw [← h2]
    exact key _ _ h3

/-- **C10 (root).** `global_to_root_cluster` and `root_cluster_to_global` are inverse of each other on the `n` entries of a
vector, whatever the previous content of the output buffers, and write nothing else. -/
theorem C10_root_round_trips {S : Strategies D G} (hS : S.OK) {flog} (hf : FlogOK flog)
    {fuel n nc : ℕ} (hnc : 2 ≤ nc) {arg : PartArg} (ha : arg.ok n) {t : Tree (CNode G)} {st : CState G}
    (h : createClusterTree S flog fuel n nc arg = some (t, st)) (x o1 o2 : ℕ → R) :
    (∀ i < n, globalToRootCluster t st (rootClusterToGlobal t st x o1) o2 i = x i) ∧
    (∀ i < n, rootClusterToGlobal t st (globalToRootCluster t st x o1) o2 i = x i) ∧
    (∀ i, n ≤ i → rootClusterToGlobal t st x o1 i = o1 i ∧ globalToRootCluster t st x o1 i = o1 i) ∧
    (∀ i < n, ∃ k < n, st.perm[i]? = some k ∧ globalToRootCluster t st x o1 i = x k ∧ rootClusterToGlobal t st x o1 k = x i) := by
  obtain ⟨h1, h2, h3⟩ := localPerm_root hS hf hnc ha h
  unfold globalToRootCluster rootClusterToGlobal
  rw [h1, h2] at *
  have a := fun (y o : ℕ → R) => clusterToUser_spec h3 y o
  have b := fun (y o : ℕ → R) => userToCluster_spec st.perm 0 n y o
  refine ⟨?_, ?_, ?_, ?_⟩
  · intro i hi; rw [(b _ _).1 i hi, (a _ _).1 i hi]
  · intro k hk
    obtain ⟨i, hi, rfl⟩ := userIdx_surj h3 hk
    rw [(a _ _).1 i hi, (b _ _).1 i hi]
  · intro i hi; exact ⟨(a _ _).2 i hi, (b _ _).2 i hi⟩
  · intro i hi
    obtain ⟨a1, a2, a3, a4⟩ := userIdx_eq h3 hi
    refine ⟨userIdx st.perm 0 i, a4, ?_, (b _ _).1 i hi, (a _ _).1 i hi⟩
    have := slice_getElem? st.perm 0 n i
    rw [if_pos hi, List.getElem?_eq_getElem a1, Nat.zero_add] at this
    rw [← this, a2]; rfl

/-- **C10 (subdomains).** With a given partition, `local_to_local_cluster` and `local_cluster_to_local` are inverse of each other
on each subdomain and write nothing outside its size. -/
theorem C10_local_round_trips {S : Strategies D G} (hS : S.OK) {flog} (hf : FlogOK flog) {fuel n nc : ℕ} (hnc : 2 ≤ nc)
    {partition : List (ℕ × ℕ)} (ha : Tiles 0 n partition) {t : Tree (CNode G)} {st : CState G}
    (h : createClusterTree S flog fuel n nc (.given partition) = some (t, st)) {p : ℕ} (hp : p < partition.length)
    (x o1 o2 : ℕ → R) :
    (∀ i < partition[p].2, localToLocalCluster st p (localClusterToLocal st p x o1) o2 i = x i) ∧
    (∀ i < partition[p].2, localClusterToLocal st p (localToLocalCluster st p x o1) o2 i = x i) ∧
    (∀ i, partition[p].2 ≤ i → localClusterToLocal st p x o1 i = o1 i ∧ localToLocalCluster st p x o1 i = o1 i) ∧
    (∀ i < partition[p].2, ∃ k < partition[p].2, st.perm[partition[p].1 + i]? = some (partition[p].1 + k) ∧
      localToLocalCluster st p x o1 i = x k ∧ localClusterToLocal st p x o1 k = x i) := by
  obtain ⟨c, h1, h2, h3⟩ := localPerm_part hS hf hnc ha h hp
  unfold localToLocalCluster localClusterToLocal
  rw [h1, ← h2]
  simp only
  have a := fun (y o : ℕ → R) => clusterToUser_spec h3 y o
  have b := fun (y o : ℕ → R) => userToCluster_spec st.perm c.offset c.size y o
  refine ⟨?_, ?_, ?_, ?_⟩
  · intro i hi; rw [(b _ _).1 i hi, (a _ _).1 i hi]
  · intro k hk
    obtain ⟨i, hi, rfl⟩ := userIdx_surj h3 hk
    rw [(a _ _).1 i hi, (b _ _).1 i hi]
  · intro i hi; exact ⟨(a _ _).2 i hi, (b _ _).2 i hi⟩
  · intro i hi
    obtain ⟨a1, a2, a3, a4⟩ := userIdx_eq h3 hi
    refine ⟨userIdx st.perm c.offset i, a4, ?_, (b _ _).1 i hi, (a _ _).1 i hi⟩
    have := slice_getElem? st.perm c.offset c.size i
    rw [if_pos hi, List.getElem?_eq_getElem a1] at this
    rw [← this, a2, Nat.add_comm]

/-- Without locality the round trip fails: with an automatic partition the second subdomain of a tree need not be mapped onto itself. -/
example : ((createClusterTree exStrategies Nat.log 10 4 2 (.auto 2)).map (fun r =>
    (r.2.perm, (List.range 2).map (localToLocalCluster r.2 1 (localClusterToLocal r.2 1 (fun i => i + 7) (fun _ => 0)) (fun _ => 0))))) =
    some ([2, 3, 0, 1], [8, 8]) := by
  decide +kernel

/-- Concrete round trip with a given partition. -/
example : ((createClusterTree exStrategies Nat.log 20 10 2 (.given [(0, 3), (3, 7)])).map (fun r =>
    ((List.range 7).map (localClusterToLocal r.2 1 (fun i => i) (fun _ => 99)),
     (List.range 8).map (localToLocalCluster r.2 1 (localClusterToLocal r.2 1 (fun i => i) (fun _ => 99)) (fun _ => 77))))) =
    some ([4, 3, 6, 5, 0, 1, 2], [0, 1, 2, 3, 4, 5, 6, 77]) := by
  decide +kernel

end Htool
