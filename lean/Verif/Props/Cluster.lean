import Verif.ClusterCounter

/-! # Properties C02–C07, C09: the cluster tree builder -/

namespace Htool
variable {D G : Type*}

/-- The last two arguments of `create_cluster_tree` (recursive_build.hpp 55): only a number of parts, or a given partition. -/
inductive PartArg where
  | auto (size_of_partition : ℕ)
  | given (partition : List (ℕ × ℕ))

/-- `create_cluster_tree` (recursive_build.hpp 55-173). -/
def createClusterTree (S : Strategies D G) (flog : ℕ → ℕ → ℕ) (fuel n nc : ℕ) :
    PartArg → Option (Tree (CNode G) × CState G)
  | .auto sp => createSimple S flog fuel n nc sp
  | .given partition => createGiven S fuel n nc partition

/-- Legal partition arguments: at least one part; a given partition tiles `[0,n)`. -/
def PartArg.ok (n : ℕ) : PartArg → Prop
  | .auto sp => 1 ≤ sp
  | .given partition => Tiles 0 n partition

/-- Assumptions on the strategies: `std::sort` permutes its slice, the splitting strategy tiles (proved for htool's
two strategies, see `strategies_ok_of_regular` and `strategies_ok_of_geometric`). -/
structure Strategies.OK (S : Strategies D G) : Prop where
  sort : SortOK S.sort
  split : SplitOK S.split

/-- What is assumed on `floor(log(sp)/log(nc))` computed in floating point: a positive exponent not too large. -/
def FlogOK (flog : ℕ → ℕ → ℕ) : Prop :=
  ∀ nc sp, 2 ≤ nc → nc ≤ sp → 1 ≤ flog nc sp ∧ nc ^ (flog nc sp) ≤ sp

/-- The exact integer logarithm satisfies the assumption. -/
theorem flogOK_log : FlogOK Nat.log := by
  intro nc sp h1 h2
  exact ⟨Nat.log_pos (by omega) h2, Nat.pow_log_le_self nc (by omega)⟩

/-- `RegularSplitting` meets `Strategies.OK`. -/
theorem strategies_ok_of_regular (S : Strategies D G) (minSize : ℕ) (hs : SortOK S.sort)
    (h : S.split = fun _ _ off size k => regularSplitting off size k minSize) : S.OK := by
  refine ⟨hs, ?_⟩
  intro d perm off size k hk hne
  rw [h] at hne ⊢
  obtain ⟨h1, h2, h3⟩ := regularSplitting_spec off size k minSize hk hne
  exact ⟨h1, h2, fun iv hiv => by have := h3 iv hiv; omega⟩

/-- `GeometricSplitting` meets `Strategies.OK`. -/
theorem strategies_ok_of_geometric {K : Type*} [Field K] [LinearOrder K] (S : Strategies (ℕ → K) G)
    (dim : ℕ) (x : ℕ → K) (minSize : ℕ) (hs : SortOK S.sort)
    (h : S.split = fun dir perm off size k => geometricSplitting dim x dir perm off size k minSize) :
    S.OK := by
  refine ⟨hs, ?_⟩
  intro d perm off size k hk hne
  rw [h] at hne ⊢
  obtain ⟨h1, h2, h3⟩ := geometricSplitting_spec dim x d perm off size k minSize hk hne
  exact ⟨h1, h2, fun iv hiv => by have := h3 iv hiv; omega⟩

section helpers

theorem simpleEnv_ok {S : Strategies D G} (hS : S.OK) {flog} (hf : FlogOK flog) {nc sp : ℕ}
    (hnc : 2 ≤ nc) (hsp : 1 ≤ sp) : (simpleEnv S flog nc sp).OK where
  nc := by show 1 ≤ nc; omega
  col := by
    intro _
    show 1 ≤ (if nc ≤ sp then nc else sp)
    split_ifs <;> omega
  dp := by
    show 1 ≤ (if nc ≤ sp then flog nc sp else 1)
    split_ifs with h
    · exact (hf nc sp hnc h).1
    · omega
  sort := hS.sort
  split := hS.split

theorem givenEnv_ok {S : Strategies D G} (hS : S.OK) {nc : ℕ} (hnc : 2 ≤ nc) : (givenEnv S nc).OK where
  nc := by show 1 ≤ nc; omega
  col := by intro h; exact absurd h (by simp [givenEnv])
  dp := le_refl _
  sort := hS.sort
  split := hS.split

theorem createGiven_inv {S : Strategies D G} {fuel n nc : ℕ} {partition : List (ℕ × ℕ)}
    {t : Tree (CNode G)} {st : CState G} (h : createGiven S fuel n nc partition = some (t, st)) :
    ∃ ts, t = Tree.node (rootNode (givenEnv S nc) n) ts ∧
      buildList (build (givenEnv S nc) fuel) (givenChildren S n partition)
        (register (initState n) (givenChildren S n partition)) = some (ts, st) := by
  unfold createGiven at h
  simp only at h
  cases h1 : buildList (build (givenEnv S nc) fuel) (givenChildren S n partition)
      (register (initState n) (givenChildren S n partition)) with
  | none => rw [h1] at h; simp at h
  | some r =>
    obtain ⟨ts, st'⟩ := r
    rw [h1] at h
    simp only [Option.some.injEq, Prod.mk.injEq] at h
    obtain ⟨rfl, rfl⟩ := h
    exact ⟨ts, rfl, rfl⟩

theorem givenChildren_iv (S : Strategies D G) (n : ℕ) (partition : List (ℕ × ℕ)) :
    (givenChildren S n partition).map CNode.iv = partition := by
  unfold givenChildren
  apply List.ext_getElem
  · simp
  · intro i h1 h2; simp [CNode.iv]

theorem givenChildren_get {S : Strategies D G} {n : ℕ} {partition : List (ℕ × ℕ)} {p : ℕ}
    (hp : p < (givenChildren S n partition).length) :
    (givenChildren S n partition)[p].depth = 1 ∧ (givenChildren S n partition)[p].rank = p ∧
    (givenChildren S n partition)[p].counter = p ∧ (givenChildren S n partition)[p].onPart = true ∧
    (givenChildren S n partition)[p].geo = S.geo (List.range n) (givenChildren S n partition)[p].offset
      (givenChildren S n partition)[p].size := by
  simp [givenChildren]

/-- Common consequences for both kinds of partition argument. -/
theorem create_shape {S : Strategies D G} (hS : S.OK) {flog} (hf : FlogOK flog) {fuel n nc : ℕ}
    (hnc : 2 ≤ nc) {arg : PartArg} (ha : arg.ok n) {t : Tree (CNode G)} {st : CState G}
    (h : createClusterTree S flog fuel n nc arg = some (t, st)) :
    t.label.offset = 0 ∧ t.label.size = n ∧ t.label.depth = 0 ∧ HierTiles t ∧ DepthOK t := by
  cases arg with
  | auto sp =>
    obtain ⟨h1, h2, h3⟩ := build_shape (simpleEnv_ok hS hf hnc ha) h
    rw [h1]
    exact ⟨rfl, rfl, rfl, h2, h3⟩
  | given partition =>
    obtain ⟨ts, rfl, h1⟩ := createGiven_inv h
    obtain ⟨h2, h3⟩ := buildList_shape (givenEnv_ok hS hnc) h1
    refine ⟨rfl, rfl, rfl, ?_, ?_⟩
    · intro s hs hne
      rcases Tree.mem_pre.1 hs with rfl | ⟨u, hu, hs'⟩
      · have : Tiles 0 n (ts.map (fun u => u.label.iv)) := by
          have e : ts.map (fun u => u.label.iv) = partition := by
            rw [← givenChildren_iv S n partition, ← h2, List.map_map]; rfl
          rw [e]; exact ha
        simpa [rootNode] using this
      · exact (h3 u hu).1 s hs' hne
    · intro s hs
      rcases Tree.mem_pre.1 hs with rfl | ⟨u, hu, hs'⟩
      · intro u hu
        have hu' : u.label ∈ givenChildren S n partition := by
          rw [← h2]; exact List.mem_map_of_mem hu
        obtain ⟨p, hp, hpu⟩ := List.getElem_of_mem hu'
        rw [← hpu, (givenChildren_get hp).1]; rfl
      · exact (h3 u hu).2 s hs'

theorem create_frozen {S : Strategies D G} (hS : S.OK) {flog} (hf : FlogOK flog) {fuel n nc : ℕ}
    (hnc : 2 ≤ nc) {arg : PartArg} (ha : arg.ok n) {t : Tree (CNode G)} {st : CState G}
    (h : createClusterTree S flog fuel n nc arg = some (t, st)) :
    PermStep 0 n (List.range n) st.perm ∧
    ∀ s ∈ t.pre, ∃ q, s.label.geo = S.geo q s.label.offset s.label.size ∧
      (slice q s.label.offset s.label.size).Perm (slice st.perm s.label.offset s.label.size) := by
  cases arg with
  | auto sp =>
    have := build_frozen (simpleEnv_ok hS hf hnc ha) h (by simp [rootNode, initState])
    obtain ⟨h1, h2, -⟩ := this
    simp only [rootNode, initState, Nat.zero_add] at h1
    exact ⟨h1, h2 ⟨List.range n, rfl, List.Perm.refl _⟩⟩
  | given partition =>
    obtain ⟨ts, rfl, hb⟩ := createGiven_inv h
    have := buildList_frozen (givenEnv_ok hS hnc) hb 0 n (by rw [givenChildren_iv]; exact ha)
      (by simp [initState])
    obtain ⟨h1, h2, -⟩ := this
    have h1 : PermStep 0 n (List.range n) st.perm := h1
    refine ⟨h1, ?_⟩
    intro s hs
    rcases Tree.mem_pre.1 hs with rfl | ⟨u, hu, hs'⟩
    · have hf0 : FrozenAt (givenEnv S nc) (List.range n) (rootNode (givenEnv S nc) n) :=
        ⟨List.range n, rfl, List.Perm.refl _⟩
      exact hf0.step (by simpa [rootNode] using h1)
    · refine h2 ?_ u hu s hs'
      intro c hc
      obtain ⟨p, hp, rfl⟩ := List.getElem_of_mem hc
      exact ⟨List.range n, (givenChildren_get hp).2.2.2.2, List.Perm.refl _⟩

end helpers

/-- **C02.** The final permutation is a rearrangement of `0, …, n-1`: every user index appears exactly once. -/
theorem C02_permutation_is_bijection {S : Strategies D G} (hS : S.OK) {flog} (hf : FlogOK flog)
    {fuel n nc : ℕ} (hnc : 2 ≤ nc) {arg : PartArg} (ha : arg.ok n) {t : Tree (CNode G)} {st : CState G}
    (h : createClusterTree S flog fuel n nc arg = some (t, st)) :
    st.perm.length = n ∧ st.perm.Nodup ∧ ∀ i, i ∈ st.perm ↔ i < n := by
  have hp := (create_frozen hS hf hnc ha h).1.perm (Nat.zero_le _)
  refine ⟨by simpa using hp.length_eq, hp.nodup_iff.2 List.nodup_range, ?_⟩
  intro i; rw [hp.mem_iff, List.mem_range]

/-- **C03.** The root is `[0,n)`, children tile their parent in order, leaves read from left to right tile `[0,n)`. -/
theorem C03_tree_is_hierarchical_partition {S : Strategies D G} (hS : S.OK) {flog} (hf : FlogOK flog)
    {fuel n nc : ℕ} (hnc : 2 ≤ nc) {arg : PartArg} (ha : arg.ok n) {t : Tree (CNode G)} {st : CState G}
    (h : createClusterTree S flog fuel n nc arg = some (t, st)) :
    t.label.offset = 0 ∧ t.label.size = n ∧
    (∀ s ∈ t.pre, s.children ≠ [] → Tiles s.label.offset (s.label.offset + s.label.size)
      (s.children.map (fun u => (u.label.offset, u.label.size)))) ∧
    Tiles 0 n (t.leaves.map (fun u => (u.label.offset, u.label.size))) := by
  obtain ⟨h1, h2, -, h3, -⟩ := create_shape hS hf hnc ha h
  refine ⟨h1, h2, h3, ?_⟩
  have := h3.leaves
  rw [h1, h2, Nat.zero_add] at this
  exact this

/-- **C03 (point-wise).** Every index below `n` is in exactly one leaf. -/
theorem C03_each_index_in_exactly_one_leaf {S : Strategies D G} (hS : S.OK) {flog} (hf : FlogOK flog)
    {fuel n nc : ℕ} (hnc : 2 ≤ nc) {arg : PartArg} (ha : arg.ok n) {t : Tree (CNode G)} {st : CState G}
    (h : createClusterTree S flog fuel n nc arg = some (t, st)) (i : ℕ) :
    (t.leaves.map (fun u => (u.label.offset, u.label.size))).countP (fun iv => decide (InIv i iv)) =
      if i < n then 1 else 0 := by
  have := ((C03_tree_is_hierarchical_partition hS hf hnc ha h).2.2.2).countP i
  simpa using this

/-- **C04.** Every cluster holds in the final permutation exactly the user indices it held when it was created
(`q` is the permutation array from which its center and radius were computed). -/
theorem C04_index_set_frozen {S : Strategies D G} (hS : S.OK) {flog} (hf : FlogOK flog)
    {fuel n nc : ℕ} (hnc : 2 ≤ nc) {arg : PartArg} (ha : arg.ok n) {t : Tree (CNode G)} {st : CState G}
    (h : createClusterTree S flog fuel n nc arg = some (t, st)) :
    ∀ s ∈ t.pre, ∃ q, s.label.geo = S.geo q s.label.offset s.label.size ∧
      (slice q s.label.offset s.label.size).Perm (slice st.perm s.label.offset s.label.size) :=
  (create_frozen hS hf hnc ha h).2

/-- **C04 (given partition).** With a user-given partition the final permutation maps each part onto itself, which is
what `is_permutation_local` promises. -/
theorem C04_given_partition_is_local {S : Strategies D G} (hS : S.OK) {flog} (hf : FlogOK flog)
    {fuel n nc : ℕ} (hnc : 2 ≤ nc) {partition : List (ℕ × ℕ)} (ha : Tiles 0 n partition)
    {t : Tree (CNode G)} {st : CState G}
    (h : createClusterTree S flog fuel n nc (.given partition) = some (t, st))
    {iv : ℕ × ℕ} (hiv : iv ∈ partition) :
    (slice st.perm iv.1 iv.2).Perm (List.range' iv.1 iv.2) := by
  obtain ⟨ts, rfl, hb⟩ := createGiven_inv h
  -- use the ghost geometry: the slice itself
  have key : ∀ (cs : List (CNode G)) (s0 : CState G) (ts : List (Tree (CNode G))) (s1 : CState G),
      buildList (build (givenEnv S nc) fuel) cs s0 = some (ts, s1) → ∀ a b, Tiles a b (cs.map CNode.iv) →
      b ≤ s0.perm.length → PermStep a b s0.perm s1.perm ∧
        ∀ c ∈ cs, (slice s1.perm c.offset c.size).Perm (slice s0.perm c.offset c.size) := by
    intro cs
    induction cs with
    | nil =>
      intro s0 ts s1 h a b _ _
      simp [buildList] at h; obtain ⟨rfl, rfl⟩ := h
      exact ⟨PermStep.refl _ _ _, by simp⟩
    | cons c cs ih =>
      intro s0 ts s1 h a b hT hb
      obtain ⟨ha, hT'⟩ : c.offset = a ∧ Tiles (a + c.size) b (cs.map CNode.iv) := hT
      simp only [buildList] at h
      cases h1 : buildList (build (givenEnv S nc) fuel) cs s0 with
      | none => simp [h1] at h
      | some r1 =>
        obtain ⟨ts1, st1⟩ := r1
        simp only [h1] at h
        cases h2 : build (givenEnv S nc) fuel c st1 with
        | none => simp [h2] at h
        | some r2 =>
          obtain ⟨t2, st2⟩ := r2
          simp only [h2, Option.some.injEq, Prod.mk.injEq] at h
          obtain ⟨rfl, rfl⟩ := h
          obtain ⟨p1, q1⟩ := ih _ _ _ h1 _ _ hT' hb
          have hle := hT'.le
          have hlen : c.offset + c.size ≤ st1.perm.length := by rw [p1.length]; omega
          have p2 := (build_frozen (givenEnv_ok hS hnc) h2 hlen).1
          refine ⟨(p1.right (by omega) hle).trans (by rw [← ha]; exact p2.left (by omega) (by omega)), ?_⟩
          intro d hd
          rcases List.mem_cons.1 hd with rfl | hd
          · have e : slice st1.perm d.offset d.size = slice s0.perm d.offset d.size :=
              slice_congr (fun i _ hi => p1.outside i (by omega))
            have := p2.inside
            rw [Nat.add_sub_cancel_left] at this
            rwa [e] at this
          · have hbd := hT'.mem_bounds (List.mem_map_of_mem (f := CNode.iv) hd)
            have hbd1 : a + c.size ≤ d.offset := hbd.1
            have e : slice st2.perm d.offset d.size = slice st1.perm d.offset d.size :=
              slice_congr (fun i hi _ => p2.outside i (by omega))
            rw [e]; exact q1 d hd
  have := (key _ _ _ _ hb 0 n (by rw [givenChildren_iv]; exact ha) (by simp [initState])).2
  rw [← givenChildren_iv S n partition] at hiv
  obtain ⟨c, hc, rfl⟩ := List.mem_map.1 hiv
  refine (this c hc).trans ?_
  have hbd := ha.mem_bounds (by rw [← givenChildren_iv S n partition]; exact List.mem_map_of_mem hc)
  have e : slice (List.range n) c.offset c.size = List.range' c.offset c.size := by
    apply List.ext_getElem?
    intro i
    rw [slice_getElem?]
    simp only [CNode.iv] at hbd
    split_ifs with hi
    · rw [List.getElem?_range (by omega), List.getElem?_range' hi]; simp
    · rw [List.getElem?_eq_none (by simpa using hi)]
  show (slice (List.range n) c.offset c.size).Perm (List.range' c.offset c.size)
  rw [e]

/-- The registered partition clusters are the nodes at the partition depth, from left to right. -/
theorem create_parts_auto {S : Strategies D G} (hS : S.OK) {flog} (hf : FlogOK flog)
    {fuel n nc sp : ℕ} (hnc : 2 ≤ nc) (hsp : 1 ≤ sp) {t : Tree (CNode G)} {st : CState G}
    (h : createClusterTree S flog fuel n nc (.auto sp) = some (t, st))
    (hranks : ∀ l ∈ t.leaves, 0 ≤ l.label.rank) :
    ∃ j, (simpleEnv S flog nc sp).dp = j + 1 ∧
      (∀ s ∈ t.leaves, t.label.depth + (j + 1) ≤ s.label.depth) ∧
      st.parts = (levelNodes (j + 1) t).map some ∧ (levelNodes (j + 1) t).length = sp ∧
      (∀ r (hr : r < (levelNodes (j + 1) t).length), (levelNodes (j + 1) t)[r].rank = r) ∧
      (∀ c ∈ (levelNodes (j + 1) t), ∃ s ∈ t.pre, s.label = c) ∧
      Tiles 0 n ((levelNodes (j + 1) t).map (fun c => (c.offset, c.size))) := by
  set E := simpleEnv S flog nc sp with hEdef
  have hE : E.OK := simpleEnv_ok hS hf hnc hsp
  have hsimple : E.simple = true := rfl
  have hb : build E fuel (rootNode E n) (initState n) = some (t, st) := h
  obtain ⟨hl, hN⟩ := build_nodes hE hb
  obtain ⟨-, hT, hD⟩ := build_shape hE hb
  have hd0 : t.label.depth = 0 := by rw [hl]; rfl
  have hc0 : t.label.counter = 0 := by rw [hl]; rfl
  have hv : E.valid t.label.depth t.label.counter := by
    rw [hd0, hc0]; intro _ _; simp
  have hrk := hN.ranks hsimple (Or.inl ⟨by rw [hd0]; exact hE.dp, by rw [hl]; rfl⟩)
  obtain ⟨j, hj⟩ : ∃ j, E.dp = j + 1 := ⟨E.dp - 1, by have := hE.dp; omega⟩
  have hfull : ∀ s ∈ t.leaves, t.label.depth + (j + 1) ≤ s.label.depth := by
    intro s hs
    have h1 := hranks s hs
    rcases hrk s ((Tree.mem_leaves_iff t s).1 hs).1 with ⟨-, h2⟩ | ⟨h2, -⟩
    · omega
    · omega
  -- number of clusters on the level
  have hhi : E.hi (j + 1) 0 0 = sp - 1 := by
    have := hi_root hE hsimple j 0 (by omega)
    simp only [pow_zero, Nat.sub_self] at this
    rw [this]
    by_cases hle : nc ≤ sp
    · have hdp : E.dp = flog nc sp := by show (if nc ≤ sp then _ else _) = _; rw [if_pos hle]
      have hcol : E.col = nc := by show (if nc ≤ sp then _ else _) = _; rw [if_pos hle]
      have hadd : E.add = sp - nc ^ (flog nc sp) := by
        show (if nc ≤ sp then _ else _) = _; rw [if_pos hle]
      have hnc' : E.nc = nc := rfl
      have hpow := (hf nc sp hnc hle).2
      rw [hcol, hadd, hnc', ← hdp]
      rw [← hdp] at hpow
      have : nc ^ (E.dp - 1) * nc = nc ^ E.dp := by
        rw [← pow_succ]; congr 1; omega
      rw [this]; omega
    · have hdp : E.dp = 1 := by show (if nc ≤ sp then _ else _) = _; rw [if_neg hle]
      have hcol : E.col = sp := by show (if nc ≤ sp then _ else _) = _; rw [if_neg hle]
      have hadd : E.add = 0 := by show (if nc ≤ sp then _ else _) = _; rw [if_neg hle]
      rw [hdp, hcol, hadd]; simp
  have hlevel := hN.level hE hv (j + 1) hfull
  rw [hd0, hc0, lo_root, hhi] at hlevel
  have hlevel : (levelNodes (j + 1) t).map CNode.counter = List.range sp := by
    rw [hlevel, List.range_eq_range']; congr 1; omega
  have hpart := hN.partBelow_eq hsimple j (by rw [hd0]; omega)
  have hlen : (levelNodes (j + 1) t).length = sp := by
    have := congrArg List.length hlevel; simpa using this
  -- ranks on the level
  have hrank : ∀ c ∈ levelNodes (j + 1) t, c.rank = (c.counter : ℤ) := by
    have : ∀ (j : ℕ) (t : Tree (CNode G)), NodesOK E t → t.label.depth + (j + 1) = E.dp →
        ∀ c ∈ levelNodes (j + 1) t, c.rank = (c.counter : ℤ) := by
      intro j
      induction j with
      | zero =>
        intro t hN hdp c hc
        simp only [levelNodes, List.mem_flatMap, List.mem_singleton] at hc
        obtain ⟨u, hu, rfl⟩ := hc
        obtain ⟨-, hch⟩ := hN _ (Tree.mem_pre_self _) (List.ne_nil_of_mem hu)
        obtain ⟨p, hp, hpu⟩ := List.getElem_of_mem hu
        obtain ⟨-, -, q, -⟩ := hch p u (List.getElem?_eq_some_iff.2 ⟨hp, hpu⟩)
        exact (q (lvl_true.2 ⟨hsimple, hdp⟩)).2
      | succ j ih =>
        intro t hN hdp c hc
        simp only [levelNodes] at hc
        rw [List.mem_flatMap] at hc
        obtain ⟨u, hu, hc⟩ := hc
        obtain ⟨-, hch⟩ := hN _ (Tree.mem_pre_self _) (List.ne_nil_of_mem hu)
        obtain ⟨p, hp, hpu⟩ := List.getElem_of_mem hu
        obtain ⟨-, q, -, -⟩ := hch p u (List.getElem?_eq_some_iff.2 ⟨hp, hpu⟩)
        exact ih u (hN.child hu) (by omega) c hc
    exact this j t hN (by omega)
  have hcount : ∀ r (hr : r < (levelNodes (j + 1) t).length), (levelNodes (j + 1) t)[r].counter = r := by
    intro r hr
    have h1 : ((levelNodes (j + 1) t).map CNode.counter)[r]? = (List.range sp)[r]? := by rw [hlevel]
    rw [List.getElem?_map, List.getElem?_eq_getElem hr, List.getElem?_range (by omega)] at h1
    simpa using h1
  obtain ⟨ds, hds, hparts⟩ := build_parts hb
  rw [hpart] at hds
  have hpw : ds.Pairwise (fun a b => a.rank.toNat ≠ b.rank.toNat) := by
    have : (levelNodes (j + 1) t).Pairwise (fun a b => a.rank.toNat ≠ b.rank.toNat) := by
      rw [List.pairwise_iff_getElem]
      intro i k hi hk hik
      rw [hrank _ (List.getElem_mem hi), hrank _ (List.getElem_mem hk), hcount, hcount]
      simp; omega
    exact (hds.pairwise_iff (by intro a b h; exact h.symm)).2 this
  have hplen : st.parts.length = sp := by
    rw [hparts]
    refine setParts_length ds _ sp (by simp [initState]) ?_ ?_
    · intro d hd
      have hd' := hds.mem_iff.1 hd
      obtain ⟨r, hr, rfl⟩ := List.getElem_of_mem hd'
      rw [hrank _ hd', hcount]; simp; omega
    · right
      refine ⟨(levelNodes (j + 1) t)[sp - 1]'(by omega), hds.mem_iff.2 (List.getElem_mem _), ?_⟩
      rw [hrank _ (List.getElem_mem _), hcount]; simp; omega
  refine ⟨j, hj, hfull, ?_, hlen, ?_, ?_, ?_⟩
  · apply List.ext_getElem
    · simp [hplen, hlen]
    · intro r h1 h2
      have hr : r < (levelNodes (j + 1) t).length := by omega
      have hmem := List.getElem_mem hr
      have := setParts_get ds (initState n : CState G).parts _ (hds.mem_iff.2 hmem) hpw
      rw [← hparts, hrank _ hmem, hcount, Int.toNat_natCast, List.getElem?_eq_getElem h1] at this
      simpa using this
  · intro r hr; rw [hrank _ (List.getElem_mem _), hcount]
  · intro c hc; exact mem_levelNodes hc
  · have := hT.level hD (j + 1) hfull
    rw [hl] at this
    rw [show (rootNode E n).offset = 0 from rfl, show (rootNode E n).size = n from rfl,
      Nat.zero_add] at this
    exact this

/-- **C05.** If no branch stops above the partition level (every leaf has a rank, otherwise the code logs an error),
there are exactly `size_of_partition` partition clusters, the `r`-th one has rank `r`, is a node of the tree,
and in rank order they tile `[0,n)`. -/
theorem C05_partition_clusters {S : Strategies D G} (hS : S.OK) {flog} (hf : FlogOK flog)
    {fuel n nc sp : ℕ} (hnc : 2 ≤ nc) (hsp : 1 ≤ sp) {t : Tree (CNode G)} {st : CState G}
    (h : createClusterTree S flog fuel n nc (.auto sp) = some (t, st))
    (hranks : ∀ l ∈ t.leaves, 0 ≤ l.label.rank) :
    ∃ parts : List (CNode G), st.parts = parts.map some ∧ parts.length = sp ∧
      (∀ r (hr : r < parts.length), parts[r].rank = r) ∧
      (∀ c ∈ parts, ∃ s ∈ t.pre, s.label = c) ∧
      Tiles 0 n (parts.map (fun c => (c.offset, c.size))) := by
  obtain ⟨j, -, -, h1, h2, h3, h4, h5⟩ := create_parts_auto hS hf hnc hsp h hranks
  exact ⟨levelNodes (j + 1) t, h1, h2, h3, h4, h5⟩

/-- **C05 (given partition).** The partition clusters are the given parts, in order. -/
theorem C05_given_partition_clusters {S : Strategies D G} (hS : S.OK) {flog} {fuel n nc : ℕ}
    (hnc : 2 ≤ nc) {partition : List (ℕ × ℕ)} {t : Tree (CNode G)} {st : CState G}
    (h : createClusterTree S flog fuel n nc (.given partition) = some (t, st)) :
    ∃ parts : List (CNode G), st.parts = parts.map some ∧ parts = t.children.map Tree.label ∧
      (∀ r (hr : r < parts.length), parts[r].rank = r) ∧
      parts.map (fun c => (c.offset, c.size)) = partition := by
  obtain ⟨ts, rfl, hb⟩ := createGiven_inv h
  set cs := givenChildren S n partition
  have hE := givenEnv_ok hS hnc
  have hsh := (buildList_shape hE hb).1
  -- deeper nodes are never on the partition
  have hst : st.parts = (register (initState n : CState G) cs).parts := by
    have key : ∀ (cs : List (CNode G)) (s0 : CState G) (ts : List (Tree (CNode G))) (s1 : CState G),
        buildList (build (givenEnv S nc) fuel) cs s0 = some (ts, s1) → s1.parts = s0.parts := by
      intro cs s0 ts s1 h
      refine buildList_rec (P := fun _ s _ s' => s'.parts = s.parts)
        (PL := fun _ s _ s' => s'.parts = s.parts) ?_ (fun _ => rfl) ?_ cs s0 ts s1 h
      · intro c s t s' hbb
        obtain ⟨ds, h1, h2⟩ := build_parts hbb
        have hN := (build_nodes hE hbb).2
        have hin := hN.rank_inherit (Or.inl rfl)
        have : partBelow t = [] := by
          unfold partBelow
          rw [List.filter_eq_nil_iff]
          intro c hc
          obtain ⟨s, hsm, rfl⟩ := List.mem_map.1 hc
          obtain ⟨v, hv, hsv⟩ := Tree.mem_preL.1 hsm
          obtain ⟨-, hch⟩ := hN _ (Tree.mem_pre_self _) (List.ne_nil_of_mem hv)
          obtain ⟨p, hp, hpv⟩ := List.getElem_of_mem hv
          obtain ⟨-, -, -, q⟩ := hch p v (List.getElem?_eq_some_iff.2 ⟨hp, hpv⟩)
          have hlv : (givenEnv S nc).lvl t.label.depth = false := by simp [CEnv.lvl, givenEnv]
          rcases ((hN.child hv).rank_inherit (Or.inl rfl) s hsv).2 with rfl | h0
          · simp [(q hlv).1]
          · simp [h0]
        rw [this] at h1
        rw [List.perm_nil.1 h1] at h2
        exact h2
      · intro c cs s t ts s1 s2 h1 h2
        exact h2.trans h1
    exact key _ _ _ _ hb
  have hreg : (register (initState n : CState G) cs).parts = setParts [] cs := by
    rw [register_parts_eq]
    have : cs.filter (fun c => c.onPart) = cs := by
      rw [List.filter_eq_self]
      intro c hc
      obtain ⟨p, hp, rfl⟩ := List.getElem_of_mem hc
      exact (givenChildren_get hp).2.2.2.1
    rw [this]; rfl
  refine ⟨cs, ?_, ?_, ?_, ?_⟩
  · rw [hst, hreg]
    have hpw : cs.Pairwise (fun a b => a.rank.toNat ≠ b.rank.toNat) := by
      rw [List.pairwise_iff_getElem]
      intro i k hi hk hik
      rw [(givenChildren_get hi).2.1, (givenChildren_get hk).2.1]
      simp; omega
    have hlen : (setParts [] cs).length = cs.length := by
      refine setParts_length cs [] cs.length (by simp) ?_ ?_
      · intro d hd
        obtain ⟨p, hp, rfl⟩ := List.getElem_of_mem hd
        rw [(givenChildren_get hp).2.1]; simp; exact hp
      · by_cases h0 : cs.length = 0
        · left; simp [h0]
        · right
          refine ⟨cs[cs.length - 1]'(by omega), List.getElem_mem _, ?_⟩
          rw [(givenChildren_get (S := S) (n := n) (partition := partition)
            (show cs.length - 1 < (givenChildren S n partition).length by
              have : cs.length = (givenChildren S n partition).length := rfl
              omega)).2.1]
          simp; omega
    apply List.ext_getElem
    · simp [hlen]
    · intro r h1 h2
      have hr : r < cs.length := by omega
      have := setParts_get cs [] cs[r] (List.getElem_mem hr) hpw
      rw [(givenChildren_get hr).2.1, Int.toNat_natCast, List.getElem?_eq_getElem h1] at this
      simpa using this
  · exact hsh.symm
  · intro r hr; exact (givenChildren_get hr).2.1
  · exact givenChildren_iv S n partition

/-- **C06.** `create_cluster_tree` terminates: an explicit number of nested splits always suffices. -/
theorem C06_build_terminates {S : Strategies D G} (hS : S.OK) {flog} (hf : FlogOK flog)
    (n nc : ℕ) (hnc : 2 ≤ nc) (arg : PartArg) (ha : arg.ok n) :
    ∃ fuel t st, createClusterTree S flog fuel n nc arg = some (t, st) := by
  cases arg with
  | auto sp =>
    refine ⟨(simpleEnv S flog nc sp).dp + n + 1, ?_⟩
    obtain ⟨⟨t, st⟩, h⟩ := build_some (simpleEnv_ok hS hf hnc ha) hnc
      ((simpleEnv S flog nc sp).dp + n + 1) (rootNode (simpleEnv S flog nc sp) n) (initState n)
      (by simp [rootNode])
    exact ⟨t, st, h⟩
  | given partition =>
    refine ⟨n + 2, ?_⟩
    have hT : Tiles 0 n partition := ha
    obtain ⟨⟨ts, st⟩, h⟩ := buildList_some (g := build (givenEnv S nc) (n + 2))
      (givenChildren S n partition) (by
        intro c hc st
        apply build_some (givenEnv_ok hS hnc) hnc
        have := hT.mem_bounds (by
          rw [← givenChildren_iv S n partition]; exact List.mem_map_of_mem hc)
        have h1 : c.offset + c.size ≤ n := this.2
        have h2 : (givenEnv S nc).dp = 1 := rfl
        omega) (register (initState n) (givenChildren S n partition))
    exact ⟨_, st, by simp only [createClusterTree, createGiven]; rw [h]⟩

/-- **C07.** If every leaf has a rank, the recorded maximal (minimal) depth is the depth of some leaf and bounds the depth
of every leaf. (The depth must be representable as an `unsigned int`.) -/
theorem C07_recorded_depths {S : Strategies D G} {flog} {fuel n nc : ℕ} {arg : PartArg}
    {t : Tree (CNode G)} {st : CState G}
    (h : createClusterTree S flog fuel n nc arg = some (t, st))
    (hranks : ∀ l ∈ t.leaves, 0 ≤ l.label.rank) (hrep : ∀ l ∈ t.leaves, l.label.depth ≤ uintMax) :
    ((∃ l ∈ t.leaves, l.label.depth = st.maxDepth) ∧ ∀ l ∈ t.leaves, l.label.depth ≤ st.maxDepth) ∧
    ((∃ l ∈ t.leaves, l.label.depth = st.minDepth) ∧ ∀ l ∈ t.leaves, st.minDepth ≤ l.label.depth) := by
  have key : DepthStep (initState n : CState G) st t.leaves := by
    cases arg with
    | auto sp => exact build_depth h
    | given partition =>
      obtain ⟨ts, rfl, hb⟩ := createGiven_inv h
      have hne : ts ≠ [] := by
        rintro rfl
        have := hranks _ (by rw [Tree.leaves]; exact List.mem_singleton.2 rfl)
        simp [rootNode] at this
      have := buildList_depth hb
      rw [Tree.leaves_node_ne hne]
      simpa [DepthStep] using this
  obtain ⟨⟨a1, a2, a3⟩, b1, b2, b3⟩ := key
  obtain ⟨l0, hl0⟩ := List.exists_mem_of_ne_nil _ (Tree.leaves_ne_nil t)
  have e1 : (initState n : CState G).maxDepth = 0 := rfl
  have e2 : (initState n : CState G).minDepth = uintMax := rfl
  refine ⟨⟨?_, fun l hl => a2 l hl (hranks l hl)⟩, ?_, fun l hl => b2 l hl (hranks l hl)⟩
  · rcases a3 with a3 | ⟨l, hl, -, h⟩
    · have := a2 l0 hl0 (hranks l0 hl0)
      exact ⟨l0, hl0, by omega⟩
    · exact ⟨l, hl, h⟩
  · rcases b3 with b3 | ⟨l, hl, -, h⟩
    · have := b2 l0 hl0 (hranks l0 hl0)
      have := hrep l0 hl0
      exact ⟨l0, hl0, by omega⟩
    · exact ⟨l, hl, h⟩

theorem createGiven_nodes' {S : Strategies D G} (hS : S.OK) {fuel n nc : ℕ} (hnc : 2 ≤ nc) {partition : List (ℕ × ℕ)}
    {s0 : CState G} {ts : List (Tree (CNode G))} {st : CState G}
    (hb : buildList (build (givenEnv S nc) fuel) (givenChildren S n partition) s0 = some (ts, st)) :
    ts.map Tree.label = givenChildren S n partition ∧ ∀ u ∈ ts, NodesOK (givenEnv S nc) u := by
  have hE := givenEnv_ok hS hnc
  refine buildList_rec (P := fun c _ t _ => t.label = c ∧ NodesOK (givenEnv S nc) t)
    (PL := fun cs _ ts _ => ts.map Tree.label = cs ∧ ∀ u ∈ ts, NodesOK (givenEnv S nc) u)
    (fun c s t s' hbb => build_nodes hE hbb) (fun _ => by simp) ?_ _ _ _ _ hb
  rintro c cs st t ts st1 st2 ⟨h1, h2⟩ ⟨h3, h4⟩
  refine ⟨by simp [h1, h3], ?_⟩
  intro u hu
  rcases List.mem_cons.1 hu with rfl | hu
  · exact h4
  · exact h2 u hu

theorem createGiven_nodes {S : Strategies D G} (hS : S.OK) {fuel n nc : ℕ} (hnc : 2 ≤ nc) {partition : List (ℕ × ℕ)}
    {s0 : CState G} {ts : List (Tree (CNode G))} {st : CState G}
    (hb : buildList (build (givenEnv S nc) fuel) (givenChildren S n partition) s0 = some (ts, st)) :
    ∀ u ∈ ts, NodesOK (givenEnv S nc) u := (createGiven_nodes' hS hnc hb).2

theorem createGiven_distinct {S : Strategies D G} (hS : S.OK) {flog} {fuel n nc : ℕ} (hnc : 2 ≤ nc)
    {partition : List (ℕ × ℕ)} {t : Tree (CNode G)} {st : CState G}
    (h : createClusterTree S flog fuel n nc (.given partition) = some (t, st)) :
    t.pre.Pairwise (fun s s' => ¬ s.label.sameSpot s'.label) := by
  have hE := givenEnv_ok hS hnc
  obtain ⟨ts, rfl, hb⟩ := createGiven_inv h
  have hN := createGiven_nodes' hS hnc hb
  have hvalid : ∀ e x, (givenEnv S nc).valid e x := fun e x hs => absurd hs (by simp [givenEnv])
  have hd : ∀ u ∈ ts, u.label.depth = 1 := by
    intro u hu
    have hu' : u.label ∈ givenChildren S n partition := by
      rw [← hN.1]; exact List.mem_map_of_mem hu
    obtain ⟨p, hp, hpu⟩ := List.getElem_of_mem hu'
    rw [← hpu, (givenChildren_get hp).1]
  rw [Tree.pre, List.pairwise_cons]
  constructor
  · intro s hs ⟨h1, _⟩
    obtain ⟨u, hu, hs'⟩ := Tree.mem_preL.1 hs
    obtain ⟨j, h2, -, -⟩ := NodesOK.bounds hE (hN.2 u hu) (hvalid _ _) s hs'
    rw [hd u hu] at h2
    simp [rootNode] at h1; omega
  · refine distinct_siblings hE 1 ts ?_ ?_
    · intro u hu
      exact ⟨hd u hu, hvalid _ _, hN.2 u hu, (hN.2 u hu).distinct hE (hvalid _ _)⟩
    · have : (ts.map Tree.label).Pairwise (fun a b => a.counter < b.counter) := by
        rw [hN.1, List.pairwise_iff_getElem]
        intro i j hi hj hij
        rw [(givenChildren_get hi).2.2.1, (givenChildren_get hj).2.2.1]; exact hij
      rwa [List.pairwise_map] at this

/-- `Cluster::operator==` (cluster_node.hpp 81) inside one tree (same `m_tree_data`). -/
def CNode.clusterEq (a b : CNode G) : Prop :=
  a.offset = b.offset ∧ a.size = b.size ∧ a.depth = b.depth ∧ a.counter = b.counter

/-- **C09.** Within one tree, `operator==` holds only between a node and itself: equal clusters have the same address. -/
theorem C09_equality_identifies_node {S : Strategies D G} (hS : S.OK) {flog} (hf : FlogOK flog)
    {fuel n nc : ℕ} (hnc : 2 ≤ nc) {arg : PartArg} (ha : arg.ok n) {t : Tree (CNode G)} {st : CState G}
    (h : createClusterTree S flog fuel n nc arg = some (t, st))
    {p q : List ℕ} {s s' : Tree (CNode G)} (hp : t.at? p = some s) (hq : t.at? q = some s')
    (he : s.label.clusterEq s'.label) : p = q := by
  refine at_inj ?_ hp hq ⟨he.2.2.1, he.2.2.2⟩
  cases arg with
  | auto sp =>
    have hE := simpleEnv_ok hS hf hnc ha
    obtain ⟨hl, hN⟩ := build_nodes hE h
    refine hN.distinct hE ?_
    rw [hl]; intro _ _; simp [rootNode]
  | given partition => exact createGiven_distinct hS hnc h

/-! ### Non-vacuity -/

/-- Concrete strategies: reverse the slice (a legal unstable `std::sort` when all keys are equal), regular splitting,
geometry = the indices held at creation. -/
def exStrategies : Strategies Unit (List ℕ) where
  dir := fun _ _ => ()
  sort := fun _ l => l.reverse
  split := fun _ _ off size k => regularSplitting off size k 1
  geo := slice

theorem exStrategies_ok : exStrategies.OK :=
  strategies_ok_of_regular _ 1 (fun _ l => List.reverse_perm l) rfl

/-- A concrete build with 5 parts and 2 children (5 is not a power of 2), 23 points. -/
example : ((createClusterTree exStrategies Nat.log 26 23 2 (.auto 5)).map
    (fun r => (r.2.parts.map (fun o => o.map (fun c => (c.rank, c.offset, c.size))), r.2.perm.length,
      r.2.maxDepth, r.2.minDepth))) =
    some ([some (0, 0, 5), some (1, 5, 6), some (2, 11, 4), some (3, 15, 4), some (4, 19, 4)], 23, 3, 3) := by
  decide +kernel

/-- A concrete build with a given partition into 3 uneven parts. -/
example : ((createClusterTree exStrategies Nat.log 20 10 2 (.given [(0, 3), (3, 0), (3, 7)])).map
    (fun r => (r.2.parts.map (fun o => o.map (fun c => (c.rank, c.offset, c.size))), r.2.perm))) =
    some ([some (0, 0, 3), some (1, 3, 0), some (2, 3, 7)], [2, 1, 0, 7, 8, 9, 4, 3, 6, 5]) := by
  decide +kernel

end Htool
