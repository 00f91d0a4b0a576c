import Verif.ClusterText
import Verif.Props.HOutput
import Verif.Props.ClusterIO
import Verif.Props.BlockTree

/-! # C68: the clustered geometry file and the printed cluster tree -/

namespace Htool
open ClusterIO
variable {D G K : Type*}

/-- The rows of a comma-separated file. -/
def readRows (s : Str) : List (List Str) := (getLines s).map (splitStr ',')

/-- Position `i` (in the numbering of the tree) belongs to the cluster. -/
def Holds1 (c : CTree G) (i : ℕ) : Prop := c.label.offset ≤ i ∧ i < c.label.offset + c.label.size

instance (c : CTree G) (i : ℕ) : Decidable (Holds1 c i) := by unfold Holds1; infer_instance

/-- The clusters of depth `d` below `r` which end before position `i`. -/
def before (r : CTree G) (d i : ℕ) : List (CTree G) :=
  r.pre.filter fun c => decide (c.label.depth = d) && decide (c.label.offset + c.label.size ≤ i)

/-! ## The text of the file -/

theorem commas_free {xs : List Str} {d : Char} (hd : d ≠ ',') (h : ∀ x ∈ xs, d ∉ x) : d ∉ commas xs := by
  rw [commas_eq]
  intro hc
  rcases mem_sepBy hc with hc | ⟨x, hx, hc⟩
  · exact hd hc
  · exact h x hx hc

theorem split_row {a : Str} {xs : List Str} (ha : ',' ∉ a) (hne : xs ≠ []) (h : ∀ x ∈ xs, ',' ∉ x) :
    splitStr ',' (a ++ [','] ++ commas xs) = a :: xs := by
  rw [List.append_assoc, List.singleton_append, splitStr_append ha, commas_eq, splitStr_sepBy hne h]

theorem nat_free (n : ℕ) (c : Char) (h : ¬ (48 ≤ c.toNat ∧ c.toNat ≤ 57)) : c ∉ natStr n := fun hc => h (natStr_digit hc)

/-- The rows of the file. -/
theorem geomFile_rows (fmt : K → Str) (hfmt : ∀ v, ',' ∉ fmt v ∧ '\n' ∉ fmt v) {perm : List ℕ} (hperm : perm ≠ []) (dim : ℕ) (x : ℕ → K)
    (t : CTree G) (depths : List ℕ) :
    readRows (geomFile fmt perm dim x t depths) =
      ((List.range dim).map fun d => ("x_".toList ++ natStr d) :: perm.map fun i => fmt (x (dim * i + d))) ++
      (List.range depths.length).map fun p => natStr (depths.getD p 0) :: (List.range perm.length).map fun i => natStr (geomLabels t depths p i) := by
  set rows : List (Str × List Str) :=
    ((List.range dim).map fun d => ("x_".toList ++ natStr d, perm.map fun i => fmt (x (dim * i + d)))) ++
    (List.range depths.length).map fun p => (natStr (depths.getD p 0), (List.range perm.length).map fun i => natStr (geomLabels t depths p i)) with hrows
  have e : geomFile fmt perm dim x t depths = ((rows.map fun r => r.1 ++ [','] ++ commas r.2).map fun l => l ++ ['\n']).flatten := by
    rw [hrows]
    unfold geomFile
    simp only [List.map_append, List.map_map, List.flatten_append]
    rfl
  have free : ∀ r ∈ rows, (',' ∉ r.1 ∧ '\n' ∉ r.1) ∧ r.2 ≠ [] ∧ ∀ y ∈ r.2, ',' ∉ y ∧ '\n' ∉ y := by
    intro r hr
    rw [hrows, List.mem_append] at hr
    rcases hr with hr | hr
    · obtain ⟨d, -, rfl⟩ := List.mem_map.1 hr
      refine ⟨⟨?_, ?_⟩, by simpa using hperm, ?_⟩
      · rw [List.mem_append]; exact fun h => h.elim (by decide) (nat_free _ _ (by decide))
      · rw [List.mem_append]; exact fun h => h.elim (by decide) (nat_free _ _ (by decide))
      · intro y hy
        obtain ⟨i, -, rfl⟩ := List.mem_map.1 hy
        exact hfmt _
    · obtain ⟨p, -, rfl⟩ := List.mem_map.1 hr
      refine ⟨⟨nat_free _ _ (by decide), nat_free _ _ (by decide)⟩, by simpa using hperm, ?_⟩
      intro y hy
      obtain ⟨i, -, rfl⟩ := List.mem_map.1 hy
      exact ⟨nat_free _ _ (by decide), nat_free _ _ (by decide)⟩
  unfold readRows
  rw [e, getLines_lines, List.map_map]
  · have : rows.map (splitStr ',' ∘ fun r => r.1 ++ [','] ++ commas r.2) = rows.map fun r => r.1 :: r.2 := by
      refine List.map_congr_left fun r hr => ?_
      obtain ⟨h1, h2, h3⟩ := free r hr
      exact split_row h1.1 h2 fun y hy => (h3 y hy).1
    rw [this, hrows]
    simp only [List.map_append, List.map_map]
    rfl
  · intro l hl
    obtain ⟨r, hr, rfl⟩ := List.mem_map.1 hl
    obtain ⟨h1, h2, h3⟩ := free r hr
    rw [List.mem_append, List.mem_append]
    rintro ((h | h) | h)
    · exact h1.2 h
    · exact absurd h (by decide)
    · exact commas_free (by decide) (fun y hy => (h3 y hy).2) h

/-! ## The labels -/

/-- Labels of one row. -/
theorem geomLabels_spec {t : CTree G} (h : HierTiles t) (hd : DepthOK t) {depths : List ℕ} (hn : depths.Nodup) {p : ℕ} (hp : p < depths.length) (i : ℕ) :
    ((∃ c ∈ t.pre, c.label.depth = depths[p] ∧ Holds1 c i) → geomLabels t depths p i = (before t depths[p] i).length) ∧
    ((∀ c ∈ t.pre, c.label.depth = depths[p] → ¬ Holds1 c i) → geomLabels t depths p i = 0) := by
  have e := (geom_fold hp t.preorderTraversal ⟨fun _ _ => 0, fun _ => 0⟩).2 i
  simp only [findDepth_iff hn hp] at e
  rw [Tree.preorderTraversal_eq] at e
  unfold geomLabels
  rw [Tree.preorderTraversal_eq, e]
  constructor
  · rintro ⟨c, hc, hcd, hci⟩
    rw [label_fold_in (s := c) i _ _ ?_ (List.mem_filter.2 ⟨hc, by simpa using hcd⟩) hci]
    · rw [List.filter_filter, Nat.zero_add]
      unfold before
      congr 2
      funext a
      exact Bool.and_comm _ _
    · refine List.Pairwise.imp_of_mem ?_ ((pre_pairwise h hd).sublist List.filter_sublist)
      intro a b ha hb hab
      have ha := (List.mem_filter.1 ha).2
      have hb := (List.mem_filter.1 hb).2
      simp only [decide_eq_true_eq] at ha hb
      exact hab (ha.trans hb.symm)
  · intro hno
    rw [label_fold_out i _ _ ?_]
    intro s hs
    obtain ⟨h1, h2⟩ := List.mem_filter.1 hs
    exact hno s h1 (by simpa using h2)

/-- Two clusters of the same depth are equal or one lies before the other. -/
theorem same_depth {t : CTree G} (h : HierTiles t) (hd : DepthOK t) {a b : CTree G} (ha : a ∈ t.pre) (hb : b ∈ t.pre)
    (e : a.label.depth = b.label.depth) (hne : a ≠ b) :
    a.label.offset + a.label.size ≤ b.label.offset ∨ b.label.offset + b.label.size ≤ a.label.offset := by
  have hp : t.pre.Pairwise (fun a b => a.label.depth = b.label.depth →
      a.label.offset + a.label.size ≤ b.label.offset ∨ b.label.offset + b.label.size ≤ a.label.offset) :=
    (pre_pairwise h hd).imp fun h e => Or.inl (h e)
  have : Std.Symm (fun a b : CTree G => a.label.depth = b.label.depth →
      a.label.offset + a.label.size ≤ b.label.offset ∨ b.label.offset + b.label.size ≤ a.label.offset) := ⟨fun a b h e => (h e.symm).symm⟩
  exact hp.forall ha hb hne e

/-- **C68.** The file written by `save_clustered_geometry` for a cluster `r` (the root or any other cluster) of a tree that was built on `n > 0` points. First the
coordinates, one row per dimension, of all points in the order of the tree. Then for every requested depth, listed once, a row with one number per point in the same
order: for a point in a cluster of that depth below `r`, the number of clusters of that depth before its own, and `0` for the other points. -/
theorem C68_file {S : Strategies D G} (hS : S.OK) {flog} (hf : FlogOK flog)
    {fuel n nc : ℕ} (hnc : 2 ≤ nc) {arg : PartArg} (ha : arg.ok n) {t : CTree G} {st : CState G}
    (h : createClusterTree S flog fuel n nc arg = some (t, st)) (hpos : 0 < n)
    (fmt : K → Str) (hfmt : ∀ v, ',' ∉ fmt v ∧ '\n' ∉ fmt v) (dim : ℕ) (x : ℕ → K) {r : CTree G} (hr : r ∈ t.pre) {depths : List ℕ} (hn : depths.Nodup) :
    ∃ lab : ℕ → ℕ → ℕ,
      readRows (geomFile fmt st.perm dim x r depths) =
        ((List.range dim).map fun d => ("x_".toList ++ natStr d) :: st.perm.map fun i => fmt (x (dim * i + d))) ++
        (List.range depths.length).map (fun p => natStr (depths.getD p 0) :: (List.range n).map fun i => natStr (lab p i)) ∧
      ∀ p (hp : p < depths.length) i,
        ((∃ c ∈ r.pre, c.label.depth = depths[p] ∧ Holds1 c i) → lab p i = (before r depths[p] i).length) ∧
        ((∀ c ∈ r.pre, c.label.depth = depths[p] → ¬ Holds1 c i) → lab p i = 0) := by
  obtain ⟨-, -, -, hT, hD⟩ := create_shape hS hf hnc ha h
  have hlen := (C02_permutation_is_bijection hS hf hnc ha h).1
  refine ⟨geomLabels r depths, ?_, fun p hp i => geomLabels_spec (hT.sub hr) (hD.sub hr) hn hp i⟩
  rw [geomFile_rows fmt hfmt (by rintro e; rw [e] at hlen; simp at hlen; omega), hlen]

/-- **C68.** In the row of a depth, two points which belong to clusters of this depth carry the same number exactly when they belong to the same cluster. The full
statement (`C68_statement`) is about all points. -/
theorem C68_same_number_partial {S : Strategies D G} (hS : S.OK) {flog} (hf : FlogOK flog)
    {fuel n nc : ℕ} (hnc : 2 ≤ nc) {arg : PartArg} (ha : arg.ok n) {t : CTree G} {st : CState G}
    (h : createClusterTree S flog fuel n nc arg = some (t, st)) {r : CTree G} (hr : r ∈ t.pre) {depths : List ℕ} (hn : depths.Nodup)
    {p : ℕ} (hp : p < depths.length) {i j : ℕ} {a b : CTree G} (har : a ∈ r.pre) (hbr : b ∈ r.pre) (had : a.label.depth = depths[p])
    (hbd : b.label.depth = depths[p]) (hi : Holds1 a i) (hj : Holds1 b j) :
    geomLabels r depths p i = geomLabels r depths p j ↔ a = b := by
  obtain ⟨-, -, -, hT, hD⟩ := create_shape hS hf hnc ha h
  rw [(geomLabels_spec (hT.sub hr) (hD.sub hr) hn hp i).1 ⟨a, har, had, hi⟩, (geomLabels_spec (hT.sub hr) (hD.sub hr) hn hp j).1 ⟨b, hbr, hbd, hj⟩]
  have key : ∀ {i j : ℕ} {a b : CTree G}, a ∈ r.pre → b ∈ r.pre → a.label.depth = depths[p] → b.label.depth = depths[p] → Holds1 a i → Holds1 b j →
      a.label.offset + a.label.size ≤ b.label.offset → (before r depths[p] i).length ≠ (before r depths[p] j).length := by
    intro i j a b har hbr had hbd hi hj hab he
    have sub : (before r depths[p] i).Sublist (before r depths[p] j) := by
      unfold before
      refine List.monotone_filter_right _ fun c hc => ?_
      simp only [Bool.and_eq_true, decide_eq_true_eq] at hc ⊢
      have := hi.2; have := hj.1
      exact ⟨hc.1, by omega⟩
    have := sub.eq_of_length he
    have hmem : a ∈ before r depths[p] j := List.mem_filter.2 ⟨har, by have := hj.1; simp [had]; omega⟩
    rw [← this] at hmem
    have h1 := (List.mem_filter.1 hmem).2
    simp only [Bool.and_eq_true, decide_eq_true_eq] at h1
    have := hi.2
    omega
  constructor
  · intro he
    by_contra hne
    rcases same_depth (hT.sub hr) (hD.sub hr) har hbr (had.trans hbd.symm) hne with h1 | h1
    · exact key har hbr had hbd hi hj h1 he
    · exact key hbr har hbd had hj hi h1 he.symm
  · rintro rfl
    unfold before
    congr 1
    refine List.filter_congr fun c hc => ?_
    by_cases hcd : c.label.depth = depths[p]
    · by_cases hca : c = a
      · subst hca
        have := hi.2; have := hj.2
        simp only [hcd, decide_true, Bool.true_and, decide_eq_decide]
        omega
      · have := hi.1; have := hi.2; have := hj.1; have := hj.2
        simp only [hcd, decide_true, Bool.true_and, decide_eq_decide]
        rcases same_depth (hT.sub hr) (hD.sub hr) hc har (hcd.trans had.symm) hca with h1 | h1 <;> omega
    · simp [hcd]

/-- **C68.** A depth which is requested a second time gets a row of zeros. -/
theorem C68_repeated_depth_zero (t : CTree G) (d i : ℕ) : geomLabels t [d, d] 1 i = 0 := by
  have e := (geom_fold (depths := [d, d]) (p := 1) (by simp) t.preorderTraversal ⟨fun _ _ => 0, fun _ => 0⟩).2 i
  have : ∀ x, ¬ findDepth [d, d] x = 1 := by
    intro x
    unfold findDepth
    by_cases h : d = x <;> simp [List.findIdx_cons, h]
  unfold geomLabels
  rw [e]
  simp [this]

/-- **C68 (print).** `print` writes one line per cluster, in preorder, with the user indices of the points of the cluster, each followed by a comma, between `[`
and the characters `\b]`. -/
theorem C68_print (perm : List ℕ) (t : CTree G) :
    getLines (printClusters perm t) = t.pre.map fun c =>
      '[' :: ((slice perm c.label.offset c.label.size).map fun i => natStr i ++ [',']).flatten ++ ['\x08', ']'] := by
  have e : printClusters perm t = ((t.pre.map fun c =>
      '[' :: ((slice perm c.label.offset c.label.size).map fun i => natStr i ++ [',']).flatten ++ ['\x08', ']']).map fun l => l ++ ['\n']).flatten := by
    unfold printClusters
    rw [Tree.preorderTraversal_eq, List.map_map]
    congr 1
    refine List.map_congr_left fun c _ => ?_
    simp
  rw [e, getLines_lines]
  intro l hl
  obtain ⟨c, -, rfl⟩ := List.mem_map.1 hl
  simp only [List.cons_append, List.mem_cons, List.mem_append, List.mem_flatten, List.mem_map, not_or]
  refine ⟨by decide, ?_, by decide⟩
  rintro ⟨y, ⟨i, -, rfl⟩, hy⟩
  rw [List.mem_append] at hy
  exact hy.elim (nat_free _ _ (by decide)) (by decide)

/-! ## Failure of the full statement -/

/-- The clusters of depth `d` of the two points agree. -/
def SameCluster (t : CTree G) (d i j : ℕ) : Prop := ∀ c ∈ t.pre, c.label.depth = d → (Holds1 c i ↔ Holds1 c j)

/-- Full statement: two points carry the same number in the row of a depth exactly when they belong to the same clusters of this depth. -/
def C68_statement : Prop :=
  ∀ (S : Strategies Unit Unit), S.OK → ∀ (fuel n nc : ℕ) (arg : PartArg) (t : CTree Unit) (st : CState Unit), 2 ≤ nc → arg.ok n →
    createClusterTree S Nat.log fuel n nc arg = some (t, st) → ∀ (d i j : ℕ), i < n → j < n →
    (geomLabels t [d] 0 i = geomLabels t [d] 0 j ↔ SameCluster t d i j)

/-- Regular splitting of clusters with at least four points, in the given order. -/
def exGeomS : Strategies Unit Unit :=
  { dir := fun _ _ => (), sort := fun _ l => l, split := fun _ _ off size k => regularSplitting off size k 1, geo := fun _ _ _ => () }

theorem exGeomS_ok : exGeomS.OK := strategies_ok_of_regular _ 1 (fun _ l => List.Perm.refl l) rfl

/-- The tree of seven points: the first part is not split. -/
def exGeomT : CTree Unit :=
  .node ⟨0, 7, 0, -1, 0, false, ()⟩ [.node ⟨0, 3, 1, 0, 0, true, ()⟩ [],
    .node ⟨3, 4, 1, 1, 1, true, ()⟩ [.node ⟨3, 2, 2, 1, 2, false, ()⟩ [], .node ⟨5, 2, 2, 1, 3, false, ()⟩ []]]

theorem exGeom_built : ∃ st, createClusterTree exGeomS Nat.log 5 7 2 (.given [(0, 3), (3, 4)]) = some (exGeomT, st) := ⟨_, by with_unfolding_all rfl⟩

/-- **C68 (negation).** Points of a leaf above the requested depth carry the number 0, like the points of the first cluster of that depth: seven points, the first
three in a leaf of depth 1; in the row of depth 2 the first point has the number of the fourth one. -/
theorem C68_statement_false : ¬ C68_statement := by
  intro h
  obtain ⟨st, hst⟩ := exGeom_built
  have h1 := h exGeomS exGeomS_ok 5 7 2 _ exGeomT st (by omega) (by simp [PartArg.ok, Tiles]) hst 2 0 3 (by omega) (by omega)
  have h2 : geomLabels exGeomT [2] 0 0 = geomLabels exGeomT [2] 0 3 := by
    unfold geomLabels
    rw [Tree.preorderTraversal_eq]
    decide +kernel
  have h3 := h1.1 h2 (.node ⟨3, 2, 2, 1, 2, false, ()⟩ []) (by simp [exGeomT, Tree.pre, Tree.preL]) rfl
  have h4 := h3.2 (by decide)
  exact absurd h4 (by decide)

/-- The hypotheses of C68 hold for this tree, and two points of its second level have different numbers. -/
example : ∃ st, createClusterTree exGeomS Nat.log 5 7 2 (.given [(0, 3), (3, 4)]) = some (exGeomT, st) ∧ exGeomT ∈ exGeomT.pre ∧ [1, 2].Nodup ∧
    geomLabels exGeomT [1, 2] 1 4 ≠ geomLabels exGeomT [1, 2] 1 5 := by
  obtain ⟨st, hst⟩ := exGeom_built
  refine ⟨st, hst, Tree.mem_pre_self _, by decide, ?_⟩
  unfold geomLabels
  rw [Tree.preorderTraversal_eq]
  decide +kernel

end Htool
