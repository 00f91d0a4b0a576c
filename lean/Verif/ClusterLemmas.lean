import Verif.ClusterBuild

/-! # Lemmas about the cluster tree builder -/

namespace Htool
variable {D G : Type*}

/-- Assumptions on the fixed data of the main loop. -/
structure CEnv.OK (E : CEnv D G) : Prop where
  nc : 1 ≤ E.nc
  col : E.simple = true → 1 ≤ E.col
  dp : 1 ≤ E.dp
  sort : SortOK E.sort
  split : SplitOK E.split

theorem CEnv.OK.numChildren {E : CEnv D G} (h : E.OK) (c : CNode G) : 1 ≤ E.numChildren c := by
  unfold CEnv.numChildren
  have h1 := h.nc
  split_ifs with ha hb
  all_goals
    try
      have := h.col (by unfold CEnv.lvl at ha; simp at ha; exact ha.1)
    omega

theorem CEnv.OK.splitOf {E : CEnv D G} (h : E.OK) (c : CNode G) (st : CState G)
    (hs : splitOf E c st ≠ []) : (splitOf E c st).length = E.numChildren c ∧
    Tiles c.offset (c.offset + c.size) (Htool.splitOf E c st) ∧ ∀ iv ∈ Htool.splitOf E c st, 0 < iv.2 :=
  h.split _ _ _ _ _ (h.numChildren c) hs

/-! ## Shape -/

/-- Every inner node of the tree is tiled by its children. -/
def HierTiles (t : Tree (CNode G)) : Prop :=
  ∀ s ∈ t.pre, s.children ≠ [] →
    Tiles s.label.offset (s.label.offset + s.label.size) (s.children.map (fun u => u.label.iv))

/-- Children are one level deeper. -/
def DepthOK (t : Tree (CNode G)) : Prop :=
  ∀ s ∈ t.pre, ∀ u ∈ s.children, u.label.depth = s.label.depth + 1

theorem build_shape {E : CEnv D G} (hE : E.OK) {f c st t st'}
    (h : build E f c st = some (t, st')) : t.label = c ∧ HierTiles t ∧ DepthOK t := by
  refine build_rec E (P := fun c _ t _ => t.label = c ∧ HierTiles t ∧ DepthOK t)
    (PL := fun cs _ ts _ => ts.map Tree.label = cs ∧ ∀ t ∈ ts, HierTiles t ∧ DepthOK t)
    ?_ ?_ ?_ ?_ f c st t st' h
  · intro c st _
    refine ⟨rfl, ?_, ?_⟩
    · intro s hs
      rcases Tree.mem_pre.1 hs with rfl | ⟨u, hu, -⟩
      · intro h; exact absurd rfl h
      · simp at hu
    · intro s hs
      rcases Tree.mem_pre.1 hs with rfl | ⟨u, hu, -⟩
      · simp
      · simp at hu
  · rintro c st ts st' hs ⟨h1, h2⟩
    refine ⟨rfl, ?_, ?_⟩
    · intro s hsm
      rcases Tree.mem_pre.1 hsm with rfl | ⟨u, hu, hs'⟩
      · intro _
        have := (hE.splitOf c st hs).2.1
        rw [← childrenOf_iv, ← h1, List.map_map] at this
        exact this
      · exact (h2 u hu).1 s hs'
    · intro s hsm
      rcases Tree.mem_pre.1 hsm with rfl | ⟨u, hu, hs'⟩
      · intro u hu
        have : u.label ∈ childrenOf E c st := by rw [← h1]; exact List.mem_map_of_mem hu
        obtain ⟨p, iv, -, -, h3⟩ := mem_childrenOf this
        rw [h3]; rfl
      · exact (h2 u hu).2 s hs'
  · intro st; simp
  · rintro c cs st t ts st1 st2 ⟨h1, h2⟩ ⟨h3, h4⟩
    refine ⟨by simp [h1, h3], ?_⟩
    intro u hu
    rcases List.mem_cons.1 hu with rfl | hu
    · exact h4
    · exact h2 u hu

theorem buildList_shape {E : CEnv D G} (hE : E.OK) {f cs st ts st'}
    (h : buildList (build E f) cs st = some (ts, st')) :
    ts.map Tree.label = cs ∧ ∀ t ∈ ts, HierTiles t ∧ DepthOK t := by
  refine buildList_rec (P := fun c _ t _ => t.label = c ∧ HierTiles t ∧ DepthOK t)
    (PL := fun cs _ ts _ => ts.map Tree.label = cs ∧ ∀ t ∈ ts, HierTiles t ∧ DepthOK t)
    (fun c st t st' h => build_shape hE h) ?_ ?_ cs st ts st' h
  · intro st; simp
  · rintro c cs st t ts st1 st2 ⟨h1, h2⟩ ⟨h3, h4⟩
    refine ⟨by simp [h1, h3], ?_⟩
    intro u hu
    rcases List.mem_cons.1 hu with rfl | hu
    · exact h4
    · exact h2 u hu

theorem HierTiles.child {t u : Tree (CNode G)} (h : HierTiles t) (hu : u ∈ t.children) : HierTiles u :=
  fun s hs => h s (Tree.mem_pre.2 (Or.inr ⟨u, hu, hs⟩))

theorem DepthOK.child {t u : Tree (CNode G)} (h : DepthOK t) (hu : u ∈ t.children) : DepthOK u :=
  fun s hs => h s (Tree.mem_pre.2 (Or.inr ⟨u, hu, hs⟩))

/-- Leaves read from left to right tile the root's interval. -/
theorem HierTiles.leaves {t : Tree (CNode G)} (h : HierTiles t) :
    Tiles t.label.offset (t.label.offset + t.label.size) (t.leaves.map (fun u => u.label.iv)) := by
  induction t using Tree.ind with
  | h a cs ih =>
    by_cases hcs : cs = []
    · subst hcs; exact ⟨rfl, rfl⟩
    · rw [Tree.leaves_node_ne hcs, Tree.leavesL_eq, List.map_flatMap]
      exact tiles_flatMap cs (fun u => u.label.iv) _
        (h _ (Tree.mem_pre_self _) hcs) (fun c hc => ih c hc (h.child hc))

/-- Descendants are contained in their ancestors. -/
theorem HierTiles.contained {t : Tree (CNode G)} (h : HierTiles t) :
    ∀ s ∈ t.pre, t.label.offset ≤ s.label.offset ∧
      s.label.offset + s.label.size ≤ t.label.offset + t.label.size := by
  induction t using Tree.ind with
  | h a cs ih =>
    intro s hs
    rcases Tree.mem_pre.1 hs with rfl | ⟨u, hu, hs'⟩
    · exact ⟨le_refl _, le_refl _⟩
    · have h1 := ih u hu (h.child hu) s hs'
      have h2 := (h _ (Tree.mem_pre_self _) (List.ne_nil_of_mem hu)).mem_bounds
        (List.mem_map_of_mem (f := fun u : Tree (CNode G) => u.label.iv) hu)
      simp [CNode.iv] at h2 h1 ⊢
      omega

theorem DepthOK.le {t : Tree (CNode G)} (h : DepthOK t) :
    ∀ s ∈ t.pre, s = t ∨ t.label.depth < s.label.depth := by
  induction t using Tree.ind with
  | h a cs ih =>
    intro s hs
    rcases Tree.mem_pre.1 hs with rfl | ⟨u, hu, hs'⟩
    · exact Or.inl rfl
    · right
      have h2 := h _ (Tree.mem_pre_self _) u hu
      rcases ih u hu (h.child hu) s hs' with rfl | h3
      · omega
      · simp at *; omega

/-! ## Permutation -/

theorem slice_length {p : List ℕ} {o s : ℕ} (h : o + s ≤ p.length) : (slice p o s).length = s := by
  simp [slice]; omega

theorem slice_getElem? (p : List ℕ) (o s i : ℕ) :
    (slice p o s)[i]? = if i < s then p[o + i]? else none := by
  unfold slice; rw [List.getElem?_take]; simp

theorem slice_congr {p q : List ℕ} {o s : ℕ} (h : ∀ i, o ≤ i → i < o + s → p[i]? = q[i]?) :
    slice p o s = slice q o s := by
  apply List.ext_getElem?
  intro i
  rw [slice_getElem?, slice_getElem?]
  split_ifs with hi
  · exact h _ (by omega) (by omega)
  · rfl

theorem slice_add (p : List ℕ) (o s r : ℕ) : slice p o (s + r) = slice p o s ++ slice p (o + s) r := by
  unfold slice
  rw [List.take_add, List.drop_drop]

theorem eq_three (p : List ℕ) (o s : ℕ) : p = p.take o ++ slice p o s ++ p.drop (o + s) := by
  unfold slice
  rw [List.append_assoc, ← List.drop_drop, List.take_append_drop, List.take_append_drop]

theorem sortSlice_perm {sort : List ℕ → List ℕ} (hs : ∀ l, (sort l).Perm l) (p : List ℕ) (o s : ℕ) :
    (sortSlice sort p o s).Perm p := by
  conv_rhs => rw [eq_three p o s]
  unfold sortSlice
  exact ((hs _).append_left _).append_right _

theorem sortSlice_getElem? {sort : List ℕ → List ℕ} (hs : ∀ l, (sort l).Perm l) {p : List ℕ}
    {o s : ℕ} (h : o + s ≤ p.length) {i : ℕ} (hi : i < o ∨ o + s ≤ i) :
    (sortSlice sort p o s)[i]? = p[i]? := by
  have hl : (sort (slice p o s)).length = s := by rw [(hs _).length_eq, slice_length h]
  conv_rhs => rw [eq_three p o s]
  unfold sortSlice
  have h0 : (p.take o).length = o := by simp; omega
  have hsl := slice_length h
  rcases hi with hi | hi
  · rw [List.append_assoc, List.append_assoc, List.getElem?_append_left (by omega),
      List.getElem?_append_left (by omega)]
  · rw [List.getElem?_append_right (by simp [hl]; omega),
      List.getElem?_append_right (by simp [hsl]; omega)]
    congr 1
    simp [hl, hsl]

theorem slice_sortSlice {sort : List ℕ → List ℕ} (hs : ∀ l, (sort l).Perm l) {p : List ℕ}
    {o s : ℕ} (h : o + s ≤ p.length) : slice (sortSlice sort p o s) o s = sort (slice p o s) := by
  have hl : (sort (slice p o s)).length = s := by rw [(hs _).length_eq, slice_length h]
  have h0 : (p.take o).length = o := by simp; omega
  unfold slice at hl ⊢
  unfold sortSlice slice
  rw [List.append_assoc, List.drop_append_of_le_length (by omega), List.drop_of_length_le (by omega),
    List.nil_append, List.take_append_of_le_length (by omega), List.take_of_length_le (by omega)]

/-- The geometry stored in the node was computed from an array `q` whose slice holds the same indices as `perm`. -/
def FrozenAt (E : CEnv D G) (perm : List ℕ) (c : CNode G) : Prop :=
  ∃ q, c.geo = E.geo q c.offset c.size ∧ (slice q c.offset c.size).Perm (slice perm c.offset c.size)

theorem FrozenAt.congr {E : CEnv D G} {p q : List ℕ} {c : CNode G} (h : FrozenAt E p c)
    (hpq : ∀ i, c.offset ≤ i → i < c.offset + c.size → p[i]? = q[i]?) : FrozenAt E q c := by
  obtain ⟨r, h1, h2⟩ := h
  exact ⟨r, h1, by rw [← slice_congr hpq]; exact h2⟩

/-- What processing the interval `[a,b)` does to the permutation. -/
structure PermStep (a b : ℕ) (p q : List ℕ) : Prop where
  length : q.length = p.length
  outside : ∀ i, i < a ∨ b ≤ i → q[i]? = p[i]?
  inside : (slice q a (b - a)).Perm (slice p a (b - a))

theorem PermStep.refl (a b : ℕ) (p : List ℕ) : PermStep a b p p :=
  ⟨rfl, fun _ _ => rfl, List.Perm.refl _⟩

theorem PermStep.trans {a b : ℕ} {p q r : List ℕ} (h : PermStep a b p q) (h' : PermStep a b q r) :
    PermStep a b p r :=
  ⟨h'.length.trans h.length, fun i hi => (h'.outside i hi).trans (h.outside i hi),
    h'.inside.trans h.inside⟩

theorem PermStep.left {a m b : ℕ} {p q : List ℕ} (h : PermStep a m p q) (h1 : a ≤ m) (h2 : m ≤ b) :
    PermStep a b p q := by
  refine ⟨h.length, fun i hi => h.outside i (by omega), ?_⟩
  rw [show b - a = (m - a) + (b - m) by omega, slice_add, slice_add]
  have : slice q (a + (m - a)) (b - m) = slice p (a + (m - a)) (b - m) :=
    slice_congr (fun i hi _ => h.outside i (by omega))
  rw [this]
  exact h.inside.append_right _

theorem PermStep.right {a m b : ℕ} {p q : List ℕ} (h : PermStep m b p q) (h1 : a ≤ m) (h2 : m ≤ b) :
    PermStep a b p q := by
  refine ⟨h.length, fun i hi => h.outside i (by omega), ?_⟩
  rw [show b - a = (m - a) + (b - m) by omega, slice_add, slice_add]
  have h3 : slice q a (m - a) = slice p a (m - a) :=
    slice_congr (fun i _ hi => h.outside i (by omega))
  rw [h3, show a + (m - a) = m by omega]
  exact h.inside.append_left _

theorem PermStep.perm {a b : ℕ} {p q : List ℕ} (h : PermStep a b p q) (hab : a ≤ b) :
    q.Perm p := by
  rw [eq_three p a (b - a), eq_three q a (b - a)]
  have h1 : q.take a = p.take a := by
    apply List.ext_getElem?; intro i
    simp only [List.getElem?_take]
    split_ifs with hi
    · exact h.outside i (Or.inl hi)
    · rfl
  have h2 : q.drop (a + (b - a)) = p.drop (a + (b - a)) := by
    apply List.ext_getElem?; intro i
    simp only [List.getElem?_drop]
    exact h.outside _ (by omega)
  rw [h1, h2]
  exact (h.inside.append_left _).append_right _

theorem FrozenAt.step {E : CEnv D G} {p q : List ℕ} {c : CNode G} (h : FrozenAt E p c)
    (hs : PermStep c.offset (c.offset + c.size) p q) : FrozenAt E q c := by
  obtain ⟨r, h1, h2⟩ := h
  refine ⟨r, h1, h2.trans ?_⟩
  have := hs.inside
  rw [show c.offset + c.size - c.offset = c.size by omega] at this
  exact this.symm

/-- The two facts proved together about one processed cluster. -/
def FrozenP (E : CEnv D G) (c : CNode G) (st : CState G) (t : Tree (CNode G)) (st' : CState G) : Prop :=
  c.offset + c.size ≤ st.perm.length →
    PermStep c.offset (c.offset + c.size) st.perm st'.perm ∧
    (FrozenAt E st.perm c → ∀ s ∈ t.pre, FrozenAt E st'.perm s.label) ∧
    (∀ s ∈ t.pre, c.offset ≤ s.label.offset ∧ s.label.offset + s.label.size ≤ c.offset + c.size)

/-- Same for a list of processed clusters. -/
def FrozenPL (E : CEnv D G) (cs : List (CNode G)) (st : CState G) (ts : List (Tree (CNode G)))
    (st' : CState G) : Prop :=
  ∀ a b, Tiles a b (cs.map CNode.iv) → b ≤ st.perm.length →
    PermStep a b st.perm st'.perm ∧
    ((∀ c ∈ cs, FrozenAt E st.perm c) → ∀ t ∈ ts, ∀ s ∈ t.pre, FrozenAt E st'.perm s.label) ∧
    (∀ t ∈ ts, ∀ s ∈ t.pre, a ≤ s.label.offset ∧ s.label.offset + s.label.size ≤ b)

theorem frozen_nil (E : CEnv D G) (st : CState G) : FrozenPL E [] st [] st := by
  intro a b _ _
  exact ⟨PermStep.refl _ _ _, by simp, by simp⟩

theorem frozen_cons (E : CEnv D G) (c : CNode G) (cs : List (CNode G)) (st : CState G)
    (t : Tree (CNode G)) (ts : List (Tree (CNode G))) (st1 st2 : CState G)
    (h1 : FrozenPL E cs st ts st1) (h2 : FrozenP E c st1 t st2) :
    FrozenPL E (c :: cs) st (t :: ts) st2 := by
  intro a b hT hb
  obtain ⟨ha, hT'⟩ : c.offset = a ∧ Tiles (a + c.size) b (cs.map CNode.iv) := hT
  subst ha
  have hle := hT'.le
  obtain ⟨p1, f1, c1⟩ := h1 _ _ hT' hb
  have hlen : c.offset + c.size ≤ st1.perm.length := by rw [p1.length]; omega
  obtain ⟨p2, f2, c2⟩ := h2 hlen
  refine ⟨(p1.right (by omega) hle).trans (p2.left (by omega) hle), ?_, ?_⟩
  · intro hfr u hu s hs
    rcases List.mem_cons.1 hu with rfl | hu
    · refine f2 ?_ s hs
      exact (hfr c (by simp)).congr (fun i _ hi => (p1.outside i (by omega)).symm)
    · have hb := c1 u hu s hs
      exact (f1 (fun d hd => hfr d (by simp [hd])) u hu s hs).congr
        (fun i hi _ => (p2.outside i (by omega)).symm)
  · intro u hu s hs
    rcases List.mem_cons.1 hu with rfl | hu
    · have := c2 s hs; omega
    · have := c1 u hu s hs; omega

theorem sorted_step {E : CEnv D G} (hE : E.OK) {c : CNode G} {st : CState G}
    (h : c.offset + c.size ≤ st.perm.length) :
    PermStep c.offset (c.offset + c.size) st.perm (sorted E c st).perm := by
  refine ⟨(sortSlice_perm (hE.sort _) _ _ _).length_eq, ?_, ?_⟩
  · intro i hi; exact sortSlice_getElem? (hE.sort _) h hi
  · rw [show c.offset + c.size - c.offset = c.size by omega]
    show (slice (sortSlice _ _ _ _) _ _).Perm _
    rw [slice_sortSlice (hE.sort _) h]
    exact hE.sort _ _

theorem build_frozen {E : CEnv D G} (hE : E.OK) {f c st t st'}
    (h : build E f c st = some (t, st')) : FrozenP E c st t st' := by
  refine build_rec E (P := FrozenP E) (PL := FrozenPL E) ?_ ?_ (frozen_nil E) (frozen_cons E)
    f c st t st' h
  · intro c st _ hlen
    refine ⟨by simpa using sorted_step hE hlen, ?_, ?_⟩
    · intro hfr s hs
      simp [Tree.pre, Tree.preL] at hs; subst hs
      simpa using hfr.step (sorted_step hE hlen)
    · intro s hs
      simp [Tree.pre, Tree.preL] at hs; subst hs
      simp
  · intro c st ts st' hs hPL hlen
    have hst := sorted_step hE hlen
    have hT := (hE.splitOf c st hs).2.1
    rw [← childrenOf_iv] at hT
    obtain ⟨p1, f1, c1⟩ := hPL _ _ hT (by simpa [hst.length] using hlen)
    simp only [register_perm] at p1 f1
    have hchild : ∀ d ∈ childrenOf E c st, FrozenAt E (sorted E c st).perm d := by
      intro d hd
      obtain ⟨p, iv, -, -, rfl⟩ := mem_childrenOf hd
      exact ⟨_, rfl, List.Perm.refl _⟩
    refine ⟨hst.trans p1, ?_, ?_⟩
    · intro hfr s hsm
      rcases Tree.mem_pre.1 hsm with rfl | ⟨u, hu, hs'⟩
      · exact hfr.step (hst.trans p1)
      · exact f1 hchild u hu s hs'
    · intro s hsm
      rcases Tree.mem_pre.1 hsm with rfl | ⟨u, hu, hs'⟩
      · simp
      · exact c1 u hu s hs'

theorem buildList_frozen {E : CEnv D G} (hE : E.OK) {f cs st ts st'}
    (h : buildList (build E f) cs st = some (ts, st')) : FrozenPL E cs st ts st' :=
  buildList_rec (P := FrozenP E) (PL := FrozenPL E) (fun _ _ _ _ h => build_frozen hE h)
    (frozen_nil E) (frozen_cons E) cs st ts st' h

/-! ## Minimal and maximal depth -/

/-- Effect on the recorded depths of processing nodes whose leaves are `ls`. -/
def DepthStep (st st' : CState G) (ls : List (Tree (CNode G))) : Prop :=
  (st.maxDepth ≤ st'.maxDepth ∧ (∀ l ∈ ls, 0 ≤ l.label.rank → l.label.depth ≤ st'.maxDepth) ∧
    (st'.maxDepth = st.maxDepth ∨ ∃ l ∈ ls, 0 ≤ l.label.rank ∧ l.label.depth = st'.maxDepth)) ∧
  (st'.minDepth ≤ st.minDepth ∧ (∀ l ∈ ls, 0 ≤ l.label.rank → st'.minDepth ≤ l.label.depth) ∧
    (st'.minDepth = st.minDepth ∨ ∃ l ∈ ls, 0 ≤ l.label.rank ∧ l.label.depth = st'.minDepth))

theorem depthStep_nil (st : CState G) : DepthStep st st [] := by simp [DepthStep]

theorem depthStep_append {st st1 st2 : CState G} {l1 l2 : List (Tree (CNode G))}
    (h1 : DepthStep st st1 l1) (h2 : DepthStep st1 st2 l2) : DepthStep st st2 (l2 ++ l1) := by
  obtain ⟨⟨a1, a2, a3⟩, b1, b2, b3⟩ := h1
  obtain ⟨⟨c1, c2, c3⟩, d1, d2, d3⟩ := h2
  refine ⟨⟨by omega, ?_, ?_⟩, by omega, ?_, ?_⟩
  · intro l hl hr
    rcases List.mem_append.1 hl with hl | hl
    · exact c2 l hl hr
    · have := a2 l hl hr; omega
  · rcases c3 with c3 | ⟨l, hl, h⟩
    · rcases a3 with a3 | ⟨l, hl, h⟩
      · left; omega
      · right; exact ⟨l, by simp [hl], h.1, by omega⟩
    · right; exact ⟨l, by simp [hl], h⟩
  · intro l hl hr
    rcases List.mem_append.1 hl with hl | hl
    · exact d2 l hl hr
    · have := b2 l hl hr; omega
  · rcases d3 with d3 | ⟨l, hl, h⟩
    · rcases b3 with b3 | ⟨l, hl, h⟩
      · left; omega
      · right; exact ⟨l, by simp [hl], h.1, by omega⟩
    · right; exact ⟨l, by simp [hl], h⟩

theorem childrenOf_ne_nil {E : CEnv D G} {c : CNode G} {st : CState G} (h : splitOf E c st ≠ []) :
    childrenOf E c st ≠ [] := by
  intro h'
  apply h
  rw [← childrenOf_iv, h']; rfl

theorem build_depth {E : CEnv D G} {f c st t st'}
    (h : build E f c st = some (t, st')) : DepthStep st st' t.leaves := by
  refine build_rec E (P := fun _ st t st' => DepthStep st st' t.leaves)
    (PL := fun cs st ts st' => (ts = [] → cs = []) ∧ DepthStep st st' (Tree.leavesL ts))
    ?_ ?_ (fun st => ⟨fun _ => rfl, depthStep_nil st⟩) ?_ f c st t st' h
  · intro c st _
    unfold finishLeaf
    simp only [Tree.leaves]
    by_cases hr : c.rank < 0
    · rw [if_pos hr]
      simp [DepthStep]
      omega
    · rw [if_neg hr]
      simp [DepthStep]
      omega
  · intro c st ts st' hs ⟨h1, h2⟩
    have : ts ≠ [] := fun h => childrenOf_ne_nil hs (h1 h)
    show DepthStep st st' (Tree.node c ts).leaves
    rw [Tree.leaves_node_ne this]
    simpa [DepthStep] using h2
  · intro c cs st t ts st1 st2 ⟨_, h1⟩ h2
    exact ⟨by simp, depthStep_append h1 h2⟩

theorem buildList_depth {E : CEnv D G} {f cs st ts st'}
    (h : buildList (build E f) cs st = some (ts, st')) : DepthStep st st' (Tree.leavesL ts) :=
  buildList_rec (P := fun _ st t st' => DepthStep st st' t.leaves)
    (PL := fun _ st ts st' => DepthStep st st' (Tree.leavesL ts))
    (fun _ _ _ _ h => build_depth h) (fun st => depthStep_nil st)
    (fun _ _ _ _ _ _ _ h1 h2 => depthStep_append h1 h2) cs st ts st' h

/-! ## Termination -/

theorem buildList_some {C T S : Type*} {g : C → S → Option (T × S)} (cs : List C)
    (hg : ∀ c ∈ cs, ∀ st, ∃ r, g c st = some r) : ∀ st, ∃ r, buildList g cs st = some r := by
  induction cs with
  | nil => intro st; exact ⟨_, rfl⟩
  | cons c cs ih =>
    intro st
    obtain ⟨⟨ts, st1⟩, h1⟩ := ih (fun d hd => hg d (by simp [hd])) st
    obtain ⟨⟨t, st2⟩, h2⟩ := hg c (by simp) st1
    exact ⟨(t :: ts, st2), by simp [buildList, h1, h2]⟩

theorem tiles_lt {a b : ℕ} {l : List (ℕ × ℕ)} (h : Tiles a b l) (hp : ∀ iv ∈ l, 0 < iv.2)
    (h2 : 2 ≤ l.length) : ∀ iv ∈ l, iv.2 < b - a := by
  intro iv hiv
  match l, h, h2 with
  | (o1, s1) :: (o2, s2) :: l, h, _ =>
    obtain ⟨rfl, rfl, h3⟩ := h
    have h4 := h3.le
    have q1 := hp (o1, s1) (by simp)
    have q2 := hp (o1 + s1, s2) (by simp)
    simp at q1 q2
    rcases List.mem_cons.1 hiv with rfl | hiv
    · simp; omega
    · rcases List.mem_cons.1 hiv with rfl | hiv
      · simp; omega
      · have := h3.mem_bounds hiv; omega

theorem build_some {E : CEnv D G} (hE : E.OK) (hnc : 2 ≤ E.nc) :
    ∀ (f : ℕ) (c : CNode G) (st : CState G), (E.dp - c.depth) + c.size < f →
      ∃ r, build E f c st = some r := by
  intro f
  induction f with
  | zero => intro c st h; omega
  | succ f ih =>
    intro c st h
    rw [build_succ]
    split_ifs with hs
    · exact ⟨_, rfl⟩
    · have hsp := hE.splitOf c st hs
      obtain ⟨⟨ts, st'⟩, hr⟩ := buildList_some (g := build E f) (childrenOf E c st) (by
        intro d hd st1
        apply ih
        obtain ⟨p, iv, hp, hiv, rfl⟩ := mem_childrenOf hd
        have hb := hsp.2.1.mem_bounds hiv
        show E.dp - (c.depth + 1) + iv.2 < f
        by_cases hlt : c.depth < E.dp
        · omega
        · have hk : E.numChildren c = E.nc := by
            unfold CEnv.numChildren CEnv.lvl
            rw [if_neg]; simp; intro _; omega
          have := tiles_lt hsp.2.1 hsp.2.2 (by rw [hsp.1, hk]; exact hnc) iv hiv
          omega) (register (sorted E c st) (childrenOf E c st))
      exact ⟨_, by rw [hr]⟩

end Htool
