import Verif.TreeMoves

/-! # C74: trees that are moved

Small specification: `follow` says which variable owns the tree after an event, `hits` lists the updates of the tree data made through the tree. -/

namespace Htool.TreeMoves
variable {N D : Type*}

/-- The variable that owns the tree of the variable `a` after an event; `none`: the tree has been destroyed. -/
def follow (a : ℕ) : Ev N D → Option ℕ
  | .create _ _ => some a
  | .moveNew dst src => some (if a = src then dst else a)
  | .moveAssign dst src => if a = src then some dst else if a = dst then none else some a
  | .destroy b => if a = b then none else some a
  | .setData _ _ => some a

/-- The same after a history. -/
def followAll : List (Ev N D) → ℕ → Option ℕ
  | [], a => some a
  | e :: es, a => (follow a e).bind (followAll es)

/-- Updates of the tree data made through the tree that the variable `a` owns and whose other nodes are at the addresses `l`. -/
def hits (l : List ℕ) : List (Ev N D) → ℕ → List (D → D)
  | [], _ => []
  | .setData p f :: es, a => if p = a ∨ p ∈ l then f :: hits l es a else hits l es a
  | e :: es, a => match follow a e with
    | some b => hits l es b
    | none => []

/-! ## Lemmas -/

theorem follow_step {gone : N → N} {m m' : TMem N D} {own : Own N} {e : Ev N D} (h : Inv m own) (hs : Step gone m e m') {a b d : ℕ} {T : Tree (ℕ × N)}
    (ho : own a = some (d, T)) (hf : follow a e = some b) : after m own e b = some (d, atRoot b T) := by
  have hr := h.reads _ _ _ ho
  obtain ⟨k, hk, -⟩ := h.alive ho (hr.1 ▸ root_mem T)
  cases hs with
  | @create T' _ hn hx =>
    simp only [follow, Option.some.injEq] at hf
    subst hf
    have hne : a ≠ T'.label.1 := by rintro rfl; rw [hx _ (root_mem T')] at hk; cases hk
    change Function.update own T'.label.1 (some (m.nextD, T')) a = _
    rw [Function.update_of_ne hne, ho, atRoot_self hr.1]
  | @moveNew dst src c hs hv hd =>
    have hsd : dst ≠ src := by rintro rfl; rw [hd] at hs; cases hs
    simp only [follow, Option.some.injEq] at hf
    change Function.update (Function.update own dst ((own src).map fun p => (p.1, atRoot dst p.2))) src none b = _
    by_cases ha : a = src
    · rw [if_pos ha] at hf
      subst hf ha
      rw [Function.update_of_ne hsd, Function.update_self, ho]; rfl
    · rw [if_neg ha] at hf
      subst hf
      have hne : a ≠ dst := by rintro rfl; rw [hd] at hk; cases hk
      rw [Function.update_of_ne ha, Function.update_of_ne hne, ho, atRoot_self hr.1]
  | @moveAssign dst src c T' hs hv hd hne _ _ =>
    simp only [follow] at hf
    change Function.update (Function.update own dst ((own src).map fun p => (p.1, atRoot dst p.2))) src none b = _
    by_cases ha : a = src
    · rw [if_pos ha, Option.some.injEq] at hf
      subst hf ha
      rw [Function.update_of_ne hne, Function.update_self, ho]; rfl
    · rw [if_neg ha] at hf
      by_cases ha2 : a = dst
      · rw [if_pos ha2] at hf; cases hf
      · rw [if_neg ha2, Option.some.injEq] at hf
        subst hf
        rw [Function.update_of_ne ha, Function.update_of_ne ha2, ho, atRoot_self hr.1]
  | @destroy b' T' hv _ _ =>
    simp only [follow] at hf
    by_cases ha : a = b'
    · rw [if_pos ha] at hf; cases hf
    · rw [if_neg ha, Option.some.injEq] at hf
      subst hf
      change Function.update own b' none a = _
      rw [Function.update_of_ne ha, ho, atRoot_self hr.1]
  | setData _ _ =>
    simp only [follow, Option.some.injEq] at hf
    subst hf
    change own a = _
    rw [ho, atRoot_self hr.1]

/-- A node shares the tree data of a tree exactly when it belongs to it. -/
theorem data_iff {m : TMem N D} {own : Own N} (h : Inv m own) {a d : ℕ} {T : Tree (ℕ × N)} (ho : own a = some (d, T)) {p : ℕ} {c : Cell N}
    (hp : m.cell p = some c) : c.data = some d ↔ p ∈ T.addrs := by
  constructor
  · intro hd
    rcases h.cover p c hp with ⟨-, h1⟩ | ⟨b, d', T', hb, hx⟩
    · rw [h1] at hd; cases hd
    · obtain ⟨c', hc', hd'⟩ := h.alive hb hx
      rw [hp] at hc'; injection hc' with hc'
      rw [← hc', hd] at hd'; injection hd' with hd'
      by_cases hab : a = b
      · subst hab
        rw [ho] at hb; injection hb with hb; injection hb with _ hb
        rw [hb]; exact hx
      · exact absurd hd' (h.disj _ _ _ _ _ _ ho hb hab).1
  · intro hx
    obtain ⟨c', hc', hd'⟩ := h.alive ho hx
    rw [hp] at hc'; injection hc' with hc'
    rw [hc']; exact hd'

theorem follow_run {gone : N → N} {m m' : TMem N D} {es : List (Ev N D)} (hrun : Run gone m es m') {own : Own N} (h : Inv m own) {a a' d : ℕ} {T : Tree (ℕ × N)}
    (ho : own a = some (d, T)) (hf : followAll es a = some a') :
    ∃ own', Inv m' own' ∧ own' a' = some (d, atRoot a' T) ∧
      m'.data d = (hits ((inner T).map fun c => c.label.1) es a).foldl (fun x f => f x) (m.data d) := by
  induction hrun generalizing own a T with
  | nil m =>
    simp only [followAll, Option.some.injEq] at hf
    subst hf
    exact ⟨own, h, by rw [ho, atRoot_self (h.reads _ _ _ ho).1], rfl⟩
  | @cons m m1 m2 e es hs _ ih =>
    rw [followAll, Option.bind_eq_some_iff] at hf
    obtain ⟨b, hb, hf⟩ := hf
    have ho1 := follow_step h hs ho hb
    obtain ⟨own', h', ho', hd'⟩ := ih (h.step hs) ho1 hf
    rw [atRoot_atRoot] at ho'
    refine ⟨own', h', ho', ?_⟩
    rw [hd', inner_atRoot]
    have hlt := h.fresh _ _ _ ho
    have hr := h.reads _ _ _ ho
    cases hs with
    | @create T' v _ _ =>
      rw [hits, hb]
      · exact congrArg (fun z => List.foldl (fun x f => f x) z (hits ((inner T).map fun c => c.label.1) es b))
          (Function.update_of_ne hlt.ne v m.data)
      · exact fun _ _ h => nomatch h
    | moveNew _ _ _ =>
      rw [hits, hb]
      exact fun _ _ h => nomatch h
    | moveAssign _ _ _ _ _ _ =>
      rw [hits, hb]
      exact fun _ _ h => nomatch h
    | destroy _ _ _ =>
      rw [hits, hb]
      exact fun _ _ h => nomatch h
    | @setData p f c d1 hp hd1 =>
      simp only [follow, Option.some.injEq] at hb
      subst hb
      rw [hits]
      have hi : c.data = some d ↔ p = a ∨ p ∈ (inner T).map fun c => c.label.1 := by
        rw [data_iff h ho hp, mem_addrs_iff, hr.1, List.mem_map]
      by_cases hx : p = a ∨ p ∈ (inner T).map fun c => c.label.1
      · rw [if_pos hx, List.foldl_cons]
        have e1 := hi.2 hx
        rw [hd1] at e1; injection e1 with e1
        subst e1
        exact congrArg (fun z => List.foldl (fun x f => f x) z (hits ((inner T).map fun c => c.label.1) es a))
          (Function.update_self (f := m.data) d1 (f (m.data d1)))
      · rw [if_neg hx]
        have e1 : d ≠ d1 := by rintro rfl; exact hx (hi.1 hd1)
        exact congrArg (fun z => List.foldl (fun x f => f x) z (hits ((inner T).map fun c => c.label.1) es a))
          (Function.update_of_ne e1 (f (m.data d1)) m.data)

/-! ## C74 -/

/-- C74: after any history of constructions, moves, assignments and destructions, a tree that has not been destroyed is in the variable it was moved to: all its
nodes are live and hold the same members, only the address of the root has changed, and its tree data has only seen the updates made through its own nodes. -/
theorem C74_moves {gone : N → N} {m m' : TMem N D} (hm : Reached gone m) {es : List (Ev N D)} (hrun : Run gone m es m') {a a' d : ℕ} {T : Tree (ℕ × N)}
    (hv : IsVar m a) (hr : Reads m a d T) (hf : followAll es a = some a') :
    IsVar m' a' ∧ Reads m' a' d (atRoot a' T) ∧
      m'.data d = (hits ((inner T).map fun c => c.label.1) es a).foldl (fun x f => f x) (m.data d) := by
  obtain ⟨own, h⟩ := hm.inv
  obtain ⟨own', h', ho', hd⟩ := follow_run hrun h (h.var_tree hv hr) hf
  exact ⟨h'.isVar ho', h'.reads _ _ _ ho', hd⟩

/-- C74: so references to nodes below the root stay valid and refer to the same node. -/
theorem C74_references {gone : N → N} {m m' : TMem N D} (hm : Reached gone m) {es : List (Ev N D)} (hrun : Run gone m es m') {a a' d : ℕ} {T : Tree (ℕ × N)}
    (hv : IsVar m a) (hr : Reads m a d T) (hf : followAll es a = some a') {c : Tree (ℕ × N)} (hc : c ∈ inner T) :
    m'.cell c.label.1 = m.cell c.label.1 ∧ Reads m' c.label.1 d c ∧ c ∈ inner (atRoot a' T) := by
  obtain ⟨-, h1, -⟩ := C74_moves hm hrun hv hr hf
  have hp : c ∈ (atRoot a' T).pre := by rw [pre_eq, inner_atRoot]; exact List.mem_cons_of_mem _ hc
  have hp0 : c ∈ T.pre := by rw [pre_eq]; exact List.mem_cons_of_mem _ hc
  exact ⟨(h1.2 c hp).trans (hr.2 c hp0).symm, ⟨rfl, fun k hk => h1.2 k (pre_trans hp hk)⟩, by rw [inner_atRoot]; exact hc⟩

/-- C74: a reference to the root (to the variable) is valid only if the tree is back in that variable: otherwise that address is free or holds something that does
not belong to the tree. -/
theorem C74_root_reference {gone : N → N} {m m' : TMem N D} (hm : Reached gone m) {es : List (Ev N D)} (hrun : Run gone m es m') {a a' d : ℕ} {T : Tree (ℕ × N)}
    (hv : IsVar m a) (hr : Reads m a d T) (hf : followAll es a = some a') :
    (∃ c, m'.cell a = some c ∧ c.data = some d) ↔ a' = a := by
  obtain ⟨own, h⟩ := hm.inv
  have ho := h.var_tree hv hr
  obtain ⟨own', h', ho', -⟩ := follow_run hrun h ho hf
  constructor
  · rintro ⟨c, hc, hd⟩
    rcases mem_atRoot.1 ((data_iff h' ho' hc).1 hd) with e | ⟨k, hk, e⟩
    · exact e.symm
    · exact absurd (e.trans hr.1.symm) (inner_ne_root (h.nodup _ _ _ ho) hk)
  · rintro rfl
    exact h'.alive ho' (mem_atRoot.2 (Or.inl rfl))

/-- C74: a variable that was moved from has no children and no tree data left (reading its permutation or parameters dereferences a null pointer). -/
theorem C74_moved_from {gone : N → N} {m m' : TMem N D} {dst src : ℕ} {e : Ev N D} (he : e = .moveNew dst src ∨ e = .moveAssign dst src) (hs : Step gone m e m') :
    ∃ c, m'.cell src = some c ∧ c.kids = [] ∧ c.data = none := by
  rcases he with rfl | rfl
  · cases hs with
    | moveNew h1 h2 h3 => exact ⟨_, Function.update_self .., rfl, rfl⟩
  · cases hs with
    | moveAssign h1 h2 h3 h4 h5 h6 => exact ⟨_, Function.update_self .., rfl, rfl⟩

/-- C74: the destructor frees the whole tree and nothing else. -/
theorem C74_destroy {gone : N → N} {m m' : TMem N D} (hm : Reached gone m) {a d : ℕ} {T : Tree (ℕ × N)} (hv : IsVar m a) (hr : Reads m a d T)
    (hs : Step gone m (.destroy a) m') (x : ℕ) : m'.cell x = if x ∈ T.addrs then none else m.cell x := by
  cases hs with
  | destroy _ ha hT =>
    have e := shape_unique hT hr.shape (ha.trans hr.1.symm)
    subst e
    rfl

/-- C74: no leak: once all variables are destroyed no node is left. -/
theorem C74_no_leak {gone : N → N} {m : TMem N D} (hm : Reached gone m) (hv : ∀ a, ¬ IsVar m a) (x : ℕ) : m.cell x = none := by
  obtain ⟨own, h⟩ := hm.inv
  cases hx : m.cell x with
  | none => rfl
  | some c =>
    exfalso
    rcases h.cover x c hx with ⟨h1, h2⟩ | ⟨a, d, T, ho, -⟩
    · refine hv x ⟨by rw [hx]; rfl, fun y k hy hk => ?_⟩
      rcases h.cover y k hy with ⟨h3, -⟩ | ⟨a, d, T, ho, -⟩
      · rw [h3] at hk; cases hk
      · exact hv a (h.isVar ho)
    · exact hv a (h.isVar ho)

/-- C74: every variable can be destroyed and moved from: the model does not get stuck. -/
theorem C74_progress {gone : N → N} {m : TMem N D} (hm : Reached gone m) {a : ℕ} (hv : IsVar m a) :
    (∃ m', Step gone m (.destroy a) m') ∧ (∀ dst, m.cell dst = none → ∃ m', Step gone m (.moveNew dst a) m') ∧
    (∀ dst, IsVar m dst → dst ≠ a → ∃ m', Step gone m (.moveAssign dst a) m') := by
  obtain ⟨own, h⟩ := hm.inv
  have hT : ∀ b, IsVar m b → ∃ T : Tree (ℕ × N), T.label.1 = b ∧ Shape m T := by
    intro b hb
    rcases h.var hb with ⟨c, hc, h1, h2, -⟩ | ⟨d, T, ho⟩
    · refine ⟨.node (b, c.own) [], rfl, fun k hk => ?_⟩
      rw [pre_eq] at hk
      simp only [inner, Tree.children_node, List.flatMap_nil, List.mem_singleton] at hk
      subst hk
      refine ⟨none, ?_⟩
      rw [Tree.label_node, hc]
      obtain ⟨o, k, dd⟩ := c
      simp only at h1 h2
      subst h1 h2
      rfl
    · exact ⟨T, (h.reads _ _ _ ho).1, (h.reads _ _ _ ho).shape⟩
  obtain ⟨c, hc⟩ := Option.isSome_iff_exists.1 hv.1
  refine ⟨?_, fun dst hd => ⟨_, .moveNew hc hv hd⟩, fun dst hd hne => ?_⟩
  · obtain ⟨T, h1, h2⟩ := hT a hv
    exact ⟨_, .destroy hv h1 h2⟩
  · obtain ⟨T, h1, h2⟩ := hT dst hd
    exact ⟨_, .moveAssign hc hv hd hne h1 h2⟩

theorem Run.snoc {gone : N → N} {m m1 m2 : TMem N D} {es : List (Ev N D)} {e : Ev N D} (h : Run gone m es m1) (hs : Step gone m1 e m2) :
    Run gone m (es ++ [e]) m2 := by
  induction h with
  | nil m => exact .cons hs (.nil _)
  | cons h1 _ ih => exact .cons h1 (ih hs)

theorem Reached.next {gone : N → N} {m m1 : TMem N D} {e : Ev N D} (h : Reached gone m) (hs : Step gone m e m1) : Reached gone m1 := by
  obtain ⟨d0, es, hr⟩ := h
  exact ⟨d0, _, hr.snoc hs⟩

/-! ## Cluster trees -/

/-- `ClusterTreeData` (clustering/cluster_tree_data.hpp 14-26): the members that matter here. `parts` and `root` are addresses: `m_clusters_on_partition` is set by
the child constructor (cluster_node.hpp 37-42), `m_root_cluster` by the root constructor (cluster_node.hpp 31). -/
structure ClusterData where
  perm : List ℕ
  maxDepth : ℕ
  minDepth : ℕ
  minSize : ℕ
  isLocal : Bool
  parts : List ℕ
  root : ℕ

/-- The setters and `get_permutation` (cluster_node.hpp 72, 75-78) change neither the root pointer nor the partition. -/
def Setter (f : ClusterData → ClusterData) : Prop := ∀ x, (f x).parts = x.parts ∧ (f x).root = x.root

/-- All updates of a history are made by the setters. -/
def SettersOnly (es : List (Ev N ClusterData)) : Prop := ∀ p f, Ev.setData p f ∈ es → Setter f

theorem hits_mem {l : List ℕ} {es : List (Ev N D)} {a : ℕ} {f : D → D} (h : f ∈ hits l es a) : ∃ p, Ev.setData p f ∈ es := by
  induction es generalizing a with
  | nil => cases h
  | cons e es ih =>
    cases e with
    | setData p g =>
      rw [hits] at h
      split at h
      · rcases List.mem_cons.1 h with rfl | h
        · exact ⟨p, List.mem_cons_self ..⟩
        · obtain ⟨q, hq⟩ := ih h; exact ⟨q, List.mem_cons_of_mem _ hq⟩
      · obtain ⟨q, hq⟩ := ih h; exact ⟨q, List.mem_cons_of_mem _ hq⟩
    | create T d =>
      rw [hits] at h
      · split at h
        · obtain ⟨q, hq⟩ := ih h; exact ⟨q, List.mem_cons_of_mem _ hq⟩
        · cases h
      · exact fun _ _ h => nomatch h
    | moveNew T d =>
      rw [hits] at h
      · split at h
        · obtain ⟨q, hq⟩ := ih h; exact ⟨q, List.mem_cons_of_mem _ hq⟩
        · cases h
      · exact fun _ _ h => nomatch h
    | moveAssign T d =>
      rw [hits] at h
      · split at h
        · obtain ⟨q, hq⟩ := ih h; exact ⟨q, List.mem_cons_of_mem _ hq⟩
        · cases h
      · exact fun _ _ h => nomatch h
    | destroy T =>
      rw [hits] at h
      · split at h
        · obtain ⟨q, hq⟩ := ih h; exact ⟨q, List.mem_cons_of_mem _ hq⟩
        · cases h
      · exact fun _ _ h => nomatch h

theorem setters_fold {fs : List (ClusterData → ClusterData)} (h : ∀ f ∈ fs, Setter f) (x : ClusterData) :
    (fs.foldl (fun x f => f x) x).parts = x.parts ∧ (fs.foldl (fun x f => f x) x).root = x.root := by
  induction fs generalizing x with
  | nil => exact ⟨rfl, rfl⟩
  | cons f fs ih =>
    obtain ⟨h1, h2⟩ := ih (fun g hg => h g (List.mem_cons_of_mem _ hg)) (f x)
    obtain ⟨h3, h4⟩ := h f (List.mem_cons_self ..) x
    exact ⟨h1.trans h3, h2.trans h4⟩

/-- C74: a cluster tree constructed at the address `a`, all of whose partition clusters were made by the child constructor, then moved in any way: all nodes keep
their members, `get_clusters_on_partition` still gives the same list of live clusters of that tree, `operator==` still compares (same tree data number), and
`get_root_cluster()` refers to the root of the tree exactly when the tree is back where it was constructed. -/
theorem C74_cluster_tree_partial {gone : N → N} {m m1 m' : TMem N ClusterData} (hm : Reached gone m) {T : Tree (ℕ × N)} {x : ClusterData}
    (hc : Step gone m (.create T x) m1) (hroot : x.root = T.label.1) (hparts : ∀ p ∈ x.parts, ∃ c ∈ inner T, c.label.1 = p)
    {es : List (Ev N ClusterData)} (hrun : Run gone m1 es m') (hset : SettersOnly es) {a' : ℕ} (hf : followAll es T.label.1 = some a') :
    Reads m' a' m.nextD (atRoot a' T) ∧ (m'.data m.nextD).parts = x.parts ∧
    (∀ p ∈ (m'.data m.nextD).parts, ∃ c ∈ inner (atRoot a' T), c.label.1 = p ∧ Reads m' p m.nextD c) ∧
    (m'.data m.nextD).root = T.label.1 ∧
    ((∃ c, m'.cell (m'.data m.nextD).root = some c ∧ c.data = some m.nextD) ↔ a' = T.label.1) := by
  have hm1 := hm.next hc
  obtain ⟨own, hi⟩ := hm.inv
  have hi1 := hi.step hc
  have ho1 : after m own (.create T x) T.label.1 = some (m.nextD, T) := Function.update_self ..
  have hv := hi1.isVar ho1
  have hr := hi1.reads _ _ _ ho1
  obtain ⟨-, h1, h2⟩ := C74_moves hm1 hrun hv hr hf
  have hx : m1.data m.nextD = x := by
    cases hc with
    | create _ _ => exact Function.update_self ..
  have hfold := setters_fold (fs := hits ((inner T).map fun c => c.label.1) es T.label.1) (fun f hf => by
    obtain ⟨p, hp⟩ := hits_mem hf
    exact hset p f hp) x
  rw [hx] at h2
  have hp : (m'.data m.nextD).parts = x.parts := by rw [h2]; exact hfold.1
  have hro : (m'.data m.nextD).root = T.label.1 := by rw [h2]; exact hfold.2.trans hroot
  refine ⟨h1, hp, fun p hpp => ?_, hro, ?_⟩
  · rw [hp] at hpp
    obtain ⟨c, hc1, rfl⟩ := hparts p hpp
    obtain ⟨-, h3, h4⟩ := C74_references hm1 hrun hv hr hf hc1
    exact ⟨c, h4, rfl, h3⟩
  · rw [hro]
    exact C74_root_reference hm1 hrun hv hr hf

/-! ### Examples and the case where the property fails -/

/-- Two clusters below a root constructed at the address 0. -/
def exMoveT : Tree (ℕ × ℕ) := .node (0, 10) [.node (1, 11) [], .node (2, 12) []]

def exMoveData : ClusterData := ⟨[1, 0], 1, 1, 0, false, [1, 2], 0⟩

def exMoveCell (a : ℕ) : Cell ℕ := ⟨10, [1, 2], some a⟩

theorem exMove_shape {m : TMem ℕ ClusterData} {a b : ℕ} (h0 : m.cell a = some (exMoveCell b)) (h1 : m.cell 1 = some ⟨11, [], some b⟩)
    (h2 : m.cell 2 = some ⟨12, [], some b⟩) : Reads m a b (atRoot a exMoveT) := by
  refine ⟨rfl, fun c hc => ?_⟩
  have hc' : c = atRoot a exMoveT ∨ c = .node (1, 11) [] ∨ c = .node (2, 12) [] := by
    rw [pre_eq] at hc
    simpa [inner, exMoveT, atRoot, Tree.pre_node] using hc
  rcases hc' with rfl | rfl | rfl
  · exact h0
  · exact h1
  · exact h2

/-- Construction, move to the address 7 and destruction of the local variable: what a call of `create_cluster_tree` whose result is returned without elision, or is
stored in a `std::shared_ptr<Cluster>` by `make_shared`, does. -/
theorem exMove_history : ∃ m1 m2 m3 : TMem ℕ ClusterData, Step id (empty exMoveData) (.create exMoveT exMoveData) m1 ∧
    Step id m1 (.moveNew 7 0) m2 ∧ Step id m2 (.destroy 0) m3 ∧ m3.cell 7 = some (exMoveCell 0) ∧ m3.cell 0 = none ∧ (m3.data 0).root = 0 := by
  have hs : ∀ x c, fill exMoveT 0 (fun _ => none) x = some c →
      (x = 0 ∧ c = exMoveCell 0) ∨ (x = 1 ∧ c = ⟨11, [], some 0⟩) ∨ (x = 2 ∧ c = ⟨12, [], some 0⟩) := by
    intro x c h
    by_cases hx : x ∈ exMoveT.addrs
    · have hx' : x = 0 ∨ x = 1 ∨ x = 2 := by
        rw [addrs_eq] at hx
        simpa [inner, exMoveT, Tree.pre_node] using hx
      rcases hx' with rfl | rfl | rfl
      · have e : fill exMoveT 0 (fun _ => none) 0 = some (exMoveCell 0) := rfl
        rw [e] at h; injection h with h; exact Or.inl ⟨rfl, h.symm⟩
      · have e : fill exMoveT 0 (fun _ => none) 1 = some (⟨11, [], some 0⟩ : Cell ℕ) := rfl
        rw [e] at h; injection h with h; exact Or.inr (Or.inl ⟨rfl, h.symm⟩)
      · have e : fill exMoveT 0 (fun _ => none) 2 = some (⟨12, [], some 0⟩ : Cell ℕ) := rfl
        rw [e] at h; injection h with h; exact Or.inr (Or.inr ⟨rfl, h.symm⟩)
    · rw [fill_not_mem _ _ _ hx] at h; cases h
  have c1 : Step id (empty exMoveData) (.create exMoveT exMoveData) _ := .create (by decide +kernel) (fun _ _ => rfl)
  have v1 : IsVar (⟨fill exMoveT 0 (fun _ => none), Function.update (fun _ => exMoveData) 0 exMoveData, 1⟩ : TMem ℕ ClusterData) 0 := by
    refine ⟨rfl, fun x c h hk => ?_⟩
    rcases hs x c h with ⟨-, rfl⟩ | ⟨-, rfl⟩ | ⟨-, rfl⟩
    · exact absurd hk (by decide)
    · cases hk
    · cases hk
  have c2 := Step.moveNew (gone := id) (m := (⟨fill exMoveT 0 (fun _ => none), Function.update (fun _ => exMoveData) 0 exMoveData, 1⟩ : TMem ℕ ClusterData))
    (dst := 7) (src := 0) (c := exMoveCell 0) rfl v1 rfl
  refine ⟨_, _, _, c1, c2, .destroy (T := .node (0, 10) []) ?_ rfl ?_, rfl, rfl, rfl⟩
  · refine ⟨rfl, fun x c h hk => ?_⟩
    by_cases h0 : x = 0
    · subst h0
      have e : c = (exMoveCell 0).moved id := by injection h with h; exact h.symm
      subst e; cases hk
    · by_cases h7 : x = 7
      · subst h7
        have e : c = exMoveCell 0 := by injection h with h; exact h.symm
        subst e
        exact absurd hk (by decide)
      · have e : fill exMoveT 0 (fun _ => none) x = some c := by
          rw [← h]
          exact ((Function.update_of_ne h0 ..).trans (Function.update_of_ne h7 ..)).symm
        rcases hs x c e with ⟨-, rfl⟩ | ⟨-, rfl⟩ | ⟨-, rfl⟩
        · exact absurd hk (by decide)
        · cases hk
        · cases hk
  · intro k hk
    rw [pre_eq] at hk
    simp only [inner, Tree.children_node, List.flatMap_nil, List.mem_singleton] at hk
    subst hk
    exact ⟨none, rfl⟩

/-- C74 is false for `get_root_cluster`: a cluster tree that is still owned by a variable, whose `get_root_cluster()` refers to a destroyed object. -/
theorem C74_root_cluster_false : ¬ ∀ (m m1 m' : TMem ℕ ClusterData) (T : Tree (ℕ × ℕ)) (x : ClusterData) (es : List (Ev ℕ ClusterData)) (a' : ℕ),
    Reached id m → Step id m (.create T x) m1 → x.root = T.label.1 → Run id m1 es m' → SettersOnly es → followAll es T.label.1 = some a' →
    ∃ c, m'.cell (m'.data m.nextD).root = some c ∧ c.data = some m.nextD := by
  intro h
  obtain ⟨m1, m2, m3, h1, h2, h3, h4, h5, h6⟩ := exMove_history
  obtain ⟨c, hc, -⟩ := h (empty exMoveData) m1 m3 exMoveT exMoveData [.moveNew 7 0, .destroy 0] 7 ⟨exMoveData, [], .nil _⟩ h1 rfl
    (.cons h2 (.cons h3 (.nil _))) (by intro p f hp; simp at hp) rfl
  have e : (m3.data (empty (N := ℕ) exMoveData).nextD).root = 0 := h6
  rw [e, h5] at hc
  cases hc

/-- The hypotheses of the C74 theorems are met: the tree is followed to the address 7 and its partition clusters are live. -/
example : ∃ m3 : TMem ℕ ClusterData, Reads m3 7 0 (atRoot 7 exMoveT) ∧ (m3.data 0).parts = [1, 2] ∧ m3.cell 0 = none := by
  obtain ⟨m1, m2, m3, h1, h2, h3, h4, h5, h6⟩ := exMove_history
  obtain ⟨r1, r2, -⟩ := C74_cluster_tree_partial (gone := id) ⟨exMoveData, [], .nil _⟩ h1 rfl
    (by intro p hp
        have hp' : p = 1 ∨ p = 2 := by simpa [exMoveData] using hp
        rcases hp' with rfl | rfl
        · exact ⟨.node (1, 11) [], by simp [inner, exMoveT, Tree.pre_node], rfl⟩
        · exact ⟨.node (2, 12) [], by simp [inner, exMoveT, Tree.pre_node], rfl⟩)
    (.cons h2 (.cons h3 (.nil _))) (by intro p f hp; simp at hp) (a' := 7) rfl
  exact ⟨m3, r1, r2, h5⟩

end Htool.TreeMoves
