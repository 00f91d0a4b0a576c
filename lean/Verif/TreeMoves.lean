import Verif.HBuild

/-! # Memory of trees which are moved

`TreeNode` (`include/htool/basic_types/tree.hpp` 21-64) and its derived class `Cluster` (`include/htool/clustering/cluster_node.hpp` 15-82): the children are owned
(`std::vector<std::unique_ptr<Derived>>`), the tree data is shared by all nodes (`std::shared_ptr<TreeData>`), moves are defaulted. `N` are the own members of a
node, `D` the tree data. -/

namespace Htool.TreeMoves
variable {N D : Type*}

/-- A node in memory: own members, addresses of the children, tree data (`none`: null pointer). -/
structure Cell (N : Type*) where
  own : N
  kids : List ℕ
  data : Option ℕ

/-- Memory: the live nodes, the tree data objects, and the number of tree data objects made so far. A tree data object is only reached through a node that
shares it, so its end of life is not observable. -/
structure TMem (N D : Type*) where
  cell : ℕ → Option (Cell N)
  data : ℕ → D
  nextD : ℕ

/-- Events: `create T d` is the construction of a tree with its root at the address `T.label.1` (root constructor, cluster_node.hpp 28-32, then `add_child`,
tree.hpp 38-44, whose copy of the base shares the tree data, tree.hpp 36); move construction and move assignment (tree.hpp 32-33, cluster_node.hpp 47-48);
destruction; a setter that changes the tree data through a node (cluster_node.hpp 75-78). -/
inductive Ev (N D : Type*) where
  | create (T : Tree (ℕ × N)) (d : D)
  | moveNew (dst src : ℕ)
  | moveAssign (dst src : ℕ)
  | destroy (a : ℕ)
  | setData (p : ℕ) (f : D → D)

/-- Memory holds the tree `T`: own members and children, whatever the tree data. -/
def Shape (m : TMem N D) (T : Tree (ℕ × N)) : Prop :=
  ∀ c ∈ T.pre, ∃ d, m.cell c.label.1 = some ⟨c.label.2, c.children.map fun k => k.label.1, d⟩

/-- A variable of the user: a live node which is not a child. -/
def IsVar (m : TMem N D) (a : ℕ) : Prop := (m.cell a).isSome ∧ ∀ x c, m.cell x = some c → a ∉ c.kids

/-- A moved-from node: no children (a moved-from vector of `std::vector` is empty), null tree data. `gone` is the effect of the move on the own members. -/
def Cell.moved (gone : N → N) (c : Cell N) : Cell N := ⟨gone c.own, [], none⟩

/-- Memory of a tree just made, all of whose nodes share the tree data number `d`. -/
def fill (T : Tree (ℕ × N)) (d : ℕ) (cell : ℕ → Option (Cell N)) : ℕ → Option (Cell N) :=
  T.pre.foldl (fun f c => Function.update f c.label.1 (some ⟨c.label.2, c.children.map fun k => k.label.1, some d⟩)) cell

/-- Deallocation. -/
def release (l : List ℕ) (cell : ℕ → Option (Cell N)) : ℕ → Option (Cell N) := fun x => if x ∈ l then none else cell x

/-- Effect of an event. In `moveAssign` and `destroy`, `T` is the tree found in memory at the variable; its nodes are destroyed, except the variable assigned to.
`moveNew` and `moveAssign` are for variables: nobody moves from inside a tree. -/
inductive Step (gone : N → N) : TMem N D → Ev N D → TMem N D → Prop
  | create {m : TMem N D} {T : Tree (ℕ × N)} {d : D} (hn : T.addrs.Nodup) (hf : ∀ x ∈ T.addrs, m.cell x = none) :
      Step gone m (.create T d) ⟨fill T m.nextD m.cell, Function.update m.data m.nextD d, m.nextD + 1⟩
  | moveNew {m : TMem N D} {dst src : ℕ} {c : Cell N} (hs : m.cell src = some c) (hv : IsVar m src) (hd : m.cell dst = none) :
      Step gone m (.moveNew dst src) { m with cell := Function.update (Function.update m.cell dst (some c)) src (some (c.moved gone)) }
  | moveAssign {m : TMem N D} {dst src : ℕ} {c : Cell N} {T : Tree (ℕ × N)} (hs : m.cell src = some c) (hv : IsVar m src) (hd : IsVar m dst) (hne : dst ≠ src)
      (ha : T.label.1 = dst) (hT : Shape m T) :
      Step gone m (.moveAssign dst src)
        { m with cell := Function.update (Function.update (release T.addrs m.cell) dst (some c)) src (some (c.moved gone)) }
  | destroy {m : TMem N D} {a : ℕ} {T : Tree (ℕ × N)} (hv : IsVar m a) (ha : T.label.1 = a) (hT : Shape m T) :
      Step gone m (.destroy a) { m with cell := release T.addrs m.cell }
  | setData {m : TMem N D} {p : ℕ} {f : D → D} {c : Cell N} {d : ℕ} (hp : m.cell p = some c) (hd : c.data = some d) :
      Step gone m (.setData p f) { m with data := Function.update m.data d (f (m.data d)) }

/-- Histories. -/
inductive Run (gone : N → N) : TMem N D → List (Ev N D) → TMem N D → Prop
  | nil (m) : Run gone m [] m
  | cons {m m1 m2 : TMem N D} {e : Ev N D} {es : List (Ev N D)} : Step gone m e m1 → Run gone m1 es m2 → Run gone m (e :: es) m2

/-- No node. -/
def empty (d : D) : TMem N D := ⟨fun _ => none, fun _ => d, 0⟩

/-- Memory holds at the address `a` the tree `T`, whose nodes all share the tree data number `d`. -/
def Reads (m : TMem N D) (a d : ℕ) (T : Tree (ℕ × N)) : Prop :=
  T.label.1 = a ∧ ∀ c ∈ T.pre, m.cell c.label.1 = some ⟨c.label.2, c.children.map fun k => k.label.1, some d⟩

/-- The same tree with its root at the address `a`. -/
def atRoot (a : ℕ) : Tree (ℕ × N) → Tree (ℕ × N)
  | .node l cs => .node (a, l.2) cs

/-! ## Lemmas -/

@[simp] theorem atRoot_label (a : ℕ) (T : Tree (ℕ × N)) : (atRoot a T).label = (a, T.label.2) := by cases T; rfl
@[simp] theorem atRoot_children (a : ℕ) (T : Tree (ℕ × N)) : (atRoot a T).children = T.children := by cases T; rfl
theorem atRoot_atRoot (a b : ℕ) (T : Tree (ℕ × N)) : atRoot a (atRoot b T) = atRoot a T := by cases T; rfl
theorem atRoot_self {a : ℕ} {T : Tree (ℕ × N)} (h : T.label.1 = a) : atRoot a T = T := by
  cases T with
  | node l cs => obtain ⟨x, y⟩ := l; cases h; rfl

/-- Nodes below the root. -/
def inner (T : Tree (ℕ × N)) : List (Tree (ℕ × N)) := T.children.flatMap Tree.pre

theorem pre_eq (T : Tree (ℕ × N)) : T.pre = T :: inner T := by
  cases T with
  | node l cs => rw [Tree.pre_node]; rfl

theorem addrs_eq (T : Tree (ℕ × N)) : T.addrs = T.label.1 :: (inner T).map fun c => c.label.1 := by
  unfold Tree.addrs; rw [pre_eq]; rfl

@[simp] theorem inner_atRoot (a : ℕ) (T : Tree (ℕ × N)) : inner (atRoot a T) = inner T := by unfold inner; rw [atRoot_children]

theorem Reads.shape {m : TMem N D} {a d : ℕ} {T : Tree (ℕ × N)} (h : Reads m a d T) : Shape m T := fun c hc => ⟨some d, h.2 c hc⟩

theorem shape_unique {m : TMem N D} {T T' : Tree (ℕ × N)} (h : Shape m T) (h' : Shape m T') (ha : T.label.1 = T'.label.1) : T = T' := by
  induction T using Tree.ind generalizing T' with
  | h l cs ih =>
    obtain ⟨d, e⟩ := h _ (Tree.mem_pre_self _)
    obtain ⟨d', e'⟩ := h' _ (Tree.mem_pre_self _)
    rw [ha, e'] at e
    injection e with e
    cases T' with
    | node l' cs' =>
      obtain ⟨x, y⟩ := l
      obtain ⟨x', y'⟩ := l'
      simp only [Tree.label_node, Tree.children_node, Cell.mk.injEq] at e ha
      obtain ⟨e1, e2, -⟩ := e
      subst e1 ha
      congr 1
      have hk : ∀ c ∈ cs, Shape m c := fun c hc k hk => h k (by rw [Tree.pre_node]; exact List.mem_cons_of_mem _ (List.mem_flatMap.2 ⟨c, hc, hk⟩))
      have hk' : ∀ c ∈ cs', Shape m c := fun c hc k hk => h' k (by rw [Tree.pre_node]; exact List.mem_cons_of_mem _ (List.mem_flatMap.2 ⟨c, hc, hk⟩))
      clear h h' e'
      induction cs generalizing cs' with
      | nil => cases cs' with
        | nil => rfl
        | cons c cs' => simp at e2
      | cons c cs ihc => cases cs' with
        | nil => simp at e2
        | cons c' cs' =>
          rw [List.map_cons, List.map_cons, List.cons.injEq] at e2
          rw [ih c (by simp) (hk c (by simp)) (hk' c' (by simp)) e2.1.symm,
            ihc (fun c hc => ih c (by simp [hc])) cs' e2.2 (fun c hc => hk c (by simp [hc])) (fun c hc => hk' c (by simp [hc]))]

theorem Reads.unique {m : TMem N D} {a d d' : ℕ} {T T' : Tree (ℕ × N)} (h : Reads m a d T) (h' : Reads m a d' T') : d = d' ∧ T = T' := by
  have e := shape_unique h.shape h'.shape (h.1.trans h'.1.symm)
  subst e
  have e1 := h.2 _ (Tree.mem_pre_self _)
  rw [h'.2 _ (Tree.mem_pre_self _)] at e1
  injection e1 with e1
  injection e1 with _ _ e1
  injection e1 with e1
  exact ⟨e1.symm, rfl⟩

theorem fillList_not_mem (d : ℕ) (l : List (Tree (ℕ × N))) (f : ℕ → Option (Cell N)) {x : ℕ} (h : x ∉ l.map fun c => c.label.1) :
    l.foldl (fun (f : ℕ → Option (Cell N)) (c : Tree (ℕ × N)) => Function.update f c.label.1 (some ⟨c.label.2, c.children.map fun k => k.label.1, some d⟩)) f x
      = f x := by
  induction l generalizing f with
  | nil => rfl
  | cons c l ih =>
    rw [List.map_cons, List.mem_cons, not_or] at h
    rw [List.foldl_cons, ih _ h.2, Function.update_of_ne h.1]

theorem fill_not_mem (T : Tree (ℕ × N)) (d : ℕ) (f : ℕ → Option (Cell N)) {x : ℕ} (h : x ∉ T.addrs) : fill T d f x = f x :=
  fillList_not_mem d T.pre f h

theorem fillList_mem (d : ℕ) (l : List (Tree (ℕ × N))) (f : ℕ → Option (Cell N)) (hn : (l.map fun c => c.label.1).Nodup) {c : Tree (ℕ × N)} (hc : c ∈ l) :
    l.foldl (fun (f : ℕ → Option (Cell N)) (c : Tree (ℕ × N)) => Function.update f c.label.1 (some ⟨c.label.2, c.children.map fun k => k.label.1, some d⟩)) f
      c.label.1 = some ⟨c.label.2, c.children.map fun k => k.label.1, some d⟩ := by
  induction l generalizing f with
  | nil => cases hc
  | cons b l ih =>
    rw [List.map_cons, List.nodup_cons] at hn
    rw [List.foldl_cons]
    rcases List.mem_cons.1 hc with rfl | hc
    · rw [fillList_not_mem d l _ hn.1, Function.update_self]
    · exact ih _ hn.2 hc

theorem fill_mem {T : Tree (ℕ × N)} (d : ℕ) (f : ℕ → Option (Cell N)) (hn : T.addrs.Nodup) {c : Tree (ℕ × N)} (hc : c ∈ T.pre) :
    fill T d f c.label.1 = some ⟨c.label.2, c.children.map fun k => k.label.1, some d⟩ :=
  fillList_mem d T.pre f hn hc

/-! ## Invariant -/

/-- `own a = some (d, T)`: the variable `a` holds the tree `T` with tree data `d`. Every live node is a moved-from variable or belongs to one of these trees; they
do not share nodes or tree data. -/
structure Inv (m : TMem N D) (own : ℕ → Option (ℕ × Tree (ℕ × N))) : Prop where
  reads : ∀ a d T, own a = some (d, T) → Reads m a d T
  nodup : ∀ a d T, own a = some (d, T) → T.addrs.Nodup
  disj : ∀ a d T a' d' T', own a = some (d, T) → own a' = some (d', T') → a ≠ a' → d ≠ d' ∧ ∀ x ∈ T.addrs, x ∉ T'.addrs
  cover : ∀ x c, m.cell x = some c → (c.kids = [] ∧ c.data = none) ∨ ∃ a d T, own a = some (d, T) ∧ x ∈ T.addrs
  fresh : ∀ a d T, own a = some (d, T) → d < m.nextD

theorem inv_empty (d : D) : Inv (empty (N := N) d) fun _ => none := by
  refine ⟨?_, ?_, ?_, ?_, ?_⟩
  · intro _ _ _ h; simp at h
  · intro _ _ _ h; simp at h
  · intro _ _ _ _ _ _ h; simp at h
  · intro _ _ h; simp [empty] at h
  · intro _ _ _ h; simp at h

theorem Inv.alive {m : TMem N D} {own : ℕ → Option (ℕ × Tree (ℕ × N))} (h : Inv m own) {a d : ℕ} {T : Tree (ℕ × N)} (ho : own a = some (d, T)) {x : ℕ}
    (hx : x ∈ T.addrs) : ∃ c, m.cell x = some c ∧ c.data = some d := by
  obtain ⟨c, hc, rfl⟩ := List.mem_map.1 hx
  exact ⟨_, (h.reads a d T ho).2 c hc, rfl⟩

theorem root_mem (T : Tree (ℕ × N)) : T.label.1 ∈ T.addrs := List.mem_map.2 ⟨T, Tree.mem_pre_self T, rfl⟩

/-- A node of a tree is the root or a child of a node of the tree. -/
theorem mem_addrs_cases (T : Tree (ℕ × N)) {x : ℕ} (hx : x ∈ T.addrs) : x = T.label.1 ∨ ∃ c ∈ T.pre, x ∈ c.children.map fun k => k.label.1 := by
  induction T using Tree.ind with
  | h l cs ih =>
    rw [Tree.addrs_node, List.mem_cons] at hx
    rcases hx with rfl | hx
    · exact Or.inl rfl
    · obtain ⟨c, hc, hx⟩ := List.mem_flatMap.1 hx
      rcases ih c hc hx with rfl | ⟨k, hk, hx⟩
      · exact Or.inr ⟨_, Tree.mem_pre_self _, List.mem_map.2 ⟨c, hc, rfl⟩⟩
      · exact Or.inr ⟨k, by rw [Tree.pre_node]; exact List.mem_cons_of_mem _ (List.mem_flatMap.2 ⟨c, hc, hk⟩), hx⟩

/-- A variable is moved-from, or the root of its own tree. -/
theorem Inv.var {m : TMem N D} {own : ℕ → Option (ℕ × Tree (ℕ × N))} (h : Inv m own) {a : ℕ} (ha : IsVar m a) :
    (∃ c, m.cell a = some c ∧ c.kids = [] ∧ c.data = none ∧ own a = none) ∨ ∃ d T, own a = some (d, T) := by
  obtain ⟨h1, h2⟩ := ha
  obtain ⟨c, hc⟩ := Option.isSome_iff_exists.1 h1
  rcases h.cover a c hc with ⟨h3, h4⟩ | ⟨b, d, T, hb, hx⟩
  · left
    refine ⟨c, hc, h3, h4, ?_⟩
    cases ho : own a with
    | none => rfl
    | some p =>
      obtain ⟨d, T⟩ := p
      have hr := h.reads a d T ho
      obtain ⟨c', e1, e2⟩ := h.alive ho (hr.1 ▸ root_mem T)
      rw [hc] at e1; injection e1 with e1
      rw [← e1, h4] at e2; cases e2
  · right
    have hr := h.reads b d T hb
    rcases mem_addrs_cases T hx with e | ⟨k, hk, hx⟩
    · refine ⟨d, T, ?_⟩
      rw [e, hr.1]; exact hb
    · exact absurd hx (h2 _ _ (hr.2 k hk))

theorem Reads.congr {m m' : TMem N D} {a d : ℕ} {T : Tree (ℕ × N)} (h : Reads m a d T) (he : ∀ x ∈ T.addrs, m'.cell x = m.cell x) : Reads m' a d T :=
  ⟨h.1, fun c hc => by rw [he _ (List.mem_map.2 ⟨c, hc, rfl⟩)]; exact h.2 c hc⟩

/-- The root of a tree has moved. -/
theorem Reads.move {m m' : TMem N D} {a b d : ℕ} {T : Tree (ℕ × N)} (h : Reads m a d T) (hb : m'.cell b = m.cell a)
    (he : ∀ c ∈ inner T, m'.cell c.label.1 = m.cell c.label.1) : Reads m' b d (atRoot b T) := by
  refine ⟨by rw [atRoot_label], fun c hc => ?_⟩
  rw [pre_eq, inner_atRoot, List.mem_cons] at hc
  rcases hc with rfl | hc
  · rw [atRoot_label, atRoot_children, hb, ← h.1]
    exact h.2 T (Tree.mem_pre_self T)
  · rw [he c hc]
    exact h.2 c (by rw [pre_eq]; exact List.mem_cons_of_mem _ hc)

theorem mem_atRoot {b : ℕ} {T : Tree (ℕ × N)} {x : ℕ} : x ∈ (atRoot b T).addrs ↔ x = b ∨ ∃ c ∈ inner T, c.label.1 = x := by
  rw [addrs_eq, atRoot_label, inner_atRoot, List.mem_cons, List.mem_map]

theorem mem_addrs_iff {T : Tree (ℕ × N)} {x : ℕ} : x ∈ T.addrs ↔ x = T.label.1 ∨ ∃ c ∈ inner T, c.label.1 = x := by
  rw [addrs_eq, List.mem_cons, List.mem_map]

theorem inner_mem {T : Tree (ℕ × N)} {c : Tree (ℕ × N)} (hc : c ∈ inner T) : c.label.1 ∈ T.addrs := mem_addrs_iff.2 (Or.inr ⟨c, hc, rfl⟩)

theorem inner_ne_root {T : Tree (ℕ × N)} (hn : T.addrs.Nodup) {c : Tree (ℕ × N)} (hc : c ∈ inner T) : c.label.1 ≠ T.label.1 := by
  rw [addrs_eq, List.nodup_cons] at hn
  intro e
  exact hn.1 (e ▸ List.mem_map.2 ⟨c, hc, rfl⟩)

theorem nodup_atRoot {b : ℕ} {T : Tree (ℕ × N)} (hn : T.addrs.Nodup) (hb : b ∉ (inner T).map fun c => c.label.1) : (atRoot b T).addrs.Nodup := by
  rw [addrs_eq, List.nodup_cons] at hn
  rw [addrs_eq, atRoot_label, inner_atRoot, List.nodup_cons]
  exact ⟨hb, hn.2⟩

abbrev Own (N : Type*) := ℕ → Option (ℕ × Tree (ℕ × N))

theorem Inv.var_tree {m : TMem N D} {own : Own N} (h : Inv m own) {a d : ℕ} {T : Tree (ℕ × N)} (ha : IsVar m a) (hr : Reads m a d T) : own a = some (d, T) := by
  rcases h.var ha with ⟨c, hc, -, h4, -⟩ | ⟨d', T', ho⟩
  · have e := hr.2 T (Tree.mem_pre_self T)
    rw [hr.1, hc] at e
    injection e with e
    rw [e] at h4; cases h4
  · obtain ⟨rfl, rfl⟩ := hr.unique (h.reads _ _ _ ho)
    exact ho

theorem pre_trans {a b c : Tree (ℕ × N)} (h1 : b ∈ a.pre) (h2 : c ∈ b.pre) : c ∈ a.pre := by
  induction a using Tree.ind with
  | h l cs ih =>
    rw [Tree.pre_node, List.mem_cons] at h1
    rcases h1 with rfl | h1
    · exact h2
    · obtain ⟨k, hk, h1⟩ := List.mem_flatMap.1 h1
      rw [Tree.pre_node]
      exact List.mem_cons_of_mem _ (List.mem_flatMap.2 ⟨k, hk, ih k hk h1⟩)

/-- The variable of a tree is not a child. -/
theorem Inv.isVar {m : TMem N D} {own : Own N} (h : Inv m own) {a d : ℕ} {T : Tree (ℕ × N)} (ho : own a = some (d, T)) : IsVar m a := by
  have hr := h.reads _ _ _ ho
  have ha : a ∈ T.addrs := hr.1 ▸ root_mem T
  obtain ⟨c, hc, -⟩ := h.alive ho ha
  refine ⟨by rw [hc]; rfl, fun x k hx hk => ?_⟩
  rcases h.cover x k hx with ⟨h1, -⟩ | ⟨b, d', T', hb, hx'⟩
  · rw [h1] at hk; cases hk
  · obtain ⟨t, ht, rfl⟩ := List.mem_map.1 hx'
    have e := (h.reads _ _ _ hb).2 t ht
    rw [hx] at e; injection e with e
    rw [e] at hk
    obtain ⟨q, hq, hqa⟩ := List.mem_map.1 hk
    have hin : q ∈ inner T' := by
      rw [pre_eq, List.mem_cons] at ht
      rcases ht with rfl | ht
      · exact List.mem_flatMap.2 ⟨q, hq, Tree.mem_pre_self q⟩
      · obtain ⟨r, hr1, hr2⟩ := List.mem_flatMap.1 ht
        exact List.mem_flatMap.2 ⟨r, hr1, pre_trans hr2 (by
          cases t with
          | node l cs => rw [Tree.pre_node]; exact List.mem_cons_of_mem _ (List.mem_flatMap.2 ⟨q, hq, Tree.mem_pre_self q⟩))⟩
    by_cases hab : a = b
    · subst hab
      rw [ho] at hb; injection hb with hb; injection hb with hb1 hb2; subst hb1 hb2
      exact inner_ne_root (h.nodup _ _ _ ho) hin (hqa.trans hr.1.symm)
    · exact (h.disj _ _ _ _ _ _ ho hb hab).2 a ha (hqa ▸ inner_mem hin)

/-! ## Preservation -/

theorem Inv.create {m : TMem N D} {own : Own N} (h : Inv m own) {T : Tree (ℕ × N)} (d : D) (hn : T.addrs.Nodup) (hf : ∀ x ∈ T.addrs, m.cell x = none) :
    Inv ⟨fill T m.nextD m.cell, Function.update m.data m.nextD d, m.nextD + 1⟩ (Function.update own T.label.1 (some (m.nextD, T))) := by
  have hx : ∀ a d' T', own a = some (d', T') → ∀ x ∈ T'.addrs, x ∉ T.addrs := by
    intro a d' T' ho x hx1 hx2
    obtain ⟨c, hc, -⟩ := h.alive ho hx1
    rw [hf x hx2] at hc; cases hc
  have key : ∀ a d' T', Function.update own T.label.1 (some (m.nextD, T)) a = some (d', T') →
      (a = T.label.1 ∧ d' = m.nextD ∧ T' = T) ∨ (a ≠ T.label.1 ∧ own a = some (d', T')) := by
    intro a d' T' ho
    by_cases ha : a = T.label.1
    · subst ha
      rw [Function.update_self] at ho
      injection ho with ho; injection ho with h1 h2
      exact Or.inl ⟨rfl, h1.symm, h2.symm⟩
    · rw [Function.update_of_ne ha] at ho
      exact Or.inr ⟨ha, ho⟩
  refine ⟨?_, ?_, ?_, ?_, ?_⟩
  · intro a d' T' ho
    replace ho := key _ _ _ ho
    rcases ho with ⟨rfl, rfl, rfl⟩ | ⟨-, ho⟩
    · exact ⟨rfl, fun c hc => fill_mem _ _ hn hc⟩
    · exact (h.reads _ _ _ ho).congr fun x hx1 => fill_not_mem _ _ _ (hx _ _ _ ho x hx1)
  · intro a d' T' ho
    replace ho := key _ _ _ ho
    rcases ho with ⟨rfl, rfl, rfl⟩ | ⟨-, ho⟩
    · exact hn
    · exact h.nodup _ _ _ ho
  · intro a d1 T1 a' d2 T2 h1 h2 hne
    replace h1 := key _ _ _ h1
    rcases h1 with ⟨rfl, rfl, rfl⟩ | ⟨-, h1⟩
    · replace h2 := key _ _ _ h2
      rcases h2 with ⟨rfl, rfl, rfl⟩ | ⟨-, h2⟩
      · exact absurd rfl hne
      · exact ⟨(h.fresh _ _ _ h2).ne', fun x hx1 hx2 => hx _ _ _ h2 x hx2 hx1⟩
    · replace h2 := key _ _ _ h2
      rcases h2 with ⟨rfl, rfl, rfl⟩ | ⟨-, h2⟩
      · exact ⟨(h.fresh _ _ _ h1).ne, hx _ _ _ h1⟩
      · exact h.disj _ _ _ _ _ _ h1 h2 hne
  · intro x c hc
    by_cases hx1 : x ∈ T.addrs
    · exact Or.inr ⟨_, _, _, Function.update_self .., hx1⟩
    · change fill T m.nextD m.cell x = some c at hc
      rw [fill_not_mem _ _ _ hx1] at hc
      rcases h.cover x c hc with h1 | ⟨a, d', T', ho, hx2⟩
      · exact Or.inl h1
      · refine Or.inr ⟨a, d', T', ?_, hx2⟩
        rw [Function.update_of_ne]
        · exact ho
        · rintro rfl
          exact hx _ _ _ ho _ ((h.reads _ _ _ ho).1 ▸ root_mem T') (root_mem T)
  · intro a d' T' ho
    replace ho := key _ _ _ ho
    rcases ho with ⟨rfl, rfl, rfl⟩ | ⟨-, ho⟩
    · exact Nat.lt_succ_self _
    · exact (h.fresh _ _ _ ho).trans (Nat.lt_succ_self _)

theorem Inv.destroy {m : TMem N D} {own : Own N} (h : Inv m own) {a : ℕ} {T : Tree (ℕ × N)} (hv : IsVar m a) (ha : T.label.1 = a) (hT : Shape m T) :
    Inv { m with cell := release T.addrs m.cell } (Function.update own a none) := by
  have key : ∀ b d' T', Function.update own a none b = some (d', T') → b ≠ a ∧ own b = some (d', T') := by
    intro b d' T' ho
    by_cases hb : b = a
    · subst hb; rw [Function.update_self] at ho; cases ho
    · rw [Function.update_of_ne hb] at ho; exact ⟨hb, ho⟩
  have hx : ∀ b d' T', b ≠ a → own b = some (d', T') → ∀ x ∈ T'.addrs, x ∉ T.addrs := by
    intro b d' T' hb ho x hx1 hx2
    rcases h.var hv with ⟨c, hc, hk, hd, -⟩ | ⟨d, T1, h1⟩
    · obtain ⟨d, e⟩ := hT T (Tree.mem_pre_self T)
      rw [ha, hc] at e; injection e with e
      rw [e] at hk
      have h0 : T.children = [] := List.map_eq_nil_iff.1 hk
      rw [mem_addrs_iff] at hx2
      unfold inner at hx2
      rw [h0] at hx2
      have e2 : x = a := by simpa [ha] using hx2
      obtain ⟨c', hc', hd'⟩ := h.alive ho hx1
      rw [e2, hc] at hc'; injection hc' with hc'
      rw [← hc', hd] at hd'; cases hd'
    · have e := shape_unique hT (h.reads _ _ _ h1).shape (ha.trans (h.reads _ _ _ h1).1.symm)
      rw [e] at hx2
      exact (h.disj _ _ _ _ _ _ ho h1 hb).2 x hx1 hx2
  refine ⟨?_, ?_, ?_, ?_, ?_⟩
  · intro b d' T' ho
    obtain ⟨hb, ho⟩ := key _ _ _ ho
    exact (h.reads _ _ _ ho).congr fun x hx1 => if_neg (hx _ _ _ hb ho x hx1)
  · intro b d' T' ho
    exact h.nodup _ _ _ (key _ _ _ ho).2
  · intro b d1 T1 b' d2 T2 h1 h2 hne
    exact h.disj _ _ _ _ _ _ (key _ _ _ h1).2 (key _ _ _ h2).2 hne
  · intro x c hc
    change (if x ∈ T.addrs then none else m.cell x) = some c at hc
    by_cases hx1 : x ∈ T.addrs
    · rw [if_pos hx1] at hc; cases hc
    · rw [if_neg hx1] at hc
      rcases h.cover x c hc with h1 | ⟨b, d', T', ho, hx2⟩
      · exact Or.inl h1
      · refine Or.inr ⟨b, d', T', ?_, hx2⟩
        rw [Function.update_of_ne]
        · exact ho
        · rintro rfl
          have e := shape_unique hT (h.reads _ _ _ ho).shape (ha.trans (h.reads _ _ _ ho).1.symm)
          rw [e] at hx1
          exact hx1 hx2
  · intro b d' T' ho
    exact h.fresh _ _ _ (key _ _ _ ho).2

theorem Inv.moveNew {m : TMem N D} {own : Own N} (gone : N → N) (h : Inv m own) {dst src : ℕ} {c : Cell N} (hs : m.cell src = some c) (hv : IsVar m src)
    (hd : m.cell dst = none) :
    Inv { m with cell := Function.update (Function.update m.cell dst (some c)) src (some (c.moved gone)) }
      (Function.update (Function.update own dst ((own src).map fun p => (p.1, atRoot dst p.2))) src none) := by
  have hne : dst ≠ src := by rintro rfl; rw [hd] at hs; cases hs
  have hdst : ∀ b d' T', own b = some (d', T') → dst ∉ T'.addrs := by
    intro b d' T' ho hx
    obtain ⟨c', hc', -⟩ := h.alive ho hx
    rw [hd] at hc'; cases hc'
  have key : ∀ b d' T', Function.update (Function.update own dst ((own src).map fun p => (p.1, atRoot dst p.2))) src none b = some (d', T') →
      b ≠ src ∧ ((b = dst ∧ ∃ T, own src = some (d', T) ∧ T' = atRoot dst T) ∨ (b ≠ dst ∧ own b = some (d', T'))) := by
    intro b d' T' ho
    by_cases hb : b = src
    · subst hb; rw [Function.update_self] at ho; cases ho
    · rw [Function.update_of_ne hb] at ho
      refine ⟨hb, ?_⟩
      by_cases hb2 : b = dst
      · subst hb2
        rw [Function.update_self] at ho
        obtain ⟨⟨d1, T1⟩, h1, h2⟩ := Option.map_eq_some_iff.1 ho
        injection h2 with h2 h3
        subst h2 h3
        exact Or.inl ⟨rfl, T1, h1, rfl⟩
      · rw [Function.update_of_ne hb2] at ho
        exact Or.inr ⟨hb2, ho⟩
  have hsrc : ∀ b d' T', b ≠ src → own b = some (d', T') → src ∉ T'.addrs := by
    intro b d' T' hb ho hx
    rcases mem_addrs_cases T' hx with e | ⟨k, hk, hx⟩
    · exact hb (((h.reads _ _ _ ho).1.symm.trans e.symm))
    · exact hv.2 _ _ ((h.reads _ _ _ ho).2 k hk) hx
  have hrt : ∀ d' T, own src = some (d', T) → T.label.1 = src := fun d' T ho => (h.reads _ _ _ ho).1
  have hroot : ∀ d' T, own src = some (d', T) → ∀ k ∈ inner T, k.label.1 ≠ src ∧ k.label.1 ≠ dst := by
    intro d' T ho k hk
    refine ⟨fun e => inner_ne_root (h.nodup _ _ _ ho) hk (e.trans (hrt _ _ ho).symm), fun e => hdst _ _ _ ho (e ▸ inner_mem hk)⟩
  refine ⟨?_, ?_, ?_, ?_, ?_⟩
  · intro b d' T' ho
    replace ho := key _ _ _ ho
    obtain ⟨hb, ⟨rfl, T, ho, rfl⟩ | ⟨hb2, ho⟩⟩ := ho
    · refine (h.reads _ _ _ ho).move ?_ ?_
      · exact (Function.update_of_ne hne ..).trans ((Function.update_self ..).trans hs.symm)
      · intro k hk
        obtain ⟨h1, h2⟩ := hroot _ _ ho k hk
        exact (Function.update_of_ne h1 ..).trans (Function.update_of_ne h2 ..)
    · refine (h.reads _ _ _ ho).congr fun x hx => ?_
      have h1 : x ≠ src := fun e => hsrc _ _ _ hb ho (e ▸ hx)
      have h2 : x ≠ dst := fun e => hdst _ _ _ ho (e ▸ hx)
      exact (Function.update_of_ne h1 ..).trans (Function.update_of_ne h2 ..)
  · intro b d' T' ho
    replace ho := key _ _ _ ho
    obtain ⟨hb, ⟨rfl, T, ho, rfl⟩ | ⟨hb2, ho⟩⟩ := ho
    · refine nodup_atRoot (h.nodup _ _ _ ho) fun hx => ?_
      obtain ⟨k, hk, e⟩ := List.mem_map.1 hx
      exact (hroot _ _ ho k hk).2 e
    · exact h.nodup _ _ _ ho
  · intro b d1 T1 b' d2 T2 h1 h2 hbb
    replace h1 := key _ _ _ h1
    obtain ⟨hb, ⟨rfl, T, h1, rfl⟩ | ⟨hb2, h1⟩⟩ := h1
    · replace h2 := key _ _ _ h2
      obtain ⟨hb', ⟨rfl, T', h2, rfl⟩ | ⟨hb2', h2⟩⟩ := h2
      · exact absurd rfl hbb
      · obtain ⟨e1, e2⟩ := h.disj _ _ _ _ _ _ h1 h2 hb'.symm
        refine ⟨e1, fun x hx => ?_⟩
        rcases mem_atRoot.1 hx with rfl | ⟨k, hk, rfl⟩
        · exact hdst _ _ _ h2
        · exact e2 _ (inner_mem hk)
    · replace h2 := key _ _ _ h2
      obtain ⟨hb', ⟨rfl, T', h2, rfl⟩ | ⟨hb2', h2⟩⟩ := h2
      · obtain ⟨e1, e2⟩ := h.disj _ _ _ _ _ _ h1 h2 hb
        refine ⟨e1, fun x hx hx2 => ?_⟩
        rcases mem_atRoot.1 hx2 with rfl | ⟨k, hk, rfl⟩
        · exact hdst _ _ _ h1 hx
        · exact e2 _ hx (inner_mem hk)
      · exact h.disj _ _ _ _ _ _ h1 h2 hbb
  · intro x k hk
    change Function.update (Function.update m.cell dst (some c)) src (some (c.moved gone)) x = some k at hk
    by_cases hx : x = src
    · subst hx
      rw [Function.update_self] at hk
      injection hk with hk; subst hk
      exact Or.inl ⟨rfl, rfl⟩
    rw [Function.update_of_ne hx] at hk
    by_cases hx2 : x = dst
    · subst hx2
      rw [Function.update_self] at hk
      injection hk with hk; subst hk
      rcases h.var hv with ⟨c', hc', h3, h4, -⟩ | ⟨d, T, ho⟩
      · rw [hs] at hc'; injection hc' with hc'; subst hc'
        exact Or.inl ⟨h3, h4⟩
      · refine Or.inr ⟨x, d, atRoot x T, ?_, mem_atRoot.2 (Or.inl rfl)⟩
        rw [Function.update_of_ne hne, Function.update_self, ho]; rfl
    rw [Function.update_of_ne hx2] at hk
    rcases h.cover x k hk with h1 | ⟨b, d', T', ho, hx3⟩
    · exact Or.inl h1
    · by_cases hb : b = src
      · subst hb
        refine Or.inr ⟨dst, d', atRoot dst T', ?_, ?_⟩
        · rw [Function.update_of_ne hne, Function.update_self, ho]; rfl
        · rw [mem_addrs_iff, hrt _ _ ho] at hx3
          rw [mem_atRoot]
          exact Or.inr (hx3.resolve_left hx)
      · have hb2 : b ≠ dst := by
          rintro rfl
          exact hdst _ _ _ ho ((h.reads _ _ _ ho).1 ▸ root_mem T')
        refine Or.inr ⟨b, d', T', ?_, hx3⟩
        rw [Function.update_of_ne hb, Function.update_of_ne hb2, ho]
  · intro b d' T' ho
    replace ho := key _ _ _ ho
    obtain ⟨hb, ⟨rfl, T, ho, rfl⟩ | ⟨hb2, ho⟩⟩ := ho
    · exact h.fresh _ _ _ ho
    · exact h.fresh _ _ _ ho

/-- A variable is not a node of the tree of another one. -/
theorem var_not_mem {m : TMem N D} {a b : ℕ} {T : Tree (ℕ × N)} (hv : IsVar m a) (hb : T.label.1 = b) (hT : Shape m T) (hne : b ≠ a) : a ∉ T.addrs := by
  intro hx
  rcases mem_addrs_cases T hx with e | ⟨k, hk, hx⟩
  · exact hne (hb.symm.trans e.symm)
  · obtain ⟨d, e⟩ := hT k hk
    exact hv.2 _ _ e hx

theorem isVar_release {m : TMem N D} {a : ℕ} {l : List ℕ} (hv : IsVar m a) (hx : a ∉ l) : IsVar { m with cell := release l m.cell } a := by
  refine ⟨?_, fun x c hc => ?_⟩
  · change (if a ∈ l then none else m.cell a).isSome
    rw [if_neg hx]; exact hv.1
  · change (if x ∈ l then none else m.cell x) = some c at hc
    split at hc
    · cases hc
    · exact hv.2 x c hc

/-- The trees held after an event. -/
def after (m : TMem N D) (own : Own N) : Ev N D → Own N
  | .create T _ => Function.update own T.label.1 (some (m.nextD, T))
  | .moveNew dst src | .moveAssign dst src => Function.update (Function.update own dst ((own src).map fun p => (p.1, atRoot dst p.2))) src none
  | .destroy a => Function.update own a none
  | .setData _ _ => own

theorem Inv.step {gone : N → N} {m m' : TMem N D} {own : Own N} {e : Ev N D} (h : Inv m own) (hs : Step gone m e m') : Inv m' (after m own e) := by
  cases hs with
  | create hn hf => exact h.create _ hn hf
  | moveNew hs hv hd => exact h.moveNew gone hs hv hd
  | @moveAssign dst src c T hs hv hd hne ha hT =>
    have h1 := h.destroy hd ha hT
    have hx := var_not_mem hv ha hT hne
    have h2 := h1.moveNew (dst := dst) gone (c := c) ((if_neg hx).trans hs) (isVar_release hv hx) (if_pos (ha ▸ root_mem T))
    rw [Function.update_of_ne hne.symm, Function.update_idem] at h2
    exact h2
  | destroy hv ha hT => exact h.destroy hv ha hT
  | setData hp hd => exact ⟨h.reads, h.nodup, h.disj, h.cover, h.fresh⟩

/-- Memory reached from nothing by any history. -/
def Reached (gone : N → N) (m : TMem N D) : Prop := ∃ d0 es, Run gone (empty d0) es m

theorem Inv.run {gone : N → N} {m m' : TMem N D} {es : List (Ev N D)} (hr : Run gone m es m') {own : Own N} (h : Inv m own) : ∃ own', Inv m' own' := by
  induction hr generalizing own with
  | nil m => exact ⟨own, h⟩
  | cons hs _ ih => exact ih (h.step hs)

theorem Reached.inv {gone : N → N} {m : TMem N D} (h : Reached gone m) : ∃ own, Inv m own := by
  obtain ⟨d0, es, hr⟩ := h
  exact Inv.run hr (inv_empty d0)

end Htool.TreeMoves
