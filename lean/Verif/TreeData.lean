import Verif.HBuild

/-! # Tree-wide parameters of H-matrices and their copies

Every block of an H-matrix holds a `std::shared_ptr` to the tree-wide parameters (`m_tree_data`, include/htool/basic_types/tree.hpp 26). -/

namespace Htool.TreeData
variable {N D : Type*}

/-- H-matrices in variables: every block has its own members and the number of the parameter object it points to. Parameter objects are numbered in the order they
are made; the end of their life is not observable. -/
structure St (N D : Type*) where
  var : ℕ → Option (Tree (N × ℕ))
  val : ℕ → D
  next : ℕ

mutual
/-- The copy constructor of `HMatrix` (include/htool/hmatrix/hmatrix.hpp 60-78): a new parameter object with the value of the one of `rhs` (66), then the copies of
the children by recursion (68-70). Simplification: the own members of a block are all copied (line 60 forgets the ones of the leaves' symmetry, see C26). -/
def copyT : Tree (N × ℕ) → (ℕ → D) → ℕ → Tree (N × ℕ) × (ℕ → D) × ℕ
  | .node (o, d) cs, v, n =>
    (.node (o, n) (copyL cs (Function.update v n (v d)) (n + 1)).1, (copyL cs (Function.update v n (v d)) (n + 1)).2)
/-- The loop over the children. -/
def copyL : List (Tree (N × ℕ)) → (ℕ → D) → ℕ → List (Tree (N × ℕ)) × (ℕ → D) × ℕ
  | [], v, n => ([], v, n)
  | c :: cs, v, n =>
    ((copyT c v n).1 :: (copyL cs (copyT c v n).2.1 (copyT c v n).2.2).1, (copyL cs (copyT c v n).2.1 (copyT c v n).2.2).2)
end

/-- What a program does with H-matrices. `k` is the number, in preorder, of a block of the H-matrix. -/
inductive Op (N D : Type*) where
  | build (i : ℕ) (T : Tree N) (d : D)
  | copy (dst src k : ℕ)
  | assign (dst src k : ℕ)
  | set (i k : ℕ) (f : D → D)

/-- Result of an operation. -/
inductive Out (α : Type*) where
  | ok (s : α)
  /-- The program is not one (no such variable or block). -/
  | bad
  /-- Undefined behaviour. -/
  | ub

/-- `build`: the root constructor makes the parameter object (tree.hpp 26, 29; hmatrix.hpp 53), `add_child` copies the pointer (tree.hpp 36, 40; hmatrix.hpp 58).
`copy`: hmatrix.hpp 60-78. `assign`: hmatrix.hpp 79-105; assigning to an H-matrix one of its own blocks destroys that block (86) before its children are read
(87). `set`: the setters hmatrix.hpp 206-214, called on any block. -/
def step (s : St N D) : Op N D → Out (St N D)
  | .build i T d => .ok ⟨Function.update s.var i (some (T.map fun o => (o, s.next))), Function.update s.val s.next d, s.next + 1⟩
  | .copy dst src k =>
    match (s.var src).bind fun T => T.pre[k]? with
    | none => .bad
    | some c => .ok ⟨Function.update s.var dst (some (copyT c s.val s.next).1), (copyT c s.val s.next).2.1, (copyT c s.val s.next).2.2⟩
  | .assign dst src k =>
    match s.var dst, (s.var src).bind fun T => T.pre[k]? with
    | some _, some c =>
      if dst = src then
        if k = 0 then .ok s else .ub
      else .ok ⟨Function.update s.var dst (some (copyT c s.val s.next).1), (copyT c s.val s.next).2.1, (copyT c s.val s.next).2.2⟩
    | _, _ => .bad
  | .set i k f =>
    match (s.var i).bind fun T => T.pre[k]? with
    | none => .bad
    | some c => .ok { s with val := Function.update s.val c.label.2 (f (s.val c.label.2)) }

/-- Histories. -/
def run (s : St N D) : List (Op N D) → Out (St N D)
  | [] => .ok s
  | o :: os => match step s o with
    | .ok s' => run s' os
    | .bad => .bad
    | .ub => .ub

/-- What the getters (hmatrix.hpp 116, 152, 219) of the block `k` of the variable `i` see. -/
def read (s : St N D) (i k : ℕ) : Option D := ((s.var i).bind fun T => T.pre[k]?).map fun c => s.val c.label.2

def init (d : D) : St N D := ⟨fun _ => none, fun _ => d, 0⟩

/-! ## Specification: values only -/

/-- An H-matrix seen by the user: its blocks, the value of the parameters seen by each block in preorder, and whether all blocks share them. -/
structure HV (N D : Type*) where
  shape : Tree N
  vals : List D
  shared : Bool

/-- The blocks below and including the block `k`. -/
def HV.sub (h : HV N D) (k : ℕ) : Option (HV N D) := h.shape.pre[k]?.map fun c => ⟨c, (h.vals.drop k).take c.pre.length, false⟩

/-- The operations on values: variables never influence each other; a setter called on any block of a built H-matrix acts on all its blocks, a setter called on a
block of a copy acts on that block only. -/
def specStep (s : ℕ → Option (HV N D)) : Op N D → Out (ℕ → Option (HV N D))
  | .build i T d => .ok (Function.update s i (some ⟨T, T.pre.map fun _ => d, true⟩))
  | .copy dst src k =>
    match (s src).bind fun h => h.sub k with
    | none => .bad
    | some c => .ok (Function.update s dst (some c))
  | .assign dst src k =>
    match s dst, (s src).bind fun h => h.sub k with
    | some _, some c => if dst = src then if k = 0 then .ok s else .ub else .ok (Function.update s dst (some c))
    | _, _ => .bad
  | .set i k f =>
    match s i with
    | none => .bad
    | some h => if k < h.shape.pre.length then
        .ok (Function.update s i (some { h with vals := if h.shared then h.vals.map f else h.vals.modify k f }))
      else .bad

def specRun (s : ℕ → Option (HV N D)) : List (Op N D) → Out (ℕ → Option (HV N D))
  | [] => .ok s
  | o :: os => match specStep s o with
    | .ok s' => specRun s' os
    | .bad => .bad
    | .ub => .ub

/-! ## Lemmas -/

theorem pre_map {α β : Type*} (f : α → β) (T : Tree α) : (T.map f).pre = T.pre.map (Tree.map f) := by
  induction T using Tree.ind with
  | h a cs ih =>
    rw [Tree.map_node, Tree.pre_node, Tree.pre_node, List.map_cons, Tree.map_node, List.flatMap_map, List.map_flatMap]
    congr 1
    exact List.flatMap_congr fun c hc => ih c hc

/-- The blocks below a block are listed from its place on. -/
theorem pre_prefix {α : Type*} (T : Tree α) (k : ℕ) (c : Tree α) (h : T.pre[k]? = some c) : c.pre <+: T.pre.drop k := by
  induction T using Tree.ind generalizing k with
  | h a cs ih =>
    cases k with
    | zero =>
      rw [Tree.pre_node] at h
      have e : c = .node a cs := by simpa using h.symm
      rw [e, List.drop_zero]
    | succ k =>
      rw [Tree.pre_node, List.getElem?_cons_succ] at h
      rw [Tree.pre_node, List.drop_succ_cons]
      induction cs generalizing k with
      | nil => simp at h
      | cons b cs ihc =>
        rw [List.flatMap_cons] at h ⊢
        by_cases hk : k < b.pre.length
        · rw [List.getElem?_append_left hk] at h
          rw [List.drop_append_of_le_length hk.le]
          exact (ih b (by simp) k h).trans (List.prefix_append _ _)
        · push Not at hk
          rw [List.getElem?_append_right hk] at h
          rw [List.drop_append, List.drop_eq_nil_of_le hk, List.nil_append]
          exact ihc (fun c hc => ih c (by simp [hc])) _ h

/-- Numbers of the parameter objects of the blocks. -/
def ids (T : Tree (N × ℕ)) : List ℕ := T.pre.map fun c => c.label.2

theorem ids_node (o : N) (d : ℕ) (cs : List (Tree (N × ℕ))) : ids (.node (o, d) cs) = d :: cs.flatMap ids := by
  unfold ids; rw [Tree.pre_node, List.map_cons, List.map_flatMap]; rfl

theorem copy_spec (T : Tree (N × ℕ)) : ∀ (v : ℕ → D) (n : ℕ), (∀ d ∈ ids T, d < n) →
    (copyT T v n).1.map Prod.fst = T.map Prod.fst ∧ ids (copyT T v n).1 = List.range' n (ids T).length ∧ (copyT T v n).2.2 = n + (ids T).length ∧
    (∀ d < n, (copyT T v n).2.1 d = v d) ∧ (List.range' n (ids T).length).map (copyT T v n).2.1 = (ids T).map v := by
  induction T using Tree.ind with
  | h a cs ih =>
    obtain ⟨o, d⟩ := a
    have key : ∀ cs : List (Tree (N × ℕ)), (∀ c ∈ cs, ∀ (v : ℕ → D) (n : ℕ), (∀ d ∈ ids c, d < n) →
        (copyT c v n).1.map Prod.fst = c.map Prod.fst ∧ ids (copyT c v n).1 = List.range' n (ids c).length ∧ (copyT c v n).2.2 = n + (ids c).length ∧
        (∀ d < n, (copyT c v n).2.1 d = v d) ∧ (List.range' n (ids c).length).map (copyT c v n).2.1 = (ids c).map v) →
        ∀ (v : ℕ → D) (n : ℕ), (∀ d ∈ cs.flatMap ids, d < n) →
        (copyL cs v n).1.map (Tree.map Prod.fst) = cs.map (Tree.map Prod.fst) ∧
        (copyL cs v n).1.flatMap ids = List.range' n (cs.flatMap ids).length ∧ (copyL cs v n).2.2 = n + (cs.flatMap ids).length ∧
        (∀ d < n, (copyL cs v n).2.1 d = v d) ∧ (List.range' n (cs.flatMap ids).length).map (copyL cs v n).2.1 = (cs.flatMap ids).map v := by
      intro cs
      induction cs with
      | nil => intro _ v n _; exact ⟨rfl, rfl, rfl, fun _ _ => rfl, rfl⟩
      | cons c cs ihc =>
        intro ih v n hn
        rw [List.flatMap_cons] at hn ⊢
        obtain ⟨a1, a2, a3, a4, a5⟩ := ih c (by simp) v n fun d hd => hn d (List.mem_append_left _ hd)
        obtain ⟨b1, b2, b3, b4, b5⟩ := ihc (fun c hc => ih c (by simp [hc])) (copyT c v n).2.1 (copyT c v n).2.2 fun d hd => by
          have := hn d (List.mem_append_right _ hd)
          rw [a3]; omega
        rw [a3] at b2 b3 b4 b5
        refine ⟨?_, ?_, ?_, ?_, ?_⟩
        · rw [copyL, List.map_cons, List.map_cons, a1, b1]
        · rw [copyL, List.flatMap_cons, a2, a3, b2, List.length_append, List.range'_append_1]
        · rw [copyL]
          simp only [a3]
          rw [b3, List.length_append]; omega
        · intro d hd
          rw [copyL]
          simp only [a3]
          rw [b4 d (by omega), a4 d hd]
        · rw [copyL]
          simp only [a3]
          rw [List.length_append, ← List.range'_append_1, List.map_append, List.map_append, b5]
          congr 1
          · rw [← a5]
            refine List.map_congr_left fun x hx => ?_
            rw [List.mem_range'_1] at hx
            exact b4 x (by omega)
          · refine List.map_congr_left fun x hx => ?_
            exact a4 x (hn x (List.mem_append_right _ hx))
    intro v n hn
    rw [ids_node] at hn ⊢
    obtain ⟨b1, b2, b3, b4, b5⟩ := key cs ih (Function.update v n (v d)) (n + 1) fun x hx => (hn x (List.mem_cons_of_mem _ hx)).trans (Nat.lt_succ_self n)
    have hl : (d :: cs.flatMap ids).length = (cs.flatMap ids).length + 1 := rfl
    refine ⟨?_, ?_, ?_, ?_, ?_⟩
    · rw [copyT, Tree.map_node, Tree.map_node, b1]
    · rw [copyT, ids_node, b2, hl, List.range'_succ]
    · rw [copyT]
      simp only
      rw [b3, hl]; omega
    · intro x hx
      rw [copyT]
      simp only
      rw [b4 x (by omega), Function.update_of_ne (by omega)]
    · rw [copyT]
      simp only
      rw [hl, List.range'_succ, List.map_cons, List.map_cons, b5, b4 n (by omega), Function.update_self]
      congr 1
      refine List.map_congr_left fun x hx => ?_
      exact Function.update_of_ne (hn x (List.mem_cons_of_mem _ hx)).ne _ _

/-! ## Refinement -/

/-- One variable. -/
structure VOK (val : ℕ → D) (T : Tree (N × ℕ)) (h : HV N D) : Prop where
  shape : T.map Prod.fst = h.shape
  vals : (ids T).map val = h.vals
  shared : h.shared = true → ∃ d, ∀ x ∈ ids T, x = d
  alone : h.shared = false → (ids T).Nodup

structure R (s : St N D) (a : ℕ → Option (HV N D)) : Prop where
  none' : ∀ i, s.var i = none ↔ a i = none
  ok : ∀ i T h, s.var i = some T → a i = some h → VOK s.val T h
  disj : ∀ i j T T', s.var i = some T → s.var j = some T' → i ≠ j → ∀ x ∈ ids T, x ∉ ids T'
  lt : ∀ i T, s.var i = some T → ∀ x ∈ ids T, x < s.next

theorem VOK.congr {val val' : ℕ → D} {T : Tree (N × ℕ)} {h : HV N D} (hv : VOK val T h) (he : ∀ x ∈ ids T, val' x = val x) : VOK val' T h :=
  ⟨hv.shape, (List.map_congr_left he).trans hv.vals, hv.shared, hv.alone⟩

theorem VOK.get {val : ℕ → D} {T : Tree (N × ℕ)} {h : HV N D} (hv : VOK val T h) (k : ℕ) : h.shape.pre[k]? = T.pre[k]?.map (Tree.map Prod.fst) := by
  rw [← hv.shape, pre_map, List.getElem?_map]

theorem VOK.length {val : ℕ → D} {T : Tree (N × ℕ)} {h : HV N D} (hv : VOK val T h) : h.shape.pre.length = T.pre.length := by
  rw [← hv.shape, pre_map, List.length_map]

theorem VOK.sub {val : ℕ → D} {T : Tree (N × ℕ)} {h : HV N D} (hv : VOK val T h) {k : ℕ} {c : Tree (N × ℕ)} (hk : T.pre[k]? = some c) :
    h.sub k = some ⟨c.map Prod.fst, (ids c).map val, false⟩ := by
  unfold HV.sub
  rw [hv.get k, hk, Option.map_some, Option.map_some, Option.some.injEq, HV.mk.injEq]
  refine ⟨rfl, ?_, rfl⟩
  obtain ⟨r, hr⟩ := pre_prefix T k c hk
  rw [← hv.vals, pre_map, List.length_map]
  unfold ids
  rw [← List.map_drop, ← List.map_drop, ← hr, List.map_append, List.map_append]
  exact List.take_left' (by simp)

theorem VOK.sub_none {val : ℕ → D} {T : Tree (N × ℕ)} {h : HV N D} (hv : VOK val T h) {k : ℕ} (hk : T.pre[k]? = none) : h.sub k = none := by
  unfold HV.sub; rw [hv.get k, hk]; rfl

theorem ids_sub {T : Tree (N × ℕ)} {k : ℕ} {c : Tree (N × ℕ)} (hk : T.pre[k]? = some c) : ∀ x ∈ ids c, x ∈ ids T := by
  intro x hx
  obtain ⟨r, hr⟩ := pre_prefix T k c hk
  unfold ids at *
  obtain ⟨b, hb, rfl⟩ := List.mem_map.1 hx
  exact List.mem_map.2 ⟨b, List.mem_of_mem_drop (hr ▸ List.mem_append_left _ hb), rfl⟩

theorem R.has {s : St N D} {a : ℕ → Option (HV N D)} (r : R s a) {i : ℕ} {T : Tree (N × ℕ)} (h : s.var i = some T) : ∃ b, a i = some b ∧ VOK s.val T b := by
  cases ha : a i with
  | none => rw [(r.none' i).2 ha] at h; cases h
  | some b => exact ⟨b, rfl, r.ok i T b h ha⟩

theorem R.copy {s : St N D} {a : ℕ → Option (HV N D)} (r : R s a) {src : ℕ} (dst : ℕ) {T : Tree (N × ℕ)} {k : ℕ} {c : Tree (N × ℕ)} (hs : s.var src = some T)
    (hk : T.pre[k]? = some c) : R (N := N) ⟨Function.update s.var dst (some (copyT c s.val s.next).1), (copyT c s.val s.next).2.1, (copyT c s.val s.next).2.2⟩
      (Function.update a dst (some ⟨c.map Prod.fst, (ids c).map s.val, false⟩)) := by
  have hlt : ∀ d ∈ ids c, d < s.next := fun d hd => r.lt _ _ hs d (ids_sub hk d hd)
  obtain ⟨h1, h2, h3, h4, h5⟩ := copy_spec c s.val s.next hlt
  have key : ∀ i T', Function.update s.var dst (some (copyT c s.val s.next).1) i = some T' →
      (i = dst ∧ T' = (copyT c s.val s.next).1) ∨ (i ≠ dst ∧ s.var i = some T') := by
    intro i T' h
    by_cases hi : i = dst
    · subst hi; rw [Function.update_self] at h; injection h with h; exact Or.inl ⟨rfl, h.symm⟩
    · rw [Function.update_of_ne hi] at h; exact Or.inr ⟨hi, h⟩
  refine ⟨?_, ?_, ?_, ?_⟩
  · intro i
    change Function.update s.var dst _ i = none ↔ _
    by_cases hi : i = dst
    · subst hi; simp
    · rw [Function.update_of_ne hi, Function.update_of_ne hi]; exact r.none' i
  · intro i T' b hT hb
    rcases key i T' hT with ⟨rfl, rfl⟩ | ⟨hi, hT'⟩
    · rw [Function.update_self] at hb; injection hb with hb; subst hb
      refine ⟨h1, ?_, fun h => (nomatch h), fun _ => ?_⟩
      · rw [h2]; exact h5
      · rw [h2]; exact List.nodup_range'
    · rw [Function.update_of_ne hi] at hb
      exact (r.ok i T' b hT' hb).congr fun x hx => h4 x (r.lt _ _ hT' x hx)
  · intro i j T1 T2 hi hj hne x hx
    rcases key i T1 hi with ⟨e1, rfl⟩ | ⟨hi, hT1⟩
    · rcases key j T2 hj with ⟨e2, rfl⟩ | ⟨hj, hT2⟩
      · exact absurd (e1.trans e2.symm) hne
      · rw [h2, List.mem_range'_1] at hx
        intro hx2
        have := r.lt _ _ hT2 x hx2
        omega
    · rcases key j T2 hj with ⟨e2, rfl⟩ | ⟨hj, hT2⟩
      · rw [h2, List.mem_range'_1]
        have := r.lt _ _ hT1 x hx
        omega
      · exact r.disj _ _ _ _ hT1 hT2 hne x hx
  · intro i T1 hi x hx
    change x < (copyT c s.val s.next).2.2
    rw [h3]
    rcases key i T1 hi with ⟨e1, rfl⟩ | ⟨hi, hT1⟩
    · rw [h2, List.mem_range'_1] at hx; omega
    · have := r.lt _ _ hT1 x hx; omega

theorem map_modify {l : List ℕ} (hn : l.Nodup) (val : ℕ → D) (f : D → D) {k d : ℕ} (hk : l[k]? = some d) :
    l.map (Function.update val d (f (val d))) = (l.map val).modify k f := by
  induction l generalizing k with
  | nil => cases hk
  | cons x l ih =>
    rw [List.nodup_cons] at hn
    cases k with
    | zero =>
      rw [List.getElem?_cons_zero] at hk; injection hk with hk; subst hk
      rw [List.map_cons, List.map_cons, Function.update_self, List.modify_zero_cons]
      congr 1
      refine List.map_congr_left fun y hy => Function.update_of_ne ?_ _ _
      rintro rfl; exact hn.1 hy
    | succ k =>
      rw [List.getElem?_cons_succ] at hk
      rw [List.map_cons, List.map_cons, List.modify_succ_cons, ih hn.2 hk, Function.update_of_ne]
      rintro rfl; exact hn.1 (List.mem_of_getElem? hk)

theorem R.set {s : St N D} {a : ℕ → Option (HV N D)} (r : R s a) {i k : ℕ} {T : Tree (N × ℕ)} {c : Tree (N × ℕ)} {b : HV N D} (hs : s.var i = some T)
    (hk : T.pre[k]? = some c) (hb : a i = some b) (f : D → D) : R { s with val := Function.update s.val c.label.2 (f (s.val c.label.2)) }
      (Function.update a i (some { b with vals := if b.shared then b.vals.map f else b.vals.modify k f })) := by
  have hv := r.ok i T b hs hb
  have hd : (ids T)[k]? = some c.label.2 := by unfold ids; rw [List.getElem?_map, hk]; rfl
  have hmem := List.mem_of_getElem? hd
  refine ⟨?_, ?_, r.disj, r.lt⟩
  · intro j
    by_cases hj : j = i
    · subst hj
      rw [Function.update_self]
      change s.var j = none ↔ _
      rw [hs]; simp
    · rw [Function.update_of_ne hj]; exact r.none' j
  · intro j T' b' hT hb'
    change s.var j = some T' at hT
    by_cases hj : j = i
    · subst hj
      rw [hs] at hT; injection hT with hT; subst hT
      rw [Function.update_self] at hb'; injection hb' with hb'; subst hb'
      refine ⟨hv.shape, ?_, hv.shared, hv.alone⟩
      change (ids T).map (Function.update s.val c.label.2 (f (s.val c.label.2))) = if b.shared then b.vals.map f else b.vals.modify k f
      cases hsh : b.shared with
      | true =>
        rw [if_pos rfl, ← hv.vals, List.map_map]
        obtain ⟨d, hd2⟩ := hv.shared hsh
        refine List.map_congr_left fun x hx => ?_
        rw [hd2 x hx, hd2 _ hmem, Function.update_self]; rfl
      | false =>
        rw [if_neg (by simp), ← hv.vals]
        exact map_modify (hv.alone hsh) s.val f hd
    · rw [Function.update_of_ne hj] at hb'
      refine (r.ok j T' b' hT hb').congr fun x hx => Function.update_of_ne ?_ _ _
      rintro rfl
      exact r.disj _ _ _ _ hT hs hj _ hx hmem

theorem R.build {s : St N D} {a : ℕ → Option (HV N D)} (r : R s a) (i : ℕ) (T : Tree N) (d : D) :
    R (N := N) ⟨Function.update s.var i (some (T.map fun o => (o, s.next))), Function.update s.val s.next d, s.next + 1⟩
      (Function.update a i (some ⟨T, T.pre.map fun _ => d, true⟩)) := by
  have hi0 : ids (T.map fun o => (o, s.next)) = T.pre.map fun _ => s.next := by
    unfold ids; rw [pre_map, List.map_map]
    exact List.map_congr_left fun x _ => by cases x; simp [Tree.map_node]
  have key : ∀ j T', Function.update s.var i (some (T.map fun o => (o, s.next))) j = some T' →
      (j = i ∧ T' = T.map fun o => (o, s.next)) ∨ (j ≠ i ∧ s.var j = some T') := by
    intro j T' h
    by_cases hj : j = i
    · subst hj; rw [Function.update_self] at h; injection h with h; exact Or.inl ⟨rfl, h.symm⟩
    · rw [Function.update_of_ne hj] at h; exact Or.inr ⟨hj, h⟩
  have hall : ∀ x ∈ ids (T.map fun o => (o, s.next)), x = s.next := by
    intro x hx; rw [hi0] at hx; obtain ⟨y, -, e⟩ := List.mem_map.1 hx; exact e.symm
  refine ⟨?_, ?_, ?_, ?_⟩
  · intro j
    change Function.update s.var i _ j = none ↔ _
    by_cases hj : j = i
    · subst hj; simp
    · rw [Function.update_of_ne hj, Function.update_of_ne hj]; exact r.none' j
  · intro j T' b hT hb
    rcases key j T' hT with ⟨rfl, rfl⟩ | ⟨hj, hT'⟩
    · rw [Function.update_self] at hb; injection hb with hb; subst hb
      refine ⟨?_, ?_, fun _ => ⟨s.next, hall⟩, fun h => (nomatch h)⟩
      · have : ∀ T : Tree N, (T.map fun o => (o, s.next)).map Prod.fst = T := by
          intro T
          induction T using Tree.ind with
          | h a cs ih =>
            rw [Tree.map_node, Tree.map_node, List.map_map]
            congr 1
            exact (List.map_congr_left fun c hc => ih c hc).trans (List.map_id _)
        exact this T
      · change (ids _).map (Function.update s.val s.next d) = T.pre.map fun _ => d
        rw [hi0, List.map_map]
        exact List.map_congr_left fun x _ => Function.update_self ..
    · rw [Function.update_of_ne hj] at hb
      exact (r.ok j T' b hT' hb).congr fun x hx => Function.update_of_ne (r.lt _ _ hT' x hx).ne _ _
  · intro j j' T1 T2 hj hj' hne x hx
    rcases key j T1 hj with ⟨e1, rfl⟩ | ⟨hj, hT1⟩
    · rcases key j' T2 hj' with ⟨e2, rfl⟩ | ⟨hj', hT2⟩
      · exact absurd (e1.trans e2.symm) hne
      · intro hx2
        exact (r.lt _ _ hT2 x hx2).ne (hall x hx)
    · rcases key j' T2 hj' with ⟨e2, rfl⟩ | ⟨hj', hT2⟩
      · intro hx2
        exact (r.lt _ _ hT1 x hx).ne (hall x hx2)
      · exact r.disj _ _ _ _ hT1 hT2 hne x hx
  · intro j T1 hj x hx
    change x < s.next + 1
    rcases key j T1 hj with ⟨e1, rfl⟩ | ⟨hj, hT1⟩
    · rw [hall x hx]; omega
    · have := r.lt _ _ hT1 x hx; omega

/-- The outcomes agree. -/
def Agree (o : Out (St N D)) (o' : Out (ℕ → Option (HV N D))) : Prop :=
  match o, o' with
  | .ok s, .ok a => R s a
  | .bad, .bad => True
  | .ub, .ub => True
  | _, _ => False

theorem step_refines {s : St N D} {a : ℕ → Option (HV N D)} (r : R s a) (o : Op N D) : Agree (step s o) (specStep a o) := by
  cases o with
  | build i T d => exact r.build i T d
  | copy dst src k =>
    cases hs : s.var src with
    | none => simp [step, specStep, hs, (r.none' src).1 hs, Agree]
    | some T =>
      obtain ⟨b, hb, hv⟩ := r.has hs
      cases hk : T.pre[k]? with
      | none => simp [step, specStep, hs, hb, hk, hv.sub_none hk, Agree]
      | some c =>
        simp only [step, specStep, hs, hb, hk, hv.sub hk, Agree, Option.bind_some]
        exact r.copy dst hs hk
  | assign dst src k =>
    cases hd : s.var dst with
    | none => simp [step, specStep, hd, (r.none' dst).1 hd, Agree]
    | some T0 =>
      obtain ⟨b0, hb0, -⟩ := r.has hd
      cases hs : s.var src with
      | none => simp [step, specStep, hs, hd, hb0, (r.none' src).1 hs, Agree]
      | some T =>
        obtain ⟨b, hb, hv⟩ := r.has hs
        cases hk : T.pre[k]? with
        | none => simp [step, specStep, hs, hb, hd, hb0, hk, hv.sub_none hk, Agree]
        | some c =>
          simp only [step, specStep, hs, hb, hd, hb0, hk, hv.sub hk, Option.bind_some]
          by_cases he : dst = src
          · rw [if_pos he, if_pos he]
            by_cases h0 : k = 0
            · rw [if_pos h0, if_pos h0]; exact r
            · rw [if_neg h0, if_neg h0]; trivial
          · rw [if_neg he, if_neg he]
            exact r.copy dst hs hk
  | set i k f =>
    cases hs : s.var i with
    | none => simp [step, specStep, hs, (r.none' i).1 hs, Agree]
    | some T =>
      obtain ⟨b, hb, hv⟩ := r.has hs
      cases hk : T.pre[k]? with
      | none =>
        have : ¬ k < b.shape.pre.length := by
          rw [hv.length]; exact not_lt.2 (List.getElem?_eq_none_iff.1 hk)
        simp [step, specStep, hs, hb, hk, Agree, this]
      | some c =>
        have : k < b.shape.pre.length := by
          rw [hv.length]
          exact (List.getElem?_eq_some_iff.1 hk).1
        simp only [step, specStep, hs, hb, hk, Agree, Option.bind_some, this, if_true]
        exact r.set hs hk hb f

theorem run_refines {s : St N D} {a : ℕ → Option (HV N D)} (r : R s a) (os : List (Op N D)) : Agree (run s os) (specRun a os) := by
  induction os generalizing s a with
  | nil => exact r
  | cons o os ih =>
    have h := step_refines r o
    rw [run, specRun]
    cases h1 : step s o with
    | ok s' =>
      cases h2 : specStep a o with
      | ok a' => rw [h1, h2] at h; exact ih h
      | bad => rw [h1, h2] at h; exact h.elim
      | ub => rw [h1, h2] at h; exact h.elim
    | bad =>
      cases h2 : specStep a o with
      | ok a' => rw [h1, h2] at h; exact h.elim
      | bad => trivial
      | ub => rw [h1, h2] at h; exact h.elim
    | ub =>
      cases h2 : specStep a o with
      | ok a' => rw [h1, h2] at h; exact h.elim
      | bad => rw [h1, h2] at h; exact h.elim
      | ub => trivial

theorem R_init (d : D) : R (N := N) (init d) fun _ => none :=
  ⟨fun _ => ⟨fun _ => rfl, fun _ => rfl⟩, fun _ _ _ h => by simp [init] at h, fun _ _ _ _ h => by simp [init] at h, fun _ _ h => by simp [init] at h⟩

theorem R.read {s : St N D} {a : ℕ → Option (HV N D)} (r : R s a) (i k : ℕ) : read s i k = (a i).bind fun h => h.vals[k]? := by
  unfold TreeData.read
  cases hs : s.var i with
  | none => rw [(r.none' i).1 hs]; rfl
  | some T =>
    obtain ⟨b, hb, hv⟩ := r.has hs
    rw [hb, Option.bind_some, Option.bind_some, ← hv.vals]
    unfold ids
    rw [List.getElem?_map, List.getElem?_map, Option.map_map]
    rfl

end Htool.TreeData
