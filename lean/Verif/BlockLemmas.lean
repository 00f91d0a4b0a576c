import Verif.BlockTree
import Mathlib.Algebra.BigOperators.Ring.List

/-! # Lemmas on block trees -/

namespace Htool
variable {G : Type*}
open Htool.Tree (iv)

/-- A well-formed cluster tree with its partition (what `create_cluster_tree` returns, see `create_wf`). -/
structure ClusterTree.WF (ct : ClusterTree G) : Prop where
  /-- children tile their parent -/
  hier : ∀ x ∈ ct.root.pre, x.children ≠ [] → Tiles x.off x.fin (x.children.map iv)
  /-- partition clusters are nodes of the tree -/
  parts_mem : ∀ P ∈ ct.parts, P ∈ ct.root.pre
  /-- partition clusters tile the root -/
  parts_tiles : Tiles ct.root.off ct.root.fin (ct.parts.map iv)
  /-- all nodes below the `p`-th partition cluster have rank `p` -/
  parts_rank : ∀ (p : ℕ) (P : CTree G), ct.parts[p]? = some P → ∀ x ∈ P.pre, x.rk = (p : ℤ)
  /-- a node with a rank is below a partition cluster -/
  ranked : ∀ x ∈ ct.root.pre, 0 ≤ x.rk → ∃ P ∈ ct.parts, x ∈ P.pre
  /-- a node without rank is above the partition -/
  above : ∀ x ∈ ct.root.pre, x.rk < 0 → x.children ≠ [] ∧
    ct.parts.filter (fun u => leftContainsRight x u) ≠ [] ∧
    Tiles x.off x.fin ((ct.parts.filter (fun u => leftContainsRight x u)).map iv) ∧
    (∀ P ∈ ct.parts, leftContainsRight x P = true → P ∈ x.pre) ∧
    (∀ c ∈ x.children, 0 ≤ c.rk → c ∈ ct.parts)

theorem mem_pre_count {α : Type*} {t s : Tree α} (h : s ∈ t.pre) : s = t ∨ s.count < t.count := by
  induction t using Tree.ind with
  | h a cs ih =>
    rcases Tree.mem_pre.1 h with h | ⟨c, hc, hs⟩
    · exact Or.inl h
    · right
      have h1 : c.count < (Tree.node a cs).count := Tree.count_child_lt hc
      rcases ih c hc hs with rfl | h2 <;> omega

theorem child_mem_pre {α : Type*} {t c : Tree α} (h : c ∈ t.children) : c ∈ t.pre :=
  Tree.mem_pre.2 (Or.inr ⟨c, h, Tree.mem_pre_self c⟩)

theorem isLeaf_iff {α : Type*} {t : Tree α} : t.isLeaf = true ↔ t.children = [] := by
  unfold Tree.isLeaf; exact List.isEmpty_iff

theorem isLeaf_false {α : Type*} {t : Tree α} : t.isLeaf = false ↔ t.children ≠ [] := by
  rw [← Bool.not_eq_true, isLeaf_iff]

/-- Indicator of an interval. -/
def ind (i : ℕ) (iv : ℕ × ℕ) : ℕ := if InIv i iv then 1 else 0

theorem Tiles.ind_sum {a b : ℕ} {l : List (ℕ × ℕ)} (h : Tiles a b l) (i : ℕ) :
    (l.map (ind i)).sum = if a ≤ i ∧ i < b then 1 else 0 := by
  rw [← h.countP i]
  clear h
  induction l with
  | nil => rfl
  | cons x l ih =>
    rw [List.map_cons, List.sum_cons, List.countP_cons, ih, ind]
    by_cases h : InIv i x <;> simp [h, Nat.add_comm]

theorem ind_sum_iv {t : CTree G} {l : List (CTree G)} (h : Tiles t.off t.fin (l.map iv)) (i : ℕ) :
    (l.map (fun u => ind i u.iv)).sum = ind i t.iv := by
  have := h.ind_sum i
  rw [List.map_map] at this
  exact this

/-- How many blocks of a list contain the entry `(i,j)`. -/
def cover (l : List (BTree G)) (i j : ℕ) : ℕ :=
  (l.map (fun b => ind i b.label.t.iv * ind j b.label.s.iv)).sum

@[simp] theorem cover_nil (i j : ℕ) : cover ([] : List (BTree G)) i j = 0 := rfl
@[simp] theorem cover_cons (b : BTree G) (l) (i j : ℕ) :
    cover (b :: l) i j = ind i b.label.t.iv * ind j b.label.s.iv + cover l i j := by simp [cover]
@[simp] theorem cover_append (l m : List (BTree G)) (i j : ℕ) :
    cover (l ++ m) i j = cover l i j + cover m i j := by simp [cover]
theorem cover_perm {l m : List (BTree G)} (h : l.Perm m) (i j : ℕ) : cover l i j = cover m i j :=
  (h.map _).sum_eq
theorem cover_flatMap {α : Type*} (l : List α) (f : α → List (BTree G)) (i j : ℕ) :
    cover (l.flatMap f) i j = (l.map (fun a => cover (f a) i j)).sum := by
  induction l with
  | nil => rfl
  | cons a l ih => simp [ih]

theorem cover_eq_countP (l : List (BTree G)) (i j : ℕ) :
    cover l i j = l.countP (fun b => decide (InIv i b.label.t.iv ∧ InIv j b.label.s.iv)) := by
  induction l with
  | nil => rfl
  | cons b l ih =>
    rw [cover_cons, List.countP_cons, ih, ind, ind]
    by_cases h1 : InIv i b.label.t.iv <;> by_cases h2 : InIv j b.label.s.iv <;> simp [h1, h2]
    omega

/-- Leaves for symmetry, recursively. -/
def symLeaves : Bool → BTree G → List (BTree G)
  | fl, .node a cs =>
    if cs.isEmpty then (if fl && a.offDiag then [.node a cs] else [])
    else go (a.sym || fl) cs
where
  /-- forest version -/
  go : Bool → List (BTree G) → List (BTree G)
  | _, [] => []
  | fl, c :: cs => symLeaves fl c ++ go fl cs

theorem symLeaves_go (fl : Bool) (cs : List (BTree G)) :
    symLeaves.go fl cs = cs.flatMap (symLeaves fl) := by
  induction cs with
  | nil => rfl
  | cons c cs ih => simp [symLeaves.go, ih]

theorem symLeaves_leaf (fl : Bool) (a : BNode G) :
    symLeaves fl (.node a []) = if fl && a.offDiag then [.node a []] else [] := by
  rw [symLeaves]; simp

theorem symLeaves_node (fl : Bool) (a : BNode G) {cs : List (BTree G)} (h : cs ≠ []) :
    symLeaves fl (.node a cs) = cs.flatMap (symLeaves (a.sym || fl)) := by
  rw [symLeaves, if_neg (by simpa using h), symLeaves_go]

theorem flatMap_reverse_perm {α β : Type*} (l : List α) (f : α → List β) :
    (l.reverse.flatMap f).Perm (l.flatMap f) :=
  List.Perm.flatMap_right f (List.reverse_perm l)

/-- The explicit-stack `get_leaves_from` returns the recursively defined leaves, in some order. -/
theorem leavesLoop_perm (st : List (BTree G × Bool)) :
    (leavesLoop st).1.Perm (st.flatMap (fun x => x.1.leaves)) ∧
    (leavesLoop st).2.Perm (st.flatMap (fun x => symLeaves x.2 x.1)) := by
  induction h : Tree.countL (st.map Prod.fst) using Nat.strong_induction_on generalizing st with
  | _ n ih =>
    match st with
    | [] => simp [leavesLoop]
    | (.node a cs, fl) :: rest =>
      rw [leavesLoop, Tree.pushAll_eq]
      have hlt : Tree.countL ((((Tree.node a cs).children.map
          (fun c => (c, (Tree.node a cs).label.sym || fl))).reverse ++ rest).map Prod.fst) < n := by
        subst h
        simp only [List.map_append, List.map_reverse, List.map_map, Tree.countL_append,
          Tree.countL_reverse, List.map_cons, Tree.countL_cons, Tree.children_node]
        have e : ((Prod.fst : BTree G × Bool → BTree G) ∘
          fun c => (c, (Tree.node a cs).label.sym || fl)) = id := rfl
        rw [e, List.map_id, Tree.count_node]; omega
      obtain ⟨h1, h2⟩ := ih _ hlt _ rfl
      simp only [Tree.children_node, Tree.label_node] at h1 h2 ⊢
      by_cases hc : cs = []
      · subst hc
        have hl : (Tree.node a ([] : List (BTree G))).isLeaf = true := isLeaf_iff.2 rfl
        simp only [hl, if_true]
        simp only [List.map_nil, List.reverse_nil, List.nil_append] at h1 h2
        simp only [List.map_nil, List.reverse_nil, List.nil_append, List.flatMap_cons]
        refine ⟨?_, ?_⟩
        · have : (Tree.node a ([] : List (BTree G))).leaves = [Tree.node a []] := by
            simp [Tree.leaves]
          rw [this]
          exact List.Perm.cons _ h1
        · rw [symLeaves_leaf]
          by_cases hf : (fl && a.offDiag) = true
          · rw [if_pos hf, if_pos hf]; exact List.Perm.cons _ h2
          · rw [if_neg hf, if_neg hf]; exact h2
      · have hl : (Tree.node a cs).isLeaf = false := isLeaf_false.2 hc
        simp only [hl, Bool.false_eq_true, if_false]
        rw [List.flatMap_append] at h1 h2
        simp only [List.flatMap_cons]
        refine ⟨h1.trans (List.Perm.append_right _ ?_), h2.trans (List.Perm.append_right _ ?_)⟩
        · refine (flatMap_reverse_perm _ _).trans ?_
          rw [List.flatMap_map, Tree.leaves_node_ne hc, Tree.leavesL_eq]
        · refine (flatMap_reverse_perm _ _).trans ?_
          rw [List.flatMap_map, symLeaves_node fl a hc]

theorem getLeavesFrom_perm (b : BTree G) :
    (getLeavesFrom b).1.Perm b.leaves ∧ (getLeavesFrom b).2.Perm (symLeaves b.label.sym b) := by
  have := leavesLoop_perm [(b, b.label.sym)]
  simpa [getLeavesFrom] using this

section product
variable {α β : Type*}

@[simp] theorem pairs_nil (ss : List β) : pairs ([] : List α) ss = [] := rfl
theorem pairs_cons (a : α) (ts : List α) (ss : List β) :
    pairs (a :: ts) ss = ss.map (fun b => (a, b)) ++ pairs ts ss := rfl
theorem pair_mem_pairs {ts : List α} {ss : List β} {a : α} {b : β} : (a, b) ∈ pairs ts ss ↔ a ∈ ts ∧ b ∈ ss := by
  simp [pairs]

theorem sum_product (ts : List α) (ss : List β) (f : α → ℕ) (g : β → ℕ) :
    ((pairs ts ss).map (fun x => f x.1 * g x.2)).sum = (ts.map f).sum * (ss.map g).sum := by
  induction ts with
  | nil => simp
  | cons a ts ih =>
    rw [pairs_cons, List.map_append, List.sum_append, ih, List.map_cons, List.sum_cons, Nat.add_mul,
      List.map_map]
    congr 1
    show (ss.map (fun b => f a * g b)).sum = _
    exact List.sum_map_mul_left _ _ _

theorem product_sum (ts : List α) (ss : List β) (f : α × β → ℕ) :
    ((pairs ts ss).map f).sum = (ts.map (fun a => (ss.map (fun b => f (a, b))).sum)).sum := by
  induction ts with
  | nil => simp
  | cons a ts ih =>
    rw [pairs_cons, List.map_append, List.sum_append, ih, List.map_cons, List.sum_cons, List.map_map]
    rfl

end product

theorem mapOpt_length {α β : Type*} {f : α → Option β} {l : List α} {r : List β} (h : mapOpt f l = some r) :
    List.Forall₂ (fun a b => f a = some b) l r := by
  induction l generalizing r with
  | nil => simp [mapOpt] at h; subst h; exact List.Forall₂.nil
  | cons a l ih =>
    simp only [mapOpt] at h
    cases h1 : f a with
    | none => simp [h1] at h
    | some b =>
      cases h2 : mapOpt f l with
      | none => simp [h1, h2] at h
      | some bs =>
        simp only [h1, h2, Option.some.injEq] at h
        subst h
        exact List.Forall₂.cons h1 (ih h2)

theorem mapOpt_some {α β : Type*} {f : α → Option β} {l : List α} (h : ∀ a ∈ l, ∃ b, f a = some b) :
    ∃ r, mapOpt f l = some r := by
  induction l with
  | nil => exact ⟨[], rfl⟩
  | cons a l ih =>
    obtain ⟨b, hb⟩ := h a (by simp)
    obtain ⟨r, hr⟩ := ih (fun x hx => h x (by simp [hx]))
    exact ⟨b :: r, by simp [mapOpt, hb, hr]⟩

theorem forall₂_sum {α β : Type*} {R : α → β → Prop} {l : List α} {r : List β} (h : List.Forall₂ R l r)
    (f : α → ℕ) (g : β → ℕ) (hfg : ∀ a ∈ l, ∀ b, R a b → g b = f a) :
    (r.map g).sum = (l.map f).sum := by
  induction h with
  | nil => rfl
  | cons hab _ ih =>
    rw [List.map_cons, List.map_cons, List.sum_cons, List.sum_cons, hfg _ (by simp) _ hab,
      ih (fun a ha b hb => hfg a (by simp [ha]) b hb)]

theorem forall₂_mem_right {α β : Type*} {R : α → β → Prop} {l : List α} {r : List β} (h : List.Forall₂ R l r)
    {b : β} (hb : b ∈ r) : ∃ a ∈ l, R a b := by
  induction h with
  | nil => simp at hb
  | cons hab _ ih =>
    rcases List.mem_cons.1 hb with rfl | hb
    · exact ⟨_, by simp, hab⟩
    · obtain ⟨a, ha, h⟩ := ih hb; exact ⟨a, by simp [ha], h⟩

/-- Basic facts on the blocks created by a `split` step. -/
structure SplitInfo (E : BEnv G) (t s : CTree G) (ts ss : List (CTree G)) (g : CTree G × CTree G → Bool) :
    Prop where
  ts_ne : ts ≠ []
  ss_ne : ss ≠ []
  ts_mem : ∀ u ∈ ts, u ∈ t.pre
  ss_mem : ∀ v ∈ ss, v ∈ s.pre
  ts_tiles : Tiles t.off t.fin (ts.map iv)
  ss_tiles : Tiles s.off s.fin (ss.map iv)
  lt : ∀ u ∈ ts, ∀ v ∈ ss, u.count + v.count < t.count + s.count
  pass : ∀ u ∈ ts, ∀ v ∈ ss, E.inPart u = true → E.removed u v = false → g (u, v) = true
  guard : ∀ u ∈ ts, ∀ v ∈ ss, g (u, v) = true → E.removed u v = false ∧
    (u = t ∨ E.inPart u = true ∨ u.rk < 0)
  above : t.rk < 0 → ∀ u ∈ ts, ∀ v ∈ ss, (u ∈ t.children ∨ u ∈ E.tct.parts) ∧ (v = s ∨ v ∈ s.children ∧ s.rk < 0) ∧
    g (u, v) = E.guardT u v
  across : E.consistent = true → s.rk < 0 → 0 ≤ t.rk → ts = [t] ∧ ∀ v ∈ ss, v ∈ s.children ∨ v ∈ E.sct.parts

theorem tiles_single (t : CTree G) : Tiles t.off t.fin (([t] : List (CTree G)).map iv) := ⟨rfl, rfl⟩

theorem guardT_pass {E : BEnv G} {u v : CTree G} (h1 : E.inPart u = true) (h2 : E.removed u v = false) :
    E.guardT u v = true := by simp [BEnv.guardT, h1, h2]

theorem guardT_inv {E : BEnv G} {u v : CTree G} (h : E.guardT u v = true) :
    E.removed u v = false ∧ (E.inPart u = true ∨ u.rk < 0) := by
  simp only [BEnv.guardT, Bool.and_eq_true, Bool.or_eq_true, decide_eq_true_eq, Bool.not_eq_true'] at h
  exact ⟨h.2, h.1⟩

theorem parts_strict {ct : ClusterTree G} (h : ct.WF) {x : CTree G} (hx : x ∈ ct.root.pre) (hr : x.rk < 0)
    {P : CTree G} (hP : P ∈ ct.parts) (hc : leftContainsRight x P = true) :
    P ∈ x.pre ∧ P.count < x.count := by
  have h1 := (h.above x hx hr).2.2.2.1 P hP hc
  refine ⟨h1, ?_⟩
  rcases mem_pre_count h1 with rfl | h2
  · obtain ⟨p, hp, hpP⟩ := List.getElem_of_mem hP
    have := h.parts_rank p P (List.getElem?_eq_some_iff.2 ⟨hp, hpP⟩) P (Tree.mem_pre_self _)
    omega
  · exact h2

theorem step_split {E : BEnv G} (hT : E.tct.WF) (hS : E.sct.WF) {t s : CTree G} (ht : t ∈ E.tct.root.pre)
    (hs : s ∈ E.sct.root.pre) {l} (h : E.step t s = .split l) :
    ∃ ts ss g, l = (pairs ts ss).filter g ∧ SplitInfo E t s ts ss g := by
  have hleaf : ∀ {x : CTree G}, x ∈ E.tct.root.pre → x.rk < 0 → x.isLeaf = false :=
    fun hx hr => isLeaf_false.2 (hT.above _ hx hr).1
  have hleafS : ∀ {x : CTree G}, x ∈ E.sct.root.pre → x.rk < 0 → x.isLeaf = false :=
    fun hx hr => isLeaf_false.2 (hS.above _ hx hr).1
  have gchild : t.isLeaf = false → (∀ u ∈ t.children, u ∈ t.pre ∧ u.count < t.count) :=
    fun _ u hu => ⟨child_mem_pre hu, Tree.count_child_lt hu⟩
  have schild : s.isLeaf = false → (∀ u ∈ s.children, u ∈ s.pre ∧ u.count < s.count) :=
    fun _ u hu => ⟨child_mem_pre hu, Tree.count_child_lt hu⟩
  unfold BEnv.step at h
  split at h
  · simp at h
  split at h
  · simp at h
  rename_i hnl
  split at h
  · -- source leaf
    rename_i hsl
    have htl : t.isLeaf = false := by
      cases hb : t.isLeaf with
      | false => rfl
      | true => simp [hsl, hb] at hnl
    injection h with h
    refine ⟨_, _, _, h.symm, ⟨isLeaf_false.1 htl, by simp, fun u hu => (gchild htl u hu).1,
      fun v hv => by rw [List.mem_singleton.1 hv]; exact Tree.mem_pre_self _,
      hT.hier t ht (isLeaf_false.1 htl), tiles_single s, ?_, fun u _ v _ h1 h2 => guardT_pass h1 h2,
      fun u _ v _ hg => ⟨(guardT_inv hg).1, Or.inr (guardT_inv hg).2⟩,
      fun _ u hu v hv => ⟨Or.inl hu, Or.inl (List.mem_singleton.1 hv), rfl⟩, ?_⟩⟩
    · intro u hu v hv; rw [List.mem_singleton.1 hv]; have := (gchild htl u hu).2; omega
    · intro _ hr _; rw [hleafS hs hr] at hsl; simp at hsl
  rename_i hsl
  have hsl : s.isLeaf = false := by simpa using hsl
  have bchild : ∀ (g : CTree G × CTree G → Bool) (ss : List (CTree G)), ss ≠ [] →
      (∀ v ∈ ss, v ∈ s.pre ∧ v.count < s.count) → Tiles s.off s.fin (ss.map iv) →
      (∀ v ∈ ss, v ∈ s.children ∨ v ∈ E.sct.parts) →
      (∀ v, E.inPart t = true → E.removed t v = false → g (t, v) = true) →
      (∀ v, g (t, v) = true → E.removed t v = false) →
      0 ≤ t.rk → SplitInfo E t s [t] ss g := by
    intro g ss hne hss htl hpt hg1 hg2 htr
    refine ⟨by simp, hne, fun u hu => by rw [List.mem_singleton.1 hu]; exact Tree.mem_pre_self _,
      fun v hv => (hss v hv).1, tiles_single t, htl, ?_,
      fun u hu v _ => by rw [List.mem_singleton.1 hu]; exact hg1 v,
      fun u hu v _ => by rw [List.mem_singleton.1 hu]; exact fun h => ⟨hg2 v h, Or.inl rfl⟩,
      fun hr => by omega, fun _ _ _ => ⟨rfl, hpt⟩⟩
    intro u hu v hv; rw [List.mem_singleton.1 hu]; have := (hss v hv).2; omega
  have binfo : ∀ (ts ss : List (CTree G)), ts ≠ [] → ss ≠ [] →
      (∀ u ∈ ts, u ∈ t.pre ∧ u.count < t.count) → (∀ v ∈ ss, v ∈ s.pre ∧ v.count ≤ s.count) →
      Tiles t.off t.fin (ts.map iv) → Tiles s.off s.fin (ss.map iv) →
      (t.rk < 0 → ∀ u ∈ ts, ∀ v ∈ ss, (u ∈ t.children ∨ u ∈ E.tct.parts) ∧ (v = s ∨ v ∈ s.children ∧ s.rk < 0)) →
      (E.consistent = true → s.rk < 0 → 0 ≤ t.rk → False) →
      SplitInfo E t s ts ss (fun x => E.guardT x.1 x.2) := by
    intro ts ss h1 h2 h3 h4 h5 h6 h7 h8
    refine ⟨h1, h2, fun u hu => (h3 u hu).1, fun v hv => (h4 v hv).1, h5, h6, ?_,
      fun u _ v _ a b => guardT_pass a b, fun u _ v _ hg => ⟨(guardT_inv hg).1, Or.inr (guardT_inv hg).2⟩,
      fun hr u hu v hv => ⟨(h7 hr u hu v hv).1, (h7 hr u hu v hv).2, rfl⟩,
      fun a b c => (h8 a b c).elim⟩
    intro u hu v hv
    have := (h3 u hu).2; have := (h4 v hv).2; omega
  have sself : ∀ v ∈ [s], v ∈ s.pre ∧ v.count ≤ s.count := by
    intro v hv; rw [List.mem_singleton.1 hv]; exact ⟨Tree.mem_pre_self _, le_refl _⟩
  split at h
  · -- target leaf
    rename_i htl
    injection h with h
    have hr : 0 ≤ t.rk := by
      by_contra hr
      rw [hleaf ht (by omega)] at htl; simp at htl
    exact ⟨_, _, _, h.symm, bchild _ s.children (isLeaf_false.1 hsl) (schild hsl)
      (hS.hier s hs (isLeaf_false.1 hsl)) (fun v hv => Or.inl hv) (fun v _ h2 => by simpa using h2)
      (fun v hg => by simpa using hg) hr⟩
  rename_i htl
  have htl : t.isLeaf = false := by simpa using htl
  have tne := isLeaf_false.1 htl
  have sne := isLeaf_false.1 hsl
  have tpart : t.rk < 0 → SplitInfo E t s (E.tParts t) [s] (fun x => E.guardT x.1 x.2) := by
    intro hr
    obtain ⟨-, q1, q2, q3, -⟩ := hT.above t ht hr
    refine binfo _ _ q1 (by simp) ?_ sself q2 (tiles_single s) ?_ (fun _ _ h => by omega)
    · intro u hu
      obtain ⟨hu1, hu2⟩ := List.mem_filter.1 hu
      exact parts_strict hT ht hr hu1 hu2
    · intro _ u hu v hv
      exact ⟨Or.inr (List.mem_filter.1 hu).1, Or.inl (List.mem_singleton.1 hv)⟩
  split at h
  · split at h
    · rename_i hc
      injection h with h
      exact ⟨_, _, _, h.symm, tpart hc.1⟩
    split at h
    · rename_i hc
      injection h with h
      obtain ⟨-, q1, q2, q3, -⟩ := hS.above s hs hc.1
      refine ⟨_, _, _, h.symm, bchild _ (E.sParts s) q1 ?_ q2 (fun v hv => Or.inr (List.mem_filter.1 hv).1)
        (fun v _ h2 => by simpa using h2) (fun v hg => by simpa using hg) hc.2⟩
      intro u hu
      obtain ⟨hu1, hu2⟩ := List.mem_filter.1 hu
      exact parts_strict hS hs hc.1 hu1 hu2
    · rename_i hc1 hc2
      injection h with h
      refine ⟨_, _, _, h.symm, binfo _ _ tne sne (gchild htl) (fun v hv => ⟨(schild hsl v hv).1, (schild hsl v hv).2.le⟩)
        (hT.hier t ht tne) (hS.hier s hs sne)
        (fun hr u hu v hv => ⟨Or.inl hu, Or.inr ⟨hv, by by_contra h0; exact hc1 ⟨hr, by omega⟩⟩⟩) (fun _ a b => hc2 ⟨a, b⟩)⟩
  · rename_i hcons
    split at h
    · rename_i hc
      injection h with h
      exact ⟨_, _, _, h.symm, tpart hc⟩
    rename_i hc
    split at h
    · injection h with h
      exact ⟨_, _, _, h.symm, bchild _ s.children sne (schild hsl) (hS.hier s hs sne) (fun v hv => Or.inl hv)
        (fun v h1 h2 => guardT_pass h1 h2) (fun v hg => (guardT_inv hg).1) (by omega)⟩
    split at h
    · injection h with h
      exact ⟨_, _, _, h.symm, binfo _ _ tne (by simp) (gchild htl) sself
        (hT.hier t ht tne) (tiles_single s) (fun hr => absurd hr hc) (fun a => absurd a hcons)⟩
    · injection h with h
      exact ⟨_, _, _, h.symm, binfo _ _ tne sne (gchild htl) (fun v hv => ⟨(schild hsl v hv).1, (schild hsl v hv).2.le⟩)
        (hT.hier t ht tne) (hS.hier s hs sne) (fun hr => absurd hr hc) (fun a => absurd a hcons)⟩

/-- Blocks which must hold data. -/
def BNode.isData (b : BNode G) : Prop := b.kind ≠ .hier

/-- Terminal step of the recursion, or split. -/
theorem buildBlockTree_inv {E : BEnv G} {f : ℕ} {t s : CTree G} {b : BTree G}
    (h : buildBlockTree E f t s = some b) :
    ∃ f', f = f' + 1 ∧
    ((E.step t s = .adm ∧ b = .node ⟨t, s, .adm, E.symFlag t s⟩ []) ∨
     (E.step t s = .dense ∧ b = .node ⟨t, s, .dense, E.symFlag t s⟩ []) ∨
     ∃ l cs, E.step t s = .split l ∧ b = .node ⟨t, s, .hier, E.symFlag t s⟩ cs ∧
       List.Forall₂ (fun x c => buildBlockTree E f' x.1 x.2 = some c) l cs) := by
  cases f with
  | zero => simp [buildBlockTree] at h
  | succ f =>
    refine ⟨f, rfl, ?_⟩
    rw [buildBlockTree] at h
    cases hst : E.step t s with
    | adm => simp only [hst, Option.some.injEq] at h; exact Or.inl ⟨rfl, h.symm⟩
    | dense => simp only [hst, Option.some.injEq] at h; exact Or.inr (Or.inl ⟨rfl, h.symm⟩)
    | split l =>
      simp only [hst] at h
      cases hm : mapOpt (fun x => buildBlockTree E f x.1 x.2) l with
      | none => simp [hm] at h
      | some cs =>
        simp only [hm, Option.some.injEq] at h
        exact Or.inr (Or.inr ⟨l, cs, rfl, h.symm, mapOpt_length hm⟩)

/-- Termination: enough fuel is the number of clusters of the two trees. -/
theorem buildBlockTree_some {E : BEnv G} (hT : E.tct.WF) (hS : E.sct.WF) :
    ∀ (f : ℕ) (t s : CTree G), t ∈ E.tct.root.pre → s ∈ E.sct.root.pre → t.count + s.count ≤ f →
      ∃ b, buildBlockTree E f t s = some b := by
  intro f
  induction f with
  | zero => intro t s _ _ h; have := Tree.count_pos t; omega
  | succ f ih =>
    intro t s ht hs hf
    rw [buildBlockTree]
    cases hst : E.step t s with
    | adm => exact ⟨_, rfl⟩
    | dense => exact ⟨_, rfl⟩
    | split l =>
      obtain ⟨ts, ss, g, rfl, hI⟩ := step_split hT hS ht hs hst
      obtain ⟨cs, hcs⟩ := mapOpt_some (f := fun x => buildBlockTree E f x.1 x.2)
        (l := (pairs ts ss).filter g) (by
          intro x hx
          obtain ⟨u, v⟩ := x
          have hm := pair_mem_pairs.1 (List.mem_filter.1 hx).1
          exact ih u v (Tree.mem_pre_trans ht (hI.ts_mem u hm.1)) (Tree.mem_pre_trans hs (hI.ss_mem v hm.2))
            (by have := hI.lt u hm.1 v hm.2; omega))
      exact ⟨_, by simp only [hcs]; rfl⟩

/-- If nothing below `(t,s)` is removed and everything is in the target partition, the leaves of the block tree are dense or
admissible and cover every entry of `t × s` exactly once. -/
theorem full_cover {E : BEnv G} (hT : E.tct.WF) (hS : E.sct.WF) :
    ∀ (f : ℕ) (t s : CTree G) (b : BTree G), t ∈ E.tct.root.pre → s ∈ E.sct.root.pre →
      (∀ u ∈ t.pre, E.inPart u = true) → (∀ u ∈ t.pre, ∀ v ∈ s.pre, E.removed u v = false) →
      buildBlockTree E f t s = some b →
      b.label.t = t ∧ b.label.s = s ∧ (∀ c ∈ b.leaves, c.label.isData) ∧
      (∀ i j, cover b.leaves i j = ind i t.iv * ind j s.iv) ∧
      (∀ c ∈ b.leaves, c.label.t ∈ t.pre ∧ c.label.s ∈ s.pre) := by
  intro f
  induction f with
  | zero => intro t s b _ _ _ _ h; simp [buildBlockTree] at h
  | succ f ih =>
    intro t s b ht hs hP hR h
    obtain ⟨f', hf, h⟩ := buildBlockTree_inv h
    obtain rfl : f = f' := by omega
    rcases h with ⟨-, rfl⟩ | ⟨-, rfl⟩ | ⟨l, cs, hst, rfl, hcs⟩
    · simp [Tree.leaves, BNode.isData, Tree.mem_pre_self]
    · simp [Tree.leaves, BNode.isData, Tree.mem_pre_self]
    · obtain ⟨ts, ss, g, rfl, hI⟩ := step_split hT hS ht hs hst
      have hall : (pairs ts ss).filter g = pairs ts ss := by
        rw [List.filter_eq_self]
        rintro ⟨u, v⟩ hx
        have hm := pair_mem_pairs.1 hx
        exact hI.pass u hm.1 v hm.2 (hP u (hI.ts_mem u hm.1))
          (hR u (hI.ts_mem u hm.1) v (hI.ss_mem v hm.2))
      rw [hall] at hcs
      have key : ∀ x ∈ pairs ts ss, ∀ c, buildBlockTree E f x.1 x.2 = some c →
          (∀ d ∈ c.leaves, d.label.isData) ∧
          (∀ i j, cover c.leaves i j = ind i x.1.iv * ind j x.2.iv) ∧
          (∀ d ∈ c.leaves, d.label.t ∈ t.pre ∧ d.label.s ∈ s.pre) := by
        rintro ⟨u, v⟩ hx c hc
        have hm := pair_mem_pairs.1 hx
        have hu := hI.ts_mem u hm.1
        have hv := hI.ss_mem v hm.2
        obtain ⟨-, -, a1, a2, a3⟩ := ih u v c (Tree.mem_pre_trans ht hu) (Tree.mem_pre_trans hs hv)
          (fun w hw => hP w (Tree.mem_pre_trans hu hw))
          (fun w hw z hz => hR w (Tree.mem_pre_trans hu hw) z (Tree.mem_pre_trans hv hz)) hc
        exact ⟨a1, a2, fun d hd => ⟨Tree.mem_pre_trans hu (a3 d hd).1, Tree.mem_pre_trans hv (a3 d hd).2⟩⟩
      have hne : cs ≠ [] := by
        obtain ⟨u, us, rfl⟩ := List.exists_cons_of_ne_nil hI.ts_ne
        obtain ⟨v, vs, rfl⟩ := List.exists_cons_of_ne_nil hI.ss_ne
        intro h0
        subst h0
        have := hcs.length_eq
        simp [pairs] at this
      refine ⟨rfl, rfl, ?_, ?_, ?_⟩
      · intro c hc
        rw [Tree.leaves_node_ne hne, Tree.leavesL_eq, List.mem_flatMap] at hc
        obtain ⟨d, hd, hc⟩ := hc
        obtain ⟨x, hx, hxd⟩ := forall₂_mem_right hcs hd
        exact (key x hx d hxd).1 c hc
      · intro i j
        rw [Tree.leaves_node_ne hne, Tree.leavesL_eq, cover_flatMap,
          forall₂_sum hcs (fun x => ind i x.1.iv * ind j x.2.iv) (fun c => cover c.leaves i j)
            (fun x hx c hc => (key x hx c hc).2.1 i j)]
        rw [sum_product ts ss (fun u => ind i u.iv) (fun v => ind j v.iv), ind_sum_iv hI.ts_tiles,
          ind_sum_iv hI.ss_tiles]
      · intro c hc
        rw [Tree.leaves_node_ne hne, Tree.leavesL_eq, List.mem_flatMap] at hc
        obtain ⟨d, hd, hc⟩ := hc
        obtain ⟨x, hx, hxd⟩ := forall₂_mem_right hcs hd
        exact (key x hx d hxd).2.2 c hc

end Htool
