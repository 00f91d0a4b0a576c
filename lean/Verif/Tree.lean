import Mathlib.Data.List.Basic
import Mathlib.Data.List.Nodup
import Mathlib.Tactic.Ring
import Mathlib.Tactic.Linarith
import Mathlib.Algebra.Order.BigOperators.Group.List

/-!
# Trees

Model of `include/htool/basic_types/tree.hpp`.
-/

namespace Htool

/-- `TreeNode<Derived, TreeData>` (tree.hpp 21-65): a label and an ordered list of children.
Simplification: parent pointers, `m_tree_data` and ownership are dropped; `m_depth`, when needed,
is a field of the label. -/
inductive Tree (α : Type*) where
  | node : α → List (Tree α) → Tree α

namespace Tree
variable {α β : Type*}

/-- The node's own data members. -/
def label : Tree α → α
  | node a _ => a

/-- `get_children` (tree.hpp 58). -/
def children : Tree α → List (Tree α)
  | node _ cs => cs

/-- `is_leaf` (tree.hpp 61): no child. -/
def isLeaf (t : Tree α) : Bool := t.children.isEmpty

@[simp] theorem label_node (a : α) (cs) : (node a cs).label = a := rfl
@[simp] theorem children_node (a : α) (cs) : (node a cs).children = cs := rfl

/-- Induction principle on rose trees. -/
theorem ind {motive : Tree α → Prop}
    (h : ∀ a cs, (∀ c ∈ cs, motive c) → motive (node a cs)) : ∀ t, motive t := by
  intro t
  exact Tree.rec (motive_1 := motive) (motive_2 := fun cs => ∀ c ∈ cs, motive c)
    (fun a cs ih => h a cs ih)
    (fun c hc => by simp at hc)
    (fun c cs hc hcs d hd => by
      rcases List.mem_cons.1 hd with rfl | hd
      · exact hc
      · exact hcs d hd) t

mutual
/-- Number of nodes. -/
def count : Tree α → ℕ
  | node _ cs => 1 + countL cs
/-- Number of nodes of a list of trees. -/
def countL : List (Tree α) → ℕ
  | [] => 0
  | c :: cs => count c + countL cs
end

theorem countL_eq (cs : List (Tree α)) : countL cs = (cs.map count).sum := by
  induction cs with
  | nil => rfl
  | cons c cs ih => simp [countL, ih]

@[simp] theorem countL_nil : countL ([] : List (Tree α)) = 0 := rfl
@[simp] theorem countL_cons (c : Tree α) (cs) : countL (c :: cs) = count c + countL cs := rfl
@[simp] theorem countL_append (xs ys : List (Tree α)) :
    countL (xs ++ ys) = countL xs + countL ys := by
  simp [countL_eq]
@[simp] theorem countL_reverse (xs : List (Tree α)) : countL xs.reverse = countL xs := by
  simp [countL_eq, List.sum_reverse]

theorem count_node (a : α) (cs) : count (node a cs) = 1 + countL cs := rfl

theorem count_pos (t : Tree α) : 0 < t.count := by
  cases t; simp [count_node]

theorem count_le_countL {c : Tree α} {cs : List (Tree α)} (h : c ∈ cs) : c.count ≤ countL cs := by
  induction cs with
  | nil => simp at h
  | cons d ds ih =>
    rcases List.mem_cons.1 h with rfl | h
    · simp
    · have := ih h; simp; omega

theorem count_child_lt {c t : Tree α} (h : c ∈ t.children) : c.count < t.count := by
  cases t with
  | node a cs => have := count_le_countL (show c ∈ cs from h); rw [count_node]; omega

/-- Pushing a sequence of elements one by one on a `std::stack` (top = head of the list). -/
def pushAll (xs : List β) (st : List β) : List β := xs.foldl (fun s x => x :: s) st

theorem pushAll_eq (xs st : List β) : pushAll xs st = xs.reverse ++ st := by
  induction xs generalizing st with
  | nil => rfl
  | cons x xs ih =>
    show pushAll xs (x :: st) = _
    rw [ih]; simp

/-- The loop of `preorder_tree_traversal` (tree.hpp 67-80): pop the top of the stack, visit it, push its
children from the last to the first. Returns the nodes in the order they are visited. -/
def preorderLoop (stack : List (Tree α)) : List (Tree α) :=
  match stack with
  | [] => []
  | node a cs :: rest => node a cs :: preorderLoop (pushAll cs.reverse rest)
  termination_by countL stack
  decreasing_by simp [pushAll_eq, count_node]

/-- `preorder_tree_traversal` (tree.hpp 67-80): nodes in visiting order. -/
def preorderTraversal (t : Tree α) : List (Tree α) := preorderLoop [t]

mutual
/-- `postorder_tree_traversal` (tree.hpp 82-89): nodes in visiting order. -/
def postorderTraversal : Tree α → List (Tree α)
  | node a cs => postorderTraversalL cs ++ [node a cs]
/-- The `for` loop of `postorder_tree_traversal` (tree.hpp 84-87). -/
def postorderTraversalL : List (Tree α) → List (Tree α)
  | [] => []
  | c :: cs => postorderTraversal c ++ postorderTraversalL cs
end

mutual
/-- Recursive preorder (used by helper lemmas). -/
def pre : Tree α → List (Tree α)
  | node a cs => node a cs :: preL cs
/-- Recursive preorder of a forest. -/
def preL : List (Tree α) → List (Tree α)
  | [] => []
  | c :: cs => pre c ++ preL cs
end

@[simp] theorem preL_append (xs ys : List (Tree α)) : preL (xs ++ ys) = preL xs ++ preL ys := by
  induction xs with
  | nil => rfl
  | cons x xs ih => simp [preL, ih]

theorem preorderLoop_eq (stack : List (Tree α)) : preorderLoop stack = preL stack := by
  induction h : countL stack using Nat.strong_induction_on generalizing stack with
  | _ n ih =>
    match stack with
    | [] => simp [preorderLoop, preL]
    | node a cs :: rest =>
      rw [preorderLoop, pushAll_eq, List.reverse_reverse]
      rw [ih (countL (cs ++ rest)) (by subst h; simp [count_node]) _ rfl]
      simp [preL, pre]

/-- The explicit-stack traversal is the recursive preorder. -/
theorem preorderTraversal_eq (t : Tree α) : preorderTraversal t = pre t := by
  rw [preorderTraversal, preorderLoop_eq]; simp [preL]

mutual
/-- Leaves from left to right. -/
def leaves : Tree α → List (Tree α)
  | node a [] => [node a []]
  | node _ (c :: cs) => leaves c ++ leavesL cs
/-- Leaves of a forest from left to right. -/
def leavesL : List (Tree α) → List (Tree α)
  | [] => []
  | c :: cs => leaves c ++ leavesL cs
end

theorem leavesL_eq (cs : List (Tree α)) : leavesL cs = cs.flatMap leaves := by
  induction cs with
  | nil => rfl
  | cons c cs ih => simp [leavesL, ih]

theorem leaves_node_ne {a : α} {cs : List (Tree α)} (h : cs ≠ []) :
    leaves (node a cs) = leavesL cs := by
  cases cs with
  | nil => exact absurd rfl h
  | cons c cs => simp [leaves, leavesL]

/-! ### Paths: an address for every node, independent of any traversal -/

/-- The node reached from the root by following child indices. -/
def at? : Tree α → List ℕ → Option (Tree α)
  | t, [] => some t
  | t, i :: p => match t.children[i]? with
    | some c => c.at? p
    | none => none

mutual
/-- All addresses, in lexicographic order. -/
def paths : Tree α → List (List ℕ)
  | node _ cs => [] :: pathsL 0 cs
/-- Addresses in a forest whose first tree has index `k`. -/
def pathsL : ℕ → List (Tree α) → List (List ℕ)
  | _, [] => []
  | k, c :: cs => (paths c).map (k :: ·) ++ pathsL (k + 1) cs
end

mutual
/-- All addresses, children first. -/
def postPaths : Tree α → List (List ℕ)
  | node _ cs => postPathsL 0 cs ++ [[]]
/-- Addresses in a forest whose first tree has index `k`, children first. -/
def postPathsL : ℕ → List (Tree α) → List (List ℕ)
  | _, [] => []
  | k, c :: cs => (postPaths c).map (k :: ·) ++ postPathsL (k + 1) cs
end

theorem mem_pathsL (cs : List (Tree α)) (k : ℕ) (q : List ℕ) :
    q ∈ pathsL k cs ↔ ∃ i p c, q = (k + i) :: p ∧ cs[i]? = some c ∧ p ∈ paths c := by
  induction cs generalizing k with
  | nil => simp [pathsL]
  | cons c cs ih =>
    simp only [pathsL, List.mem_append, List.mem_map, ih]
    constructor
    · rintro (⟨p, hp, rfl⟩ | ⟨i, p, d, rfl, hd, hp⟩)
      · exact ⟨0, p, c, by simp, by simp, hp⟩
      · exact ⟨i + 1, p, d, by ring_nf, by simpa using hd, hp⟩
    · rintro ⟨i, p, d, rfl, hd, hp⟩
      cases i with
      | zero => left; simp at hd; subst hd; exact ⟨p, hp, by simp⟩
      | succ i => right; exact ⟨i, p, d, by ring_nf, by simpa using hd, hp⟩

theorem mem_postPathsL (cs : List (Tree α)) (k : ℕ) (q : List ℕ) :
    q ∈ postPathsL k cs ↔ ∃ i p c, q = (k + i) :: p ∧ cs[i]? = some c ∧ p ∈ postPaths c := by
  induction cs generalizing k with
  | nil => simp [postPathsL]
  | cons c cs ih =>
    simp only [postPathsL, List.mem_append, List.mem_map, ih]
    constructor
    · rintro (⟨p, hp, rfl⟩ | ⟨i, p, d, rfl, hd, hp⟩)
      · exact ⟨0, p, c, by simp, by simp, hp⟩
      · exact ⟨i + 1, p, d, by ring_nf, by simpa using hd, hp⟩
    · rintro ⟨i, p, d, rfl, hd, hp⟩
      cases i with
      | zero => left; simp at hd; subst hd; exact ⟨p, hp, by simp⟩
      | succ i => right; exact ⟨i, p, d, by ring_nf, by simpa using hd, hp⟩

theorem mem_paths (t : Tree α) : ∀ q, q ∈ paths t ↔ (t.at? q).isSome := by
  induction t using Tree.ind with
  | h a cs ih =>
    intro q
    simp only [paths, List.mem_cons, mem_pathsL]
    cases q with
    | nil => simp [at?]
    | cons i p =>
      simp only [at?, children_node]
      constructor
      · rintro (h | ⟨j, p', c, h, hc, hp⟩)
        · simp at h
        · simp at h; obtain ⟨rfl, rfl⟩ := h
          simp only [hc]
          exact (ih c (List.mem_of_getElem? hc) _).1 hp
      · intro h
        right
        cases hc : cs[i]? with
        | none => simp [hc] at h
        | some c =>
          simp only [hc] at h
          exact ⟨i, p, c, by simp, hc, (ih c (List.mem_of_getElem? hc) _).2 h⟩

theorem mem_postPaths (t : Tree α) : ∀ q, q ∈ postPaths t ↔ (t.at? q).isSome := by
  induction t using Tree.ind with
  | h a cs ih =>
    intro q
    simp only [postPaths, List.mem_append, List.mem_singleton, mem_postPathsL]
    cases q with
    | nil => simp [at?]
    | cons i p =>
      simp only [at?, children_node]
      constructor
      · rintro (⟨j, p', c, h, hc, hp⟩ | h)
        · simp at h; obtain ⟨rfl, rfl⟩ := h
          simp only [hc]
          exact (ih c (List.mem_of_getElem? hc) _).1 hp
        · simp at h
      · intro h
        left
        cases hc : cs[i]? with
        | none => simp [hc] at h
        | some c =>
          simp only [hc] at h
          exact ⟨i, p, c, by simp, hc, (ih c (List.mem_of_getElem? hc) _).2 h⟩

theorem paths_map_at (t : Tree α) : t.paths.map t.at? = t.pre.map some := by
  induction t using Tree.ind with
  | h a cs ih =>
    simp only [paths, pre, List.map_cons, at?]
    congr 1
    -- generalise over the suffix of the children list
    have key : ∀ (done todo : List (Tree α)), done ++ todo = cs →
        (pathsL done.length todo).map (node a cs).at? = (preL todo).map some := by
      intro done todo
      induction todo generalizing done with
      | nil => intro _; rfl
      | cons c todo ih2 =>
        intro h
        simp only [pathsL, preL, List.map_append, List.map_map]
        congr 1
        · rw [← ih c (by rw [← h]; simp)]
          apply List.map_congr_left
          intro p _
          simp [at?, ← h]
        · have := ih2 (done ++ [c]) (by simpa using h)
          simpa using this
    simpa using key [] cs rfl

theorem postPaths_map_at (t : Tree α) :
    t.postPaths.map t.at? = t.postorderTraversal.map some := by
  induction t using Tree.ind with
  | h a cs ih =>
    simp only [postPaths, postorderTraversal, List.map_append, List.map_cons, at?, List.map_nil]
    congr 1
    have key : ∀ (done todo : List (Tree α)), done ++ todo = cs →
        (postPathsL done.length todo).map (node a cs).at? =
          (postorderTraversalL todo).map some := by
      intro done todo
      induction todo generalizing done with
      | nil => intro _; rfl
      | cons c todo ih2 =>
        intro h
        simp only [postPathsL, postorderTraversalL, List.map_append, List.map_map]
        congr 1
        · rw [← ih c (by rw [← h]; simp)]
          apply List.map_congr_left
          intro p _
          simp [at?, ← h]
        · have := ih2 (done ++ [c]) (by simpa using h)
          simpa using this
    simpa using key [] cs rfl

/-- Order of addresses in a preorder traversal: a node comes before its descendants, and the
descendants of child `i` before those of child `j` when `i < j`. -/
def PreLt : List ℕ → List ℕ → Prop
  | _, [] => False
  | [], _ :: _ => True
  | i :: p, j :: q => i < j ∨ (i = j ∧ PreLt p q)

/-- Order of addresses in a postorder traversal: a node comes after its descendants, and the
descendants of child `i` before those of child `j` when `i < j`. -/
def PostLt : List ℕ → List ℕ → Prop
  | [], _ => False
  | _ :: _, [] => True
  | i :: p, j :: q => i < j ∨ (i = j ∧ PostLt p q)

theorem PreLt.irrefl : ∀ p, ¬ PreLt p p
  | [] => by simp [PreLt]
  | i :: p => by simp [PreLt, PreLt.irrefl p]

theorem PostLt.irrefl : ∀ p, ¬ PostLt p p
  | [] => by simp [PostLt]
  | i :: p => by simp [PostLt, PostLt.irrefl p]

theorem paths_sorted (t : Tree α) : t.paths.Pairwise PreLt := by
  induction t using Tree.ind with
  | h a cs ih =>
    simp only [paths, List.pairwise_cons, mem_pathsL]
    constructor
    · rintro q ⟨i, p, c, rfl, -, -⟩; simp [PreLt]
    · generalize 0 = k
      induction cs generalizing k with
      | nil => simp [pathsL]
      | cons c cs ih2 =>
        simp only [pathsL, List.pairwise_append, List.pairwise_map]
        refine ⟨?_, ih2 (fun d hd => ih d (by simp [hd])) _, ?_⟩
        · exact (ih c (by simp)).imp (fun h => Or.inr ⟨rfl, h⟩)
        · intro q hq r hr
          obtain ⟨p, -, rfl⟩ := List.mem_map.1 hq
          obtain ⟨i, p', d, rfl, -, -⟩ := (mem_pathsL _ _ _).1 hr
          simp [PreLt]; omega

theorem postPaths_sorted (t : Tree α) : t.postPaths.Pairwise PostLt := by
  induction t using Tree.ind with
  | h a cs ih =>
    simp only [postPaths, List.pairwise_append, mem_postPathsL]
    refine ⟨?_, by simp, ?_⟩
    · generalize 0 = k
      induction cs generalizing k with
      | nil => simp [postPathsL]
      | cons c cs ih2 =>
        simp only [postPathsL, List.pairwise_append, List.pairwise_map]
        refine ⟨?_, ih2 (fun d hd => ih d (by simp [hd])) _, ?_⟩
        · exact (ih c (by simp)).imp (fun h => Or.inr ⟨rfl, h⟩)
        · intro q hq r hr
          obtain ⟨p, -, rfl⟩ := List.mem_map.1 hq
          obtain ⟨i, p', d, rfl, -, -⟩ := (mem_postPathsL _ _ _).1 hr
          simp [PostLt]; omega
    · rintro q ⟨i, p, c, rfl, -, -⟩ r hr
      simp at hr; subst hr; simp [PostLt]

/-- All nodes of a tree, as subtrees. -/
theorem mem_pre_self (t : Tree α) : t ∈ t.pre := by cases t; simp [pre]

theorem mem_preL {cs : List (Tree α)} {s : Tree α} : s ∈ preL cs ↔ ∃ c ∈ cs, s ∈ pre c := by
  induction cs with
  | nil => simp [preL]
  | cons c cs ih => simp [preL, ih]

theorem mem_pre {t s : Tree α} : s ∈ t.pre ↔ s = t ∨ ∃ c ∈ t.children, s ∈ c.pre := by
  cases t; simp [pre, mem_preL]

theorem mem_pre_trans {t s u : Tree α} (h1 : s ∈ t.pre) (h2 : u ∈ s.pre) : u ∈ t.pre := by
  induction t using Tree.ind with
  | h a cs ih =>
    rcases mem_pre.1 h1 with rfl | ⟨c, hc, hs⟩
    · exact h2
    · exact mem_pre.2 (Or.inr ⟨c, hc, ih c hc hs⟩)

theorem mem_leavesL {cs : List (Tree α)} {s : Tree α} :
    s ∈ leavesL cs ↔ ∃ c ∈ cs, s ∈ leaves c := by
  simp [leavesL_eq]

theorem leaves_ne_nil (t : Tree α) : t.leaves ≠ [] := by
  induction t using Tree.ind with
  | h a cs ih =>
    cases cs with
    | nil => simp [leaves]
    | cons c cs => simp [leaves, ih c (by simp)]

theorem mem_leaves_iff (t s : Tree α) : s ∈ t.leaves ↔ s ∈ t.pre ∧ s.children = [] := by
  induction t using Tree.ind with
  | h a cs ih =>
    cases cs with
    | nil =>
      simp only [leaves, List.mem_singleton, pre, preL]
      constructor
      · rintro rfl; simp
      · exact fun h => h.1
    | cons c cs =>
      rw [leaves_node_ne (by simp), mem_leavesL, mem_pre]
      constructor
      · rintro ⟨d, hd, hs⟩
        have := (ih d hd).1 hs
        exact ⟨Or.inr ⟨d, hd, this.1⟩, this.2⟩
      · rintro ⟨rfl | ⟨d, hd, hs⟩, h⟩
        · simp at h
        · exact ⟨d, hd, (ih d hd).2 ⟨hs, h⟩⟩

end Tree
end Htool
