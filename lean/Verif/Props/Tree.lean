import Verif.Tree

/-! # Property C12: tree traversals -/

namespace Htool
open Htool.Tree
variable {α : Type*}

/-- **C12 (preorder).** The sequence of nodes visited by `preorder_tree_traversal` is the sequence of nodes
found at a list `ps` of addresses such that: every address of the tree occurs in `ps`, none occurs twice
(`PreLt` is irreflexive), a node precedes its descendants and siblings' subtrees come left to right. -/
theorem C12_preorder_visits_each_node_once (t : Tree α) :
    ∃ ps : List (List ℕ),
      (preorderTraversal t).map some = ps.map t.at? ∧
      (∀ p, p ∈ ps ↔ (t.at? p).isSome) ∧
      ps.Nodup ∧ ps.Pairwise PreLt :=
  ⟨t.paths, by rw [preorderTraversal_eq, paths_map_at], mem_paths t,
    List.Pairwise.imp (fun {a b} (h : PreLt a b) (e : a = b) => PreLt.irrefl b (e ▸ h)) (paths_sorted t), paths_sorted t⟩

/-- **C12 (postorder).** Same for `postorder_tree_traversal`, with descendants before their ancestors. -/
theorem C12_postorder_visits_each_node_once (t : Tree α) :
    ∃ ps : List (List ℕ),
      (postorderTraversal t).map some = ps.map t.at? ∧
      (∀ p, p ∈ ps ↔ (t.at? p).isSome) ∧
      ps.Nodup ∧ ps.Pairwise PostLt :=
  ⟨t.postPaths, by rw [postPaths_map_at], mem_postPaths t,
    List.Pairwise.imp (fun {a b} (h : PostLt a b) (e : a = b) => PostLt.irrefl b (e ▸ h)) (postPaths_sorted t),
    postPaths_sorted t⟩

/-- Non-vacuity: on a concrete tree the traversals visit the labels in the expected order. -/
example : (preorderTraversal (node 1 [node 2 [node 3 []], node 4 []])).map label = [1, 2, 3, 4] ∧
    (postorderTraversal (node 1 [node 2 [node 3 []], node 4 []])).map label = [3, 2, 4, 1] := by
  rw [preorderTraversal_eq]; exact ⟨rfl, rfl⟩

end Htool
