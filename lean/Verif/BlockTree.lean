import Verif.ClusterLemmas

/-! # Building a block tree

Model of `include/htool/hmatrix/tree_builder/tree_builder.hpp` (`build_block_tree`, `reset_root_of_block_tree`,
`is_removed_by_symmetry`, `set_hmatrix_symmetry`) and of `get_leaves_from` (`hmatrix/hmatrix.hpp`). -/

namespace Htool
variable {G : Type*}

/-- A cluster pointer seen from the matrix code: the node with all its descendants. -/
abbrev CTree (G : Type*) := Tree (CNode G)

namespace Tree
/-- `get_offset` (cluster_node.hpp 58). -/
def off (t : CTree G) : ℕ := t.label.offset
/-- `get_size` (cluster_node.hpp 59). -/
def sz (t : CTree G) : ℕ := t.label.size
/-- One past the last index of a cluster. -/
def fin (t : CTree G) : ℕ := t.off + t.sz
/-- `get_rank` (cluster_node.hpp 57). -/
def rk (t : CTree G) : ℤ := t.label.rank
/-- The interval of a cluster. -/
def iv (t : CTree G) : ℕ × ℕ := (t.off, t.sz)
end Tree

open Htool.Tree (iv)

/-- `left_cluster_contains_right_cluster` (cluster_node.hpp 89-96). -/
def leftContainsRight (a b : CTree G) : Bool :=
  decide (a.off ≤ b.off) && decide (b.sz + b.off ≤ a.sz + a.off)

/-- A whole cluster tree with the shared `m_clusters_on_partition` (cluster_tree_data.hpp 14-28). -/
structure ClusterTree (G : Type*) where
  root : CTree G
  parts : List (CTree G)

/-- Symmetry types of the builder: 'N', 'S', 'H'. -/
inductive SymType where
  | N | S | H
deriving DecidableEq, Repr

/-- UPLO types of the builder: 'N', 'L', 'U'. -/
inductive UploType where
  | N | L | U
deriving DecidableEq, Repr

/-- Parameters of `HMatrixTreeBuilder` (tree_builder.hpp 36-58). `-1` for a partition number is `none`;
`adm` is `ComputeAdmissibility` with its `eta`. `tct` and `sct` are the cluster trees the two root clusters belong to. -/
structure BEnv (G : Type*) where
  tct : ClusterTree G
  sct : ClusterTree G
  adm : CNode G → CNode G → Bool
  mint : ℕ
  mins : ℕ
  tp : Option ℕ
  sym : SymType
  uplo : UploType
  psym : Option ℕ
  consistent : Bool

namespace BEnv
variable (E : BEnv G)

/-- `is_target_cluster_in_target_partition` (tree_builder.hpp 68-70). -/
def inPart (t : CTree G) : Bool :=
  match E.tp with
  | none => true
  | some p => decide (t.rk = (p : ℤ))

/-- `is_removed_by_symmetry` (tree_builder.hpp 71-87). A partition number out of range is undefined behaviour in the code;
here it gives `false`. -/
def removed (t s : CTree G) : Bool :=
  decide (E.sym ≠ .N) &&
  ((decide (E.uplo = .U) && decide (s.off + s.sz ≤ t.off) &&
      (match E.psym with
       | none => true
       | some q =>
         match E.sct.parts[q]?, E.tct.parts[q]? with
         | some sp, some tp =>
           decide (sp.off ≤ s.off) && decide (tp.off ≤ t.off) && decide (t.off + t.sz ≤ tp.off + tp.sz)
         | _, _ => false)) ||
   (decide (E.uplo = .L) && decide (t.off + t.sz ≤ s.off) &&
      (match E.psym with
       | none => true
       | some q =>
         match E.sct.parts[q]?, E.tct.parts[q]? with
         | some sp, some tp =>
           decide (s.off < sp.off + sp.sz) && decide (tp.off ≤ t.off) &&
             decide (t.off + t.sz ≤ tp.off + tp.sz)
         | _, _ => false)))

/-- The condition of `set_hmatrix_symmetry` (tree_builder.hpp 102-109). -/
def symFlag (t s : CTree G) : Bool :=
  decide (E.sym ≠ .N) && decide (t.off = s.off) && decide (t.sz = s.sz)

/-- Condition under which a block is an admissible task (tree_builder.hpp 246). -/
def isAdmTask (t s : CTree G) : Bool :=
  E.adm t.label s.label && E.inPart t && !E.removed t s && decide (E.mint ≤ t.label.depth) &&
    decide (E.mins ≤ s.label.depth) && decide (0 ≤ t.rk) && (!E.consistent || decide (0 ≤ s.rk))

/-- The guard in most loops (e.g. tree_builder.hpp 253). -/
def guardT (u v : CTree G) : Bool := (E.inPart u || decide (u.rk < 0)) && !E.removed u v

/-- The partition clusters contained in a target cluster (e.g. tree_builder.hpp 271-272). -/
def tParts (t : CTree G) : List (CTree G) := E.tct.parts.filter (fun u => leftContainsRight t u)

/-- The partition clusters contained in a source cluster (tree_builder.hpp 280-281). -/
def sParts (s : CTree G) : List (CTree G) := E.sct.parts.filter (fun u => leftContainsRight s u)

end BEnv

/-- A double loop, first list outside. -/
def pairs {α β : Type*} (ts : List α) (ss : List β) : List (α × β) := ts.flatMap (fun a => ss.map (fun b => (a, b)))

/-- What `build_block_tree` does with a block: push it as an admissible task, as a dense task, or give it children. -/
inductive Step (G : Type*) where
  | adm
  | dense
  | split (l : List (CTree G × CTree G))

/-- The case analysis of `build_block_tree` (tree_builder.hpp 222-333): target and source candidates and the guard. The double
loops are target-major. -/
def BEnv.step (E : BEnv G) (t s : CTree G) : Step G :=
  if E.isAdmTask t s then .adm
  else if s.isLeaf && t.isLeaf then .dense
  else if s.isLeaf then
    .split ((pairs t.children [s]).filter (fun x => E.guardT x.1 x.2))
  else if t.isLeaf then
    .split ((pairs [t] s.children).filter (fun x => !E.removed x.1 x.2))
  else if E.consistent then
    if t.rk < 0 ∧ 0 ≤ s.rk then
      .split ((pairs (E.tParts t) [s]).filter (fun x => E.guardT x.1 x.2))
    else if s.rk < 0 ∧ 0 ≤ t.rk then
      .split ((pairs [t] (E.sParts s)).filter (fun x => !E.removed x.1 x.2))
    else
      .split ((pairs t.children s.children).filter (fun x => E.guardT x.1 x.2))
  else
    if t.rk < 0 then
      .split ((pairs (E.tParts t) [s]).filter (fun x => E.guardT x.1 x.2))
    else if t.sz < s.sz then
      .split ((pairs [t] s.children).filter (fun x => E.guardT x.1 x.2))
    else if s.sz < t.sz then
      .split ((pairs t.children [s]).filter (fun x => E.guardT x.1 x.2))
    else
      .split ((pairs t.children s.children).filter (fun x => E.guardT x.1 x.2))

/-- How a block was registered by `build_block_tree`: in `m_admissible_tasks`, in `m_dense_tasks`, or in none (its storage stays
`Hierarchical`). -/
inductive BKind where
  | adm | dense | hier
deriving DecidableEq, Repr

/-- The data members of an `HMatrix` node set while building the block tree (hmatrix.hpp 36-46): clusters, `m_symmetry != 'N'`. -/
structure BNode (G : Type*) where
  t : CTree G
  s : CTree G
  kind : BKind
  sym : Bool

abbrev BTree (G : Type*) := Tree (BNode G)

/-- Running a partial function on all elements. -/
def mapOpt {α β : Type*} (f : α → Option β) : List α → Option (List β)
  | [] => some []
  | a :: l =>
    match f a, mapOpt f l with
    | some b, some bs => some (b :: bs)
    | _, _ => none

/-- `build_block_tree` (tree_builder.hpp 222-333). `fuel` bounds the nesting of the recursion (`none` = not finished). The symmetry
flag of a child is set when it is added (e.g. 255). -/
def buildBlockTree (E : BEnv G) : ℕ → CTree G → CTree G → Option (BTree G)
  | 0, _, _ => none
  | f + 1, t, s =>
    match E.step t s with
    | .adm => some (.node ⟨t, s, .adm, E.symFlag t s⟩ [])
    | .dense => some (.node ⟨t, s, .dense, E.symFlag t s⟩ [])
    | .split l =>
      match mapOpt (fun x => buildBlockTree E f x.1 x.2) l with
      | none => none
      | some cs => some (.node ⟨t, s, .hier, E.symFlag t s⟩ cs)

/-- The loop of `reset_root_of_block_tree` (tree_builder.hpp 343-357): `new_root_children`. -/
def gatherLoop (p : ℕ) : List (BTree G) → List (BTree G)
  | [] => []
  | b :: stack =>
    b.children.filter (fun c => decide (c.label.t.rk = (p : ℤ))) ++
      gatherLoop p (Tree.pushAll (b.children.filter (fun c => !decide (c.label.t.rk = (p : ℤ)))) stack)
  termination_by st => Tree.countL st
  decreasing_by
    simp only [Tree.pushAll_eq, Tree.countL_append, Tree.countL_reverse, Tree.countL_cons]
    have : ∀ (l : List (BTree G)) (q : BTree G → Bool), Tree.countL (l.filter q) ≤ Tree.countL l := by
      intro l q
      induction l with
      | nil => simp
      | cons a l ih =>
        rw [List.filter_cons]
        split
        · simp; omega
        · simp; omega
    have h1 := this b.children (fun c => !decide (c.label.t.rk = (p : ℤ)))
    cases b with
    | node a cs => simp only [Tree.children_node] at *; rw [Tree.count_node]; omega

/-- `reset_root_of_block_tree` and the final `set_hmatrix_symmetry` on the root (tree_builder.hpp 336-369 and 200). -/
def resetRoot (E : BEnv G) (b : BTree G) : BTree G :=
  match E.tp with
  | none => b
  | some p =>
    if b.label.t.rk = (p : ℤ) then b
    else
      match E.tct.parts[p]? with
      | none => b
      | some P =>
        .node { b.label with t := P, sym := E.symFlag P b.label.s } (gatherLoop p [b])

/-- The block structure of `build` (tree_builder.hpp 184-203): recursion, then root reset. -/
def buildBlocks (E : BEnv G) (fuel : ℕ) (t s : CTree G) : Option (BTree G) :=
  (buildBlockTree E fuel t s).map (resetRoot E)

/-- Test of `get_leaves_from` (hmatrix.hpp 259): target and source offsets differ. -/
def BNode.offDiag (a : BNode G) : Bool := decide (a.t.off ≠ a.s.off)

/-- The loop of `get_leaves_from` (hmatrix.hpp 240-268): pop, record leaves, push children in order. First component: leaves; second:
leaves for symmetry. -/
def leavesLoop : List (BTree G × Bool) → List (BTree G) × List (BTree G)
  | [] => ([], [])
  | (b, fl) :: stack =>
    let r := leavesLoop (Tree.pushAll (b.children.map (fun c => (c, b.label.sym || fl))) stack)
    if b.isLeaf then
      (b :: r.1, if fl && b.label.offDiag then b :: r.2 else r.2)
    else r
  termination_by st => Tree.countL (st.map Prod.fst)
  decreasing_by
    simp only [Tree.pushAll_eq, List.map_append, List.map_reverse, List.map_map, Tree.countL_append,
      Tree.countL_reverse, List.map_cons, Tree.countL_cons]
    have e : ((Prod.fst : BTree G × Bool → BTree G) ∘ fun c => (c, b.label.sym || fl)) = id := rfl
    rw [e, List.map_id]
    cases b with
    | node a cs => simp only [Tree.children_node]; rw [Tree.count_node]; omega

/-- `get_leaves_from` (hmatrix.hpp 240-268). -/
def getLeavesFrom (b : BTree G) : List (BTree G) × List (BTree G) := leavesLoop [(b, b.label.sym)]

end Htool
