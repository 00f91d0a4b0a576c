import Verif.Tree
import Verif.Splitting
import Mathlib.Data.List.Perm.Basic
import Mathlib.Data.List.Nodup
import Mathlib.Data.Nat.Log

/-! # Building a cluster tree

Model of `include/htool/clustering/tree_builder/recursive_build.hpp` (`ClusterTreeBuilder::create_cluster_tree`) and of
the parts of `cluster_node.hpp` and `cluster_tree_data.hpp` it writes. -/

namespace Htool

/-- Data members of a `Cluster` (cluster_node.hpp 17-24) plus `m_depth` (tree.hpp 24) and the `is_on_partition`
argument of the child constructor (cluster_node.hpp 35). `geo` stands for `(m_radius, m_center)`, computed
when the node is created. -/
structure CNode (G : Type*) where
  offset : ℕ
  size : ℕ
  depth : ℕ
  rank : ℤ
  counter : ℕ
  onPart : Bool
  geo : G

/-- The interval of a cluster. -/
def CNode.iv {G : Type*} (c : CNode G) : ℕ × ℕ := (c.offset, c.size)

/-- `ClusterTreeData` (cluster_tree_data.hpp 14-28), the fields modified while building. -/
structure CState (G : Type*) where
  perm : List ℕ
  maxDepth : ℕ
  minDepth : ℕ
  parts : List (Option (CNode G))

/-- Everything `create_cluster_tree` holds fixed in its main loop (recursive_build.hpp 55-108): the builder's
strategies and the partition parameters. `dir`, `sort`, `split` and `geo` are arbitrary functions here:
* `dir` is the direction strategy (line 123);
* `sort d` is `std::sort` of the slice along direction `d` (lines 126-130);
* `split` is the splitting strategy (line 133), with `m_minclustersize` inside;
* `geo perm offset size` is `(compute_radius, compute_center)` (lines 139-140). -/
structure CEnv (D G : Type*) where
  nc : ℕ
  simple : Bool
  dp : ℕ
  col : ℕ
  add : ℕ
  dir : CNode G → List ℕ → D
  sort : D → List ℕ → List ℕ
  split : D → List ℕ → (offset size k : ℕ) → List (ℕ × ℕ)
  geo : List ℕ → ℕ → ℕ → G

section
variable {D G : Type*}

/-- The slice `[offset, offset+size)` of the permutation. -/
def slice (perm : List ℕ) (offset size : ℕ) : List ℕ := (perm.drop offset).take size

/-- `std::sort(permutation.begin()+offset, permutation.begin()+offset+size, …)` (recursive_build.hpp 126-130). -/
def sortSlice (sort : List ℕ → List ℕ) (perm : List ℕ) (offset size : ℕ) : List ℕ :=
  perm.take offset ++ sort (slice perm offset size) ++ perm.drop (offset + size)

/-- A cluster of this depth is on the last level above the partition (condition of lines 115, 117, 144):
`get_depth() == depth_of_partition - 1 && m_partition_type == Simple`. -/
def CEnv.lvl (E : CEnv D G) (depth : ℕ) : Bool := E.simple && decide (depth + 1 = E.dp)

/-- `current_number_of_children` (recursive_build.hpp 115-119). -/
def CEnv.numChildren (E : CEnv D G) (c : CNode G) : ℕ :=
  if E.lvl c.depth then E.col + (if c.counter + 1 = E.nc ^ c.depth then E.add else 0) else E.nc

/-- Body of the loop creating children (recursive_build.hpp 138-151). -/
def CEnv.mkChild (E : CEnv D G) (c : CNode G) (perm : List ℕ) (k : ℕ) (p : ℕ) (iv : ℕ × ℕ) :
    CNode G where
  offset := iv.1
  size := iv.2
  depth := c.depth + 1
  rank := if E.lvl c.depth then ((c.counter * E.col + p : ℕ) : ℤ) else c.rank
  counter := if E.lvl c.depth then c.counter * E.col + p else c.counter * k + p
  onPart := E.lvl c.depth
  geo := E.geo perm iv.1 iv.2

/-- Registration of a partition cluster in the child constructor (cluster_node.hpp 36-41). -/
def setPart (parts : List (Option (CNode G))) (c : CNode G) : List (Option (CNode G)) :=
  let r := c.rank.toNat
  let parts' := if r + 1 > parts.length then parts ++ List.replicate (r + 1 - parts.length) none
    else parts
  parts'.set r (some c)

/-- All constructor calls of one `for` loop (recursive_build.hpp 138-151, cluster_node.hpp 35-42). -/
def register (st : CState G) (cs : List (CNode G)) : CState G :=
  { st with parts := cs.foldl (fun ps c => if c.onPart then setPart ps c else ps) st.parts }

/-- The state update when a cluster does not split (recursive_build.hpp 157-162). Without rank only an error is logged. -/
def finishLeaf (st : CState G) (c : CNode G) : CState G :=
  if c.rank < 0 then st
  else { st with maxDepth := max st.maxDepth c.depth, minDepth := min st.minDepth c.depth }

/-- Processing of several pushed clusters: the stack is LIFO, so the last one and all its descendants are processed
before the previous one (recursive_build.hpp 110-112 and 154-156). -/
def buildList {C T S : Type*} (g : C → S → Option (T × S)) : List C → S → Option (List T × S)
  | [], st => some ([], st)
  | c :: cs, st =>
    match buildList g cs st with
    | none => none
    | some (ts, st1) =>
      match g c st1 with
      | none => none
      | some (t, st2) => some (t :: ts, st2)

/-- The main loop of `create_cluster_tree` (recursive_build.hpp 110-170) from the moment a cluster is popped to the moment
it and all its descendants are done. Simplifications: the explicit stack is a recursion in the same order; `fuel` bounds
the number of nested splits (`none` = not finished); `m_partition` of the builder (lines 165-169), which nobody
reads, is omitted. -/
def build (E : CEnv D G) : ℕ → CNode G → CState G → Option (Tree (CNode G) × CState G)
  | 0, _, _ => none
  | f + 1, c, st =>
    let k := E.numChildren c
    let d := E.dir c st.perm
    let st1 : CState G := { st with perm := sortSlice (E.sort d) st.perm c.offset c.size }
    let ivs := E.split d st1.perm c.offset c.size k
    if ivs = [] then some (Tree.node c [], finishLeaf st1 c)
    else
      let cs := ivs.mapIdx (fun p iv => E.mkChild c st1.perm k p iv)
      match buildList (build E f) cs (register st1 cs) with
      | none => none
      | some (ts, st2) => some (Tree.node c ts, st2)

/-- `UINT_MAX`, initial value of `m_min_depth` (cluster_tree_data.hpp 19). -/
def uintMax : ℕ := 4294967295

/-- Root constructor (cluster_node.hpp 28-32, cluster_tree_data.hpp 14-28): identity permutation. -/
def initState (n : ℕ) : CState G :=
  { perm := List.range n, maxDepth := 0, minDepth := uintMax, parts := [] }

/-- The root cluster (recursive_build.hpp 70-73). -/
def rootNode (E : CEnv D G) (n : ℕ) : CNode G :=
  { offset := 0, size := n, depth := 0, rank := -1, counter := 0, onPart := false,
    geo := E.geo (List.range n) 0 n }

/-- Builder settings and geometry, before the partition parameters are known. -/
structure Strategies (D G : Type*) where
  dir : CNode G → List ℕ → D
  sort : D → List ℕ → List ℕ
  split : D → List ℕ → (offset size k : ℕ) → List (ℕ × ℕ)
  geo : List ℕ → ℕ → ℕ → G

/-- Partition parameters without a given partition (recursive_build.hpp 78-80 and 93-105). `flog nc sp` is the value of
`floor(log(size_partition)/log(number_of_children))`. -/
def simpleEnv (S : Strategies D G) (flog : ℕ → ℕ → ℕ) (nc sp : ℕ) : CEnv D G where
  nc := nc
  simple := true
  dp := if nc ≤ sp then flog nc sp else 1
  col := if nc ≤ sp then nc else sp
  add := if nc ≤ sp then sp - nc ^ (flog nc sp) else 0
  dir := S.dir
  sort := S.sort
  split := S.split
  geo := S.geo

/-- Partition parameters with a given partition (recursive_build.hpp 78-83). `col` and `add` are not used. -/
def givenEnv (S : Strategies D G) (nc : ℕ) : CEnv D G where
  nc := nc
  simple := false
  dp := 1
  col := 0
  add := 0
  dir := S.dir
  sort := S.sort
  split := S.split
  geo := S.geo

/-- `create_cluster_tree` with `partition == nullptr` (recursive_build.hpp 55-173). -/
def createSimple (S : Strategies D G) (flog : ℕ → ℕ → ℕ) (fuel n nc sp : ℕ) :
    Option (Tree (CNode G) × CState G) :=
  let E := simpleEnv S flog nc sp
  build E fuel (rootNode E n) (initState n)

/-- Children of the root for a given partition (recursive_build.hpp 87-92). -/
def givenChildren (S : Strategies D G) (n : ℕ) (partition : List (ℕ × ℕ)) : List (CNode G) :=
  partition.mapIdx (fun p iv =>
    { offset := iv.1, size := iv.2, depth := 1, rank := (p : ℤ), counter := p, onPart := true,
      geo := S.geo (List.range n) iv.1 iv.2 })

/-- `create_cluster_tree` with a given partition (recursive_build.hpp 55-92 and 107-173): the root is popped, not split. -/
def createGiven (S : Strategies D G) (fuel n nc : ℕ) (partition : List (ℕ × ℕ)) :
    Option (Tree (CNode G) × CState G) :=
  let E := givenEnv S nc
  let cs := givenChildren S n partition
  match buildList (build E fuel) cs (register (initState n) cs) with
  | none => none
  | some (ts, st) => some (Tree.node (rootNode E n) ts, st)

/-- Contract of `std::sort`: the slice is permuted. -/
def SortOK (sort : D → List ℕ → List ℕ) : Prop := ∀ d l, (sort d l).Perm l

/-- Contract of a splitting strategy (proved for both strategies of htool, see `C01_…`): if it splits, there
are `k` children which tile the parent and are not empty. -/
def SplitOK (split : D → List ℕ → (offset size k : ℕ) → List (ℕ × ℕ)) : Prop :=
  ∀ d perm off size k, 1 ≤ k → split d perm off size k ≠ [] →
    (split d perm off size k).length = k ∧ Tiles off (off + size) (split d perm off size k) ∧
    ∀ iv ∈ split d perm off size k, 0 < iv.2

/-! ## Induction principle -/

theorem buildList_rec {C T S : Type*} {g : C → S → Option (T × S)}
    {P : C → S → T → S → Prop} {PL : List C → S → List T → S → Prop}
    (hg : ∀ c st t st', g c st = some (t, st') → P c st t st')
    (hnil : ∀ st, PL [] st [] st)
    (hcons : ∀ c cs st t ts st1 st2, PL cs st ts st1 → P c st1 t st2 → PL (c :: cs) st (t :: ts) st2) :
    ∀ cs st ts st', buildList g cs st = some (ts, st') → PL cs st ts st' := by
  intro cs
  induction cs with
  | nil => intro st ts st' h; simp [buildList] at h; obtain ⟨rfl, rfl⟩ := h; exact hnil _
  | cons c cs ih =>
    intro st ts st' h
    simp only [buildList] at h
    cases h1 : buildList g cs st with
    | none => simp [h1] at h
    | some r1 =>
      obtain ⟨ts1, st1⟩ := r1
      simp only [h1] at h
      cases h2 : g c st1 with
      | none => simp [h2] at h
      | some r2 =>
        obtain ⟨t, st2⟩ := r2
        simp only [h2, Option.some.injEq, Prod.mk.injEq] at h
        obtain ⟨rfl, rfl⟩ := h
        exact hcons _ _ _ _ _ _ _ (ih _ _ _ h1) (hg _ _ _ _ h2)

/-- State after sorting the slice of `c`. -/
def sorted (E : CEnv D G) (c : CNode G) (st : CState G) : CState G :=
  { st with perm := sortSlice (E.sort (E.dir c st.perm)) st.perm c.offset c.size }

/-- Intervals chosen by the splitting strategy for `c`. -/
def splitOf (E : CEnv D G) (c : CNode G) (st : CState G) : List (ℕ × ℕ) :=
  E.split (E.dir c st.perm) (sorted E c st).perm c.offset c.size (E.numChildren c)

/-- Children created for `c`. -/
def childrenOf (E : CEnv D G) (c : CNode G) (st : CState G) : List (CNode G) :=
  (splitOf E c st).mapIdx (fun p iv => E.mkChild c (sorted E c st).perm (E.numChildren c) p iv)

theorem build_succ (E : CEnv D G) (f : ℕ) (c : CNode G) (st : CState G) :
    build E (f + 1) c st = if splitOf E c st = [] then
        some (Tree.node c [], finishLeaf (sorted E c st) c)
      else match buildList (build E f) (childrenOf E c st)
          (register (sorted E c st) (childrenOf E c st)) with
        | none => none
        | some (ts, st2) => some (Tree.node c ts, st2) := rfl

theorem build_rec (E : CEnv D G)
    {P : CNode G → CState G → Tree (CNode G) → CState G → Prop}
    {PL : List (CNode G) → CState G → List (Tree (CNode G)) → CState G → Prop}
    (hleaf : ∀ c st, splitOf E c st = [] → P c st (Tree.node c []) (finishLeaf (sorted E c st) c))
    (hnode : ∀ c st ts st', splitOf E c st ≠ [] →
      PL (childrenOf E c st) (register (sorted E c st) (childrenOf E c st)) ts st' →
      P c st (Tree.node c ts) st')
    (hnil : ∀ st, PL [] st [] st)
    (hcons : ∀ c cs st t ts st1 st2, PL cs st ts st1 → P c st1 t st2 →
      PL (c :: cs) st (t :: ts) st2) :
    ∀ f c st t st', build E f c st = some (t, st') → P c st t st' := by
  intro f
  induction f with
  | zero => intro c st t st' h; simp [build] at h
  | succ f ih =>
    intro c st t st' h
    rw [build_succ] at h
    split_ifs at h with hs
    · simp only [Option.some.injEq, Prod.mk.injEq] at h
      obtain ⟨rfl, rfl⟩ := h
      exact hleaf c st hs
    · cases h1 : buildList (build E f) (childrenOf E c st)
        (register (sorted E c st) (childrenOf E c st)) with
      | none => rw [h1] at h; simp at h
      | some r =>
        obtain ⟨ts, st2⟩ := r
        rw [h1] at h
        simp only [Option.some.injEq, Prod.mk.injEq] at h
        obtain ⟨rfl, rfl⟩ := h
        exact hnode c st ts st2 hs (buildList_rec ih hnil hcons _ _ _ _ h1)

@[simp] theorem register_perm (st : CState G) (cs) : (register st cs).perm = st.perm := rfl
@[simp] theorem register_maxDepth (st : CState G) (cs) : (register st cs).maxDepth = st.maxDepth := rfl
@[simp] theorem register_minDepth (st : CState G) (cs) : (register st cs).minDepth = st.minDepth := rfl
@[simp] theorem finishLeaf_perm (st : CState G) (c) : (finishLeaf st c).perm = st.perm := by
  unfold finishLeaf; split <;> rfl
@[simp] theorem finishLeaf_parts (st : CState G) (c) : (finishLeaf st c).parts = st.parts := by
  unfold finishLeaf; split <;> rfl
@[simp] theorem sorted_parts (E : CEnv D G) (c) (st : CState G) : (sorted E c st).parts = st.parts := rfl
@[simp] theorem sorted_maxDepth (E : CEnv D G) (c) (st : CState G) : (sorted E c st).maxDepth = st.maxDepth := rfl
@[simp] theorem sorted_minDepth (E : CEnv D G) (c) (st : CState G) : (sorted E c st).minDepth = st.minDepth := rfl

theorem mem_childrenOf {E : CEnv D G} {c : CNode G} {st : CState G} {d : CNode G}
    (h : d ∈ childrenOf E c st) : ∃ p iv, p < (splitOf E c st).length ∧ iv ∈ splitOf E c st ∧
      d = E.mkChild c (sorted E c st).perm (E.numChildren c) p iv := by
  unfold childrenOf at h
  rw [List.mem_mapIdx] at h
  obtain ⟨p, hp, rfl⟩ := h
  exact ⟨p, _, hp, List.getElem_mem hp, rfl⟩

theorem childrenOf_iv (E : CEnv D G) (c : CNode G) (st : CState G) :
    (childrenOf E c st).map CNode.iv = splitOf E c st := by
  unfold childrenOf
  apply List.ext_getElem
  · simp
  · intro i h1 h2; simp [CNode.iv, CEnv.mkChild]

theorem childrenOf_length (E : CEnv D G) (c : CNode G) (st : CState G) :
    (childrenOf E c st).length = (splitOf E c st).length := by simp [childrenOf]

end
end Htool
