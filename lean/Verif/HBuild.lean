import Verif.HProd
import Mathlib.Data.List.Nodup
import Mathlib.Algebra.BigOperators.Group.Finset.Piecewise

/-! # Building an H-matrix: memory, tasks, parallel computation of the blocks

Model of `HMatrixTreeBuilder::build` and `compute_blocks` (`include/htool/hmatrix/tree_builder/tree_builder.hpp`), with the members of
the builder which survive from one call of `build` to the next.

An H-matrix lives in memory: its nodes are cells of a heap, and the task lists of the builder hold addresses of cells. -/

namespace Htool
variable {G R : Type*}

/-! ## Addresses -/

namespace Tree
variable {α β : Type*}

mutual
/-- Addresses given to the nodes of a block tree: one allocation per node, in the order of creation (`add_child` then recursion,
tree_builder.hpp 253-256), starting with address `k`. Also returns the next free address. -/
def number : ℕ → Tree α → Tree (ℕ × α) × ℕ
  | k, .node a cs => (.node (k, a) (numberL (k + 1) cs).1, (numberL (k + 1) cs).2)
/-- Forest version of `number`. -/
def numberL : ℕ → List (Tree α) → List (Tree (ℕ × α)) × ℕ
  | k, [] => ([], k)
  | k, c :: cs => ((number k c).1 :: (numberL (number k c).2 cs).1, (numberL (number k c).2 cs).2)
end

/-- Addresses of the nodes of a tree, in preorder. -/
def addrs (T : Tree (ℕ × α)) : List ℕ := T.pre.map (fun c => c.label.1)

/-- The loop of `reset_root_of_block_tree` (tree_builder.hpp 343-357) for blocks with any labels; `q` is the test on the target
cluster. -/
def gatherLoopG (q : α → Bool) (st : List (Tree α)) : List (Tree α) :=
  match st with
  | [] => []
  | b :: stack =>
    b.children.filter (fun c => q c.label) ++
      gatherLoopG q (Tree.pushAll (b.children.filter (fun c => !q c.label)) stack)
  termination_by Tree.countL st
  decreasing_by
    simp only [Tree.pushAll_eq, Tree.countL_append, Tree.countL_reverse, Tree.countL_cons]
    have : ∀ (l : List (Tree α)) (q : Tree α → Bool), Tree.countL (l.filter q) ≤ Tree.countL l := by
      intro l q
      induction l with
      | nil => simp
      | cons a l ih =>
        rw [List.filter_cons]
        split
        · simp; omega
        · simp; omega
    have h1 := this b.children (fun c => !q c.label)
    cases b with
    | node a cs => simp only [Tree.children_node] at *; rw [Tree.count_node]; omega

end Tree

/-- `reset_root_of_block_tree` and the final `set_hmatrix_symmetry` (tree_builder.hpp 336-369, 200) on blocks with addresses: the
root keeps its address. -/
def resetRootA (E : BEnv G) (b : Tree (ℕ × BNode G)) : Tree (ℕ × BNode G) :=
  match E.tp with
  | none => b
  | some p =>
    if b.label.2.t.rk = (p : ℤ) then b
    else
      match E.tct.parts[p]? with
      | none => b
      | some P =>
        .node (b.label.1, { b.label.2 with t := P, sym := E.symFlag P b.label.2.s })
          (Tree.gatherLoopG (fun x => decide (x.2.t.rk = (p : ℤ))) [b])

/-! ## Memory -/

/-- Memory: contents of the cells, which cells are allocated, next fresh address, and whether an access to a cell which is not
allocated has happened. -/
structure Mem (R : Type*) where
  heap : ℕ → HNode R
  live : ℕ → Bool
  next : ℕ
  ub : Bool

/-- The builder's symmetry as a `char` of `HMatrix`. -/
def SymType.toH : SymType → HSym
  | .N => .N
  | .S => .S
  | .H => .H

/-- A node as created by `add_child` or by the constructor of the root, with `set_hmatrix_symmetry` (tree_builder.hpp 102-109;
hmatrix.hpp 44-47 for the defaults). -/
def mkCell (E : BEnv G) (b : BNode G) : HNode R where
  toff := b.t.off
  tsz := b.t.sz
  soff := b.s.off
  ssz := b.s.sz
  sym := if b.sym then E.sym.toH else .N
  uplo := if b.sym then E.uplo else .N
  symL := .N
  uploL := .N
  data := .hier

/-- Allocation of the nodes of a block tree (`build_block_tree`). -/
def Mem.alloc (E : BEnv G) (T : Tree (ℕ × BNode G)) (nxt : ℕ) (m : Mem R) : Mem R :=
  { T.pre.foldl (fun m c => { m with heap := Function.update m.heap c.label.1 (mkCell E c.label.2),
                                     live := Function.update m.live c.label.1 true }) m with next := nxt }

/-- Freeing cells (`delete_children`, or the destructor of an H-matrix). -/
def Mem.free (as : List ℕ) (m : Mem R) : Mem R := { m with live := fun a => m.live a && !decide (a ∈ as) }

/-- Effect of `reset_root_of_block_tree` on memory (tree_builder.hpp 359-361 and 200): nodes which were not moved are destroyed, the root
gets its new target cluster and symmetry. -/
def Mem.reset (E : BEnv G) (T0 T1 : Tree (ℕ × BNode G)) (m : Mem R) : Mem R :=
  let m1 := m.free (T0.addrs.filter (fun a => !decide (a ∈ T1.addrs)))
  { m1 with heap := Function.update m1.heap T1.label.1 (mkCell E T1.label.2) }

/-- Store the data of a block. -/
def Mem.setData (a : ℕ) (d : HData R) (m : Mem R) : Mem R :=
  { m with heap := Function.update m.heap a { m.heap a with data := d }, ub := m.ub || !m.live a }

/-! ## Block data -/

/-- What the constructor of `LowRankMatrix` leaves in `U` and `V` (lrmat.hpp 25-33): `U` has `urows` rows and `rank` columns, `V` has
`rank` rows and `vcols` columns. A compression that fails leaves both empty. -/
structure LRResult (R : Type*) where
  rank : ℕ
  urows : ℕ
  vcols : ℕ
  U : ℕ → ℕ → R
  V : ℕ → ℕ → R

/-- A low-rank generator with its `epsilon` and `reqrank`: sees the internal generator (as the matrix in cluster numbering), offset and
size of target and source. Simplification: it does not see the rest of the clusters (the ones in the library do not use it). -/
abbrev LRGen (R : Type*) := (ℕ → ℕ → R) → (ℕ × ℕ) → (ℕ × ℕ) → LRResult R

/-- A dense blocks generator (virtual_dense_blocks_generator.hpp): the contents of the block with the given rows and columns. -/
abbrev DenseGen (R : Type*) := (ℕ × ℕ) → (ℕ × ℕ) → ℕ → ℕ → R

/-- `compute_low_rank_data` for a block (hmatrix.hpp 228-231). -/
def lrOf (lr : LRGen R) (gen : ℕ → ℕ → R) (n : HNode R) : LRResult R := lr gen (n.toff, n.tsz) (n.soff, n.ssz)

/-- The test of tree_builder.hpp 388: dimensions of the low-rank data. -/
def lrFails (n : HNode R) (r : LRResult R) : Bool := decide (r.urows ≠ n.tsz) || decide (r.vcols ≠ n.ssz)

/-- `compute_dense_data` (hmatrix.hpp 222-226): `copy_submatrix` of the generator, in indices relative to the block. -/
def denseOf (gen : ℕ → ℕ → R) (n : HNode R) : HData R := .dense (fun i j => gen (n.toff + i) (n.soff + j))

/-- Data of an admissible block. -/
def admOf (lr : LRGen R) (gen : ℕ → ℕ → R) (n : HNode R) : HData R :=
  if lrFails n (lrOf lr gen n) then denseOf gen n else .lowRank (lrOf lr gen n).rank (lrOf lr gen n).U (lrOf lr gen n).V

/-! ## `compute_blocks` -/

/-- State of the parallel region of `compute_blocks` (tree_builder.hpp 375-420) with `T` threads: shared memory, loop iterations nobody
has taken yet, the admissible task each thread is working on (between lines 385 and 398), `local_false_positive` of each thread, place
reached by each thread (0: first loop, 1: second loop, 2: after the critical section), and `m_false_positive`. -/
structure CBState (T : ℕ) (R : Type*) where
  mem : Mem R
  todoA : List ℕ
  todoD : List ℕ
  cur : Fin T → Option ℕ
  lfp : Fin T → ℕ
  pc : Fin T → ℕ
  fp : ℕ

/-- One step of one thread. Iterations are taken in any order by any thread (every schedule is included). An iteration of the first loop
has two steps: the low-rank data is computed and stored (385); then its dimensions are tested and it may be replaced (388-397). -/
inductive CBStep {T : ℕ} (lr : LRGen R) (gen : ℕ → ℕ → R) : CBState T R → CBState T R → Prop
  | take (s : CBState T R) (th : Fin T) (a : ℕ) (before after : List ℕ) (hp : s.pc th = 0) (hc : s.cur th = none)
      (h : s.todoA = before ++ a :: after) :
      CBStep lr gen s { s with
        todoA := before ++ after, cur := Function.update s.cur th (some a),
        mem := s.mem.setData a (.lowRank (lrOf lr gen (s.mem.heap a)).rank (lrOf lr gen (s.mem.heap a)).U
          (lrOf lr gen (s.mem.heap a)).V) }
  | keep (s : CBState T R) (th : Fin T) (a : ℕ) (hp : s.pc th = 0) (hc : s.cur th = some a)
      (h : lrFails (s.mem.heap a) (lrOf lr gen (s.mem.heap a)) = false) :
      CBStep lr gen s { s with cur := Function.update s.cur th none }
  | fallback (s : CBState T R) (th : Fin T) (a : ℕ) (hp : s.pc th = 0) (hc : s.cur th = some a)
      (h : lrFails (s.mem.heap a) (lrOf lr gen (s.mem.heap a)) = true) :
      CBStep lr gen s { s with
        cur := Function.update s.cur th none, mem := s.mem.setData a (denseOf gen (s.mem.heap a)),
        lfp := Function.update s.lfp th (s.lfp th + 1) }
  | next (s : CBState T R) (th : Fin T) (hp : s.pc th = 0) (hc : s.cur th = none) (h : s.todoA = []) :
      CBStep lr gen s { s with pc := Function.update s.pc th 1 }
  | dense (s : CBState T R) (th : Fin T) (a : ℕ) (before after : List ℕ) (hp : s.pc th = 1)
      (h : s.todoD = before ++ a :: after) :
      CBStep lr gen s { s with todoD := before ++ after, mem := s.mem.setData a (denseOf gen (s.mem.heap a)) }
  | commit (s : CBState T R) (th : Fin T) (hp : s.pc th = 1) (h : s.todoD = []) :
      CBStep lr gen s { s with pc := Function.update s.pc th 2, fp := s.fp + s.lfp th }

/-- Executions of the parallel region. -/
inductive CBRun {T : ℕ} (lr : LRGen R) (gen : ℕ → ℕ → R) : CBState T R → CBState T R → Prop
  | refl (s) : CBRun lr gen s s
  | tail {s t u} : CBRun lr gen s t → CBStep lr gen t u → CBRun lr gen s u

/-- The members of the builder which change in `build` (tree_builder.hpp 49-53). -/
structure Builder where
  adm : List ℕ
  dense : List ℕ
  fp : ℕ

/-- A new builder. -/
def Builder.empty : Builder := ⟨[], [], 0⟩

/-- Start of the parallel region. With a dense blocks generator the second loop is skipped (400). -/
def cbInit (T : ℕ) (dg : Option (DenseGen R)) (m : Mem R) (B : Builder) : CBState T R where
  mem := m
  todoA := B.adm
  todoD := if dg.isNone then B.dense else []
  cur := fun _ => none
  lfp := fun _ => 0
  pc := fun _ => 0
  fp := B.fp

/-- What follows the parallel region (tree_builder.hpp 422-438): with a dense blocks generator, the dense tasks are zero-filled, then all
are copied by it. -/
def cbFinish [Zero R] (dg : Option (DenseGen R)) (B : Builder) (m : Mem R) : Mem R :=
  match dg with
  | none => m
  | some d =>
    B.dense.foldl (fun m a => m.setData a (.dense (d ((m.heap a).toff, (m.heap a).tsz) ((m.heap a).soff, (m.heap a).ssz))))
      (B.dense.foldl (fun m a => m.setData a (.dense 0)) m)

/-- `compute_blocks` (tree_builder.hpp 372-440) may lead from memory `m` to memory `m'` and false positive count `fp'`. -/
def ComputeBlocks [Zero R] (T : ℕ) (lr : LRGen R) (dg : Option (DenseGen R)) (gen : ℕ → ℕ → R) (m : Mem R) (B : Builder) (m' : Mem R)
    (fp' : ℕ) : Prop :=
  ∃ s : CBState T R, CBRun lr gen (cbInit T dg m B) s ∧ (∀ th, s.pc th = 2) ∧ s.fp = fp' ∧ cbFinish dg B s.mem = m'

/-! ## `build` -/

/-- `set_symmetry_for_leaves` (tree_builder.hpp 110-126) on one node: own flag of a leaf, or flag of some direct child. -/
def symLOf (E : BEnv G) (own : Bool) (kids : List Bool) : Bool :=
  decide (E.sym ≠ .N) && (if kids.isEmpty then own else kids.any id)

/-- `set_symmetry_for_leaves` (tree_builder.hpp 110-126): postorder traversal of the H-matrix in memory. -/
def Mem.setSymLeaves (E : BEnv G) (H : Tree ℕ) (m : Mem R) : Mem R :=
  H.postorderTraversal.foldl (fun m c =>
    if symLOf E (decide ((m.heap c.label).sym ≠ .N)) (c.children.map (fun d => decide ((m.heap d.label).sym ≠ .N))) then
      { m with heap := Function.update m.heap c.label { m.heap c.label with symL := E.sym.toH, uploL := E.uplo } }
    else m) m

/-- Addresses of blocks of one kind in the order in which `build_block_tree` pushes them. -/
def tasksOf (k : BKind) (T : Tree (ℕ × BNode G)) : List ℕ :=
  (T.pre.filter (fun c => decide (c.label.2.kind = k))).map (fun c => c.label.1)

/-- `build` (tree_builder.hpp 181-219) from root clusters `t` and `s` may lead from memory `m` and builder members `B` to memory `m'`,
members `B'` and the returned H-matrix `H`. `T` threads. The root is a local variable returned by value; it is assumed to be
constructed in place in the caller's object. -/
def BuildStep [Zero R] (T : ℕ) (E : BEnv G) (lr : LRGen R) (dg : Option (DenseGen R)) (fuel : ℕ) (t s : CTree G) (gen : ℕ → ℕ → R)
    (m : Mem R) (B : Builder) (m' : Mem R) (B' : Builder) (H : Tree ℕ) : Prop :=
  ∃ b0 : BTree G, buildBlockTree E fuel t s = some b0 ∧
    let T0 := (b0.number m.next).1
    let T1 := resetRootA E T0
    let B1 : Builder := ⟨B.adm ++ tasksOf .adm T0, B.dense ++ tasksOf .dense T0, B.fp⟩
    H = T1.map Prod.fst ∧ B'.adm = B1.adm ∧ B'.dense = B1.dense ∧
    ∃ m2 : Mem R, ComputeBlocks T lr dg gen ((m.alloc E T0 (b0.number m.next).2).reset E T0 T1) B1 m2 B'.fp ∧
      m' = m2.setSymLeaves E H

/-! ## What `build` should return -/

/-- A node of the H-matrix that `build` should return, for a block of the block tree. -/
def finalNode (E : BEnv G) (lr : LRGen R) (dg : Option (DenseGen R)) (gen : ℕ → ℕ → R) (c : BTree G) : HNode R :=
  let n : HNode R := mkCell E c.label
  let sl := symLOf E c.label.sym (c.children.map (fun d => d.label.sym))
  { n with
    symL := if sl then E.sym.toH else .N
    uploL := if sl then E.uplo else .N
    data := match c.label.kind with
      | .adm => admOf lr gen n
      | .dense => (match dg with
        | none => denseOf gen n
        | some d => .dense (d (n.toff, n.tsz) (n.soff, n.ssz)))
      | .hier => .hier }

mutual
/-- The H-matrix that `build` should return, for a block tree. -/
def assembled (E : BEnv G) (lr : LRGen R) (dg : Option (DenseGen R)) (gen : ℕ → ℕ → R) : BTree G → HTree R
  | .node a cs => .node (finalNode E lr dg gen (.node a cs)) (assembledL E lr dg gen cs)
/-- Forest version. -/
def assembledL (E : BEnv G) (lr : LRGen R) (dg : Option (DenseGen R)) (gen : ℕ → ℕ → R) : List (BTree G) → List (HTree R)
  | [] => []
  | c :: cs => assembled E lr dg gen c :: assembledL E lr dg gen cs
end


/-! ## The parallel region -/

section region
open Classical

/-- Adm. task not yet finished. -/
def CBState.pend {T : ℕ} (s : CBState T R) (a : ℕ) : Prop := a ∈ s.todoA ∨ ∃ th, s.cur th = some a

/-- The heap once all pending work has been done. -/
noncomputable def CBState.target {T : ℕ} (lr : LRGen R) (gen : ℕ → ℕ → R) (s : CBState T R) : ℕ → HNode R := fun a =>
  if s.pend a then { s.mem.heap a with data := admOf lr gen (s.mem.heap a) }
  else if a ∈ s.todoD then { s.mem.heap a with data := denseOf gen (s.mem.heap a) }
  else s.mem.heap a

/-- Whether the compression of a block fails. -/
def failsAt (lr : LRGen R) (gen : ℕ → ℕ → R) (F : ℕ → HNode R) (a : ℕ) : Bool := lrFails (F a) (lrOf lr gen (F a))

/-- Invariant of the parallel region. -/
structure CBInv {T : ℕ} (lr : LRGen R) (gen : ℕ → ℕ → R) (m0 : Mem R) (F : ℕ → HNode R) (K : ℕ) (s : CBState T R) : Prop where
  target : s.target lr gen = F
  nodupA : s.todoA.Nodup
  nodupD : s.todoD.Nodup
  disj : ∀ a ∈ s.todoA, a ∉ s.todoD
  curA : ∀ th a, s.cur th = some a → a ∉ s.todoA ∧ a ∉ s.todoD
  curInj : ∀ th th' a, s.cur th = some a → s.cur th' = some a → th = th'
  curData : ∀ th a, s.cur th = some a → (s.mem.heap a).data =
    .lowRank (lrOf lr gen (s.mem.heap a)).rank (lrOf lr gen (s.mem.heap a)).U (lrOf lr gen (s.mem.heap a)).V
  pc0 : ∀ th a, s.cur th = some a → s.pc th = 0
  pcA : (∃ th, s.pc th ≠ 0) → s.todoA = []
  pcD : (∃ th, s.pc th = 2) → s.todoD = []
  pcle : ∀ th, s.pc th ≤ 2
  count : s.fp + (∑ th, if s.pc th < 2 then s.lfp th else 0) + s.todoA.countP (failsAt lr gen F) +
    (∑ th, (s.cur th).elim 0 (fun a => if failsAt lr gen F a then 1 else 0)) = K
  next : s.mem.next = m0.next
  live : s.mem.live = m0.live
  ub : s.mem.ub = m0.ub
  alive : ∀ a, s.pend a ∨ a ∈ s.todoD → s.mem.live a = true

theorem update_sum {T : ℕ} {β : Type*} (f : Fin T → β) (g : β → ℕ) (th : Fin T) (b : β) :
    (∑ x, g (Function.update f th b x)) + g (f th) = (∑ x, g (f x)) + g b := by
  have h1 : ∀ x, g (Function.update f th b x) = Function.update (fun x => g (f x)) th (g b) x := by
    intro x
    by_cases hx : x = th
    · subst hx; simp
    · simp [hx]
  rw [Finset.sum_congr rfl (fun x _ => h1 x), Finset.sum_update_of_mem (Finset.mem_univ th)]
  have h2 := Finset.add_sum_erase Finset.univ (fun x => g (f x)) (Finset.mem_univ th)
  rw [Finset.sdiff_singleton_eq_erase]
  omega

/-- Static data of a node is that of the target heap. -/
theorem target_static {T : ℕ} {lr : LRGen R} {gen : ℕ → ℕ → R} (s : CBState T R) (a : ℕ) :
    ∃ d, s.target lr gen a = { s.mem.heap a with data := d } := by
  unfold CBState.target
  split_ifs
  · exact ⟨_, rfl⟩
  · exact ⟨_, rfl⟩
  · exact ⟨_, rfl⟩

theorem failsAt_target {T : ℕ} {lr : LRGen R} {gen : ℕ → ℕ → R} (s : CBState T R) (a : ℕ) :
    failsAt lr gen (s.target lr gen) a = lrFails (s.mem.heap a) (lrOf lr gen (s.mem.heap a)) := by
  obtain ⟨d, hd⟩ := target_static (lr := lr) (gen := gen) s a
  unfold failsAt
  rw [hd]; rfl

theorem cbInv_step {T : ℕ} {lr : LRGen R} {gen : ℕ → ℕ → R} {m0 : Mem R} {F : ℕ → HNode R} {K : ℕ} {s t : CBState T R}
    (hi : CBInv lr gen m0 F K s) (h : CBStep lr gen s t) : CBInv lr gen m0 F K t := by
  obtain ⟨i1, i2, i3, i4, i5, i6, i7, i8, ia, ib, ic, i9, i10, i11, i12, i13⟩ := hi
  cases h with
  | take th a before after hp hc h =>
    have hnd : (a :: (before ++ after)).Nodup := by
      have : (before ++ a :: after).Perm (a :: (before ++ after)) := List.perm_middle
      rw [← this.nodup_iff, ← h]; exact i2
    have haT : a ∈ s.todoA := by rw [h]; simp
    have haD : a ∉ s.todoD := i4 a haT
    have hsub : ∀ x, x ∈ before ++ after → x ∈ s.todoA := by
      intro x hx; rw [h]; simp only [List.mem_append, List.mem_cons] at hx ⊢; tauto
    have hna : a ∉ before ++ after := (List.nodup_cons.1 hnd).1
    have hcur : ∀ th' x, Function.update s.cur th (some a) th' = some x → (th' = th ∧ x = a) ∨ (th' ≠ th ∧ s.cur th' = some x) := by
      intro th' x hx
      by_cases e : th' = th
      · subst e; simp at hx; exact Or.inl ⟨rfl, hx.symm⟩
      · rw [Function.update_of_ne e] at hx; exact Or.inr ⟨e, hx⟩
    have hcura : ∀ th' , s.cur th' ≠ some a := fun th' hx => (i5 th' a hx).1 haT
    have hheap : ∀ x, x ≠ a → (s.mem.setData a (.lowRank (lrOf lr gen (s.mem.heap a)).rank (lrOf lr gen (s.mem.heap a)).U
          (lrOf lr gen (s.mem.heap a)).V)).heap x = s.mem.heap x := by
      intro x hx; simp [Mem.setData, hx]
    have hpend : ∀ x, (CBState.pend { s with
        todoA := before ++ after, cur := Function.update s.cur th (some a),
        mem := s.mem.setData a (.lowRank (lrOf lr gen (s.mem.heap a)).rank (lrOf lr gen (s.mem.heap a)).U
          (lrOf lr gen (s.mem.heap a)).V) } x) ↔ s.pend x := by
      intro x
      unfold CBState.pend
      simp only
      rw [h]
      constructor
      · rintro (hx | ⟨th', hx⟩)
        · left; simp only [List.mem_append, List.mem_cons] at hx ⊢; tauto
        · rcases hcur th' x hx with ⟨-, rfl⟩ | ⟨-, hx⟩
          · left; simp
          · right; exact ⟨th', hx⟩
      · rintro (hx | ⟨th', hx⟩)
        · by_cases hxa : x = a
          · right; exact ⟨th, by simp [hxa]⟩
          · left; simp only [List.mem_append, List.mem_cons] at hx ⊢; tauto
        · right
          refine ⟨th', ?_⟩
          rw [Function.update_of_ne]
          · exact hx
          · rintro rfl; rw [hc] at hx; simp at hx
    refine ⟨?_, (List.nodup_cons.1 hnd).2, i3, fun x hx => i4 x (hsub x hx), ?_, ?_, ?_, ?_, ?_, ib, ic, ?_, i10, i11, ?_, ?_⟩
    · rw [← i1]
      funext x
      unfold CBState.target
      simp only [hpend]
      by_cases hxa : x = a
      · subst hxa
        have : s.pend x := Or.inl haT
        simp only [this, if_true]
        simp only [Mem.setData, Function.update_self]
        rfl
      · rw [hheap x hxa]
    · intro th' x hx
      rcases hcur th' x hx with ⟨-, rfl⟩ | ⟨-, hx⟩
      · exact ⟨hna, haD⟩
      · exact ⟨fun hm => (i5 th' x hx).1 (hsub x hm), (i5 th' x hx).2⟩
    · intro th1 th2 x h1 h2
      rcases hcur th1 x h1 with ⟨rfl, rfl⟩ | ⟨e1, k1⟩ <;> rcases hcur th2 x h2 with ⟨rfl, e⟩ | ⟨e2, k2⟩
      · rfl
      · exact absurd k2 (hcura th2)
      · rw [e] at k1; exact absurd k1 (hcura th1)
      · exact i6 th1 th2 x k1 k2
    · intro th' x hx
      rcases hcur th' x hx with ⟨rfl, rfl⟩ | ⟨-, hx⟩
      · simp [Mem.setData, lrOf]
      · have hxa : x ≠ a := fun e => hcura th' (e ▸ hx)
        simp only
        rw [hheap x hxa]
        exact i7 th' x hx
    · intro th' x hx
      rcases hcur th' x hx with ⟨rfl, rfl⟩ | ⟨-, hx⟩
      · exact hp
      · exact i8 th' x hx
    · intro hx
      have := ia hx
      rw [this] at haT; simp at haT
    · rw [← i9, h]
      have := update_sum s.cur (fun o => o.elim 0 (fun a => if failsAt lr gen F a then 1 else 0)) th (some a)
      rw [hc] at this
      simp only [Option.elim_none, Option.elim_some, Nat.add_zero] at this
      simp only [List.countP_append, List.countP_cons]
      simp only [this]
      omega
    · have : s.mem.live a = true := i13 a (Or.inl (Or.inl haT))
      simp [Mem.setData, this, i12]
    · intro x hx
      simp only [hpend] at hx
      exact i13 x hx
  | keep th a hp hc h =>
    have hcur : ∀ th' x, Function.update s.cur th none th' = some x ↔ (x ≠ a ∧ s.cur th' = some x) := by
      intro th' x
      by_cases e : th' = th
      · subst e; simp only [Function.update_self]
        constructor
        · intro hx; simp at hx
        · rintro ⟨h1, h2⟩; rw [hc] at h2; simp at h2; exact absurd h2.symm h1
      · rw [Function.update_of_ne e]
        constructor
        · intro hx
          refine ⟨?_, hx⟩
          rintro rfl; exact e (i6 th' th x hx hc)
        · exact fun h => h.2
    have hpend : ∀ x, (CBState.pend { s with cur := Function.update s.cur th none } x) ↔ (x ≠ a ∧ s.pend x) := by
      intro x
      unfold CBState.pend
      simp only [hcur]
      constructor
      · rintro (hx | ⟨th', h1, h2⟩)
        · refine ⟨?_, Or.inl hx⟩
          rintro rfl; exact (i5 th x hc).1 hx
        · exact ⟨h1, Or.inr ⟨th', h2⟩⟩
      · rintro ⟨h1, hx | ⟨th', h2⟩⟩
        · exact Or.inl hx
        · exact Or.inr ⟨th', h1, h2⟩
    refine ⟨?_, i2, i3, i4, fun th' x hx => i5 th' x ((hcur th' x).1 hx).2,
      fun th1 th2 x h1 h2 => i6 th1 th2 x ((hcur _ _).1 h1).2 ((hcur _ _).1 h2).2,
      fun th' x hx => i7 th' x ((hcur th' x).1 hx).2, fun th' x hx => i8 th' x ((hcur th' x).1 hx).2, ia, ib, ic, ?_, i10, i11, i12, ?_⟩
    · rw [← i1]
      funext x
      unfold CBState.target
      simp only [hpend]
      by_cases hxa : x = a
      · subst hxa
        have hp1 : s.pend x := Or.inr ⟨th, hc⟩
        have hD : x ∉ s.todoD := (i5 th x hc).2
        simp only [ne_eq, not_true_eq_false, false_and, if_false, hD, hp1, if_true]
        unfold admOf
        rw [h, if_neg (by simp), ← i7 th x hc]
      · simp only [ne_eq, hxa, not_false_eq_true, true_and]
    · rw [← i9]
      have := update_sum s.cur (fun o => o.elim 0 (fun a => if failsAt lr gen F a then 1 else 0)) th none
      have hf : failsAt lr gen F a = false := by rw [← i1, failsAt_target, h]
      rw [hc] at this
      simp only [Option.elim_none, Option.elim_some, Nat.add_zero, hf] at this
      simp only
      simp only [← this]
      simp
    · intro x hx
      simp only [hpend] at hx
      exact i13 x (hx.imp (fun h => h.2) id)
  | fallback th a hp hc h =>
    have hcur : ∀ th' x, Function.update s.cur th none th' = some x ↔ (x ≠ a ∧ s.cur th' = some x) := by
      intro th' x
      by_cases e : th' = th
      · subst e; simp only [Function.update_self]
        constructor
        · intro hx; simp at hx
        · rintro ⟨h1, h2⟩; rw [hc] at h2; simp at h2; exact absurd h2.symm h1
      · rw [Function.update_of_ne e]
        constructor
        · intro hx
          refine ⟨?_, hx⟩
          rintro rfl; exact e (i6 th' th x hx hc)
        · exact fun h => h.2
    have hheap : ∀ x, x ≠ a → (s.mem.setData a (denseOf gen (s.mem.heap a))).heap x = s.mem.heap x := by
      intro x hx; simp [Mem.setData, hx]
    have hpend : ∀ x, (CBState.pend { s with
        cur := Function.update s.cur th none,
        mem := s.mem.setData a (denseOf gen (s.mem.heap a)),
        lfp := Function.update s.lfp th (s.lfp th + 1) } x) ↔ (x ≠ a ∧ s.pend x) := by
      intro x
      unfold CBState.pend
      simp only [hcur]
      constructor
      · rintro (hx | ⟨th', h1, h2⟩)
        · refine ⟨?_, Or.inl hx⟩
          rintro rfl; exact (i5 th x hc).1 hx
        · exact ⟨h1, Or.inr ⟨th', h2⟩⟩
      · rintro ⟨h1, hx | ⟨th', h2⟩⟩
        · exact Or.inl hx
        · exact Or.inr ⟨th', h1, h2⟩
    refine ⟨?_, i2, i3, i4, fun th' x hx => i5 th' x ((hcur th' x).1 hx).2,
      fun th1 th2 x h1 h2 => i6 th1 th2 x ((hcur _ _).1 h1).2 ((hcur _ _).1 h2).2,
      ?_, fun th' x hx => i8 th' x ((hcur th' x).1 hx).2, ia, ib, ic, ?_, i10, i11, ?_, ?_⟩
    · rw [← i1]
      funext x
      unfold CBState.target
      simp only [hpend]
      by_cases hxa : x = a
      · subst hxa
        have hp1 : s.pend x := Or.inr ⟨th, hc⟩
        have hD : x ∉ s.todoD := (i5 th x hc).2
        simp only [ne_eq, not_true_eq_false, false_and, if_false, hD, hp1, if_true]
        unfold admOf
        rw [h, if_pos rfl]
        simp [Mem.setData]
      · simp only [ne_eq, hxa, not_false_eq_true, true_and]
        rw [hheap x hxa]
    · intro th' x hx
      obtain ⟨h1, h2⟩ := (hcur th' x).1 hx
      simp only
      rw [hheap x h1]
      exact i7 th' x h2
    · rw [← i9]
      have := update_sum s.cur (fun o => o.elim 0 (fun a => if failsAt lr gen F a then 1 else 0)) th none
      have hf : failsAt lr gen F a = true := by rw [← i1, failsAt_target, h]
      rw [hc] at this
      simp only [Option.elim_none, Option.elim_some, Nat.add_zero, hf, if_true] at this
      have e2 : (∑ x, if s.pc x < 2 then Function.update s.lfp th (s.lfp th + 1) x else 0) =
          (∑ x, if s.pc x < 2 then s.lfp x else 0) + 1 := by
        have h1 : ∀ x, (if s.pc x < 2 then Function.update s.lfp th (s.lfp th + 1) x else 0) =
            (if s.pc x < 2 then s.lfp x else 0) + if x = th then 1 else 0 := by
          intro x
          by_cases hx : x = th
          · subst hx; simp [hp]
          · simp [hx]
        rw [Finset.sum_congr rfl (fun x _ => h1 x), Finset.sum_add_distrib]
        simp
      simp only
      rw [e2]
      simp only [← this]
      omega
    · have : s.mem.live a = true := i13 a (Or.inl (Or.inr ⟨th, hc⟩))
      simp [Mem.setData, this, i12]
    · intro x hx
      simp only [hpend] at hx
      exact i13 x (hx.imp (fun h => h.2) id)
  | next th hp hc h =>
    have hpc : ∀ x, (Function.update s.pc th 1 x < 2) ↔ s.pc x < 2 := by
      intro x
      by_cases hx : x = th
      · subst hx; simp [hp]
      · simp [hx]
    refine ⟨i1, i2, i3, i4, i5, i6, i7, ?_, fun _ => h, ?_, ?_, ?_, i10, i11, i12, i13⟩
    · intro th' x hx
      have : th' ≠ th := by rintro rfl; simp only at hx; rw [hc] at hx; simp at hx
      simp only
      rw [Function.update_of_ne this]
      exact i8 th' x hx
    · rintro ⟨th', hx⟩
      by_cases e : th' = th
      · subst e; simp at hx
      · simp only at hx; rw [Function.update_of_ne e] at hx; exact ib ⟨th', hx⟩
    · intro th'
      by_cases e : th' = th
      · subst e; simp
      · simp only; rw [Function.update_of_ne e]; exact ic th'
    · simp only [hpc]; exact i9
  | dense th a before after hp h =>
    have hA : s.todoA = [] := ia ⟨th, by omega⟩
    have hnd : (a :: (before ++ after)).Nodup := by
      have : (before ++ a :: after).Perm (a :: (before ++ after)) := List.perm_middle
      rw [← this.nodup_iff, ← h]; exact i3
    have haD : a ∈ s.todoD := by rw [h]; simp
    have hsub : ∀ x, x ∈ before ++ after → x ∈ s.todoD := by
      intro x hx; rw [h]; simp only [List.mem_append, List.mem_cons] at hx ⊢; tauto
    have hmem : ∀ x, x ∈ s.todoD ↔ x = a ∨ x ∈ before ++ after := by
      intro x; rw [h]; simp only [List.mem_append, List.mem_cons]; tauto
    have hna : a ∉ before ++ after := (List.nodup_cons.1 hnd).1
    have hpa : ¬ s.pend a := by
      rintro (hx | ⟨th', hx⟩)
      · exact i4 a hx haD
      · exact (i5 th' a hx).2 haD
    have hheap : ∀ x, x ≠ a → (s.mem.setData a (denseOf gen (s.mem.heap a))).heap x = s.mem.heap x := by
      intro x hx; simp [Mem.setData, hx]
    have hpend : ∀ x, (CBState.pend { s with todoD := before ++ after, mem := s.mem.setData a (denseOf gen (s.mem.heap a)) } x) ↔
        s.pend x := fun x => Iff.rfl
    refine ⟨?_, i2, (List.nodup_cons.1 hnd).2, fun x hx hd => i4 x hx (hsub x hd),
      fun th' x hx => ⟨(i5 th' x hx).1, fun hd => (i5 th' x hx).2 (hsub x hd)⟩, i6, ?_, i8, ia, ?_, ic, i9, i10, i11, ?_, ?_⟩
    · rw [← i1]
      funext x
      unfold CBState.target
      simp only [hpend]
      by_cases hxa : x = a
      · subst hxa
        simp only [hpa, if_false, hna, haD, if_true]
        simp [Mem.setData]
      · rw [hheap x hxa]
        have : (x ∈ before ++ after) ↔ x ∈ s.todoD := by rw [hmem]; simp [hxa]
        simp only [this]
    · intro th' x hx
      have hxa : x ≠ a := by rintro rfl; exact hpa (Or.inr ⟨th', hx⟩)
      simp only
      rw [hheap x hxa]
      exact i7 th' x hx
    · intro hx
      have := ib hx
      rw [this] at haD; simp at haD
    · have : s.mem.live a = true := i13 a (Or.inr haD)
      simp [Mem.setData, this, i12]
    · intro x hx
      exact i13 x (hx.imp id (hsub x))
  | commit th hp h =>
    have hc : s.cur th = none := by
      cases hh : s.cur th with
      | none => rfl
      | some a => have := i8 th a hh; omega
    have hA : s.todoA = [] := ia ⟨th, by omega⟩
    refine ⟨i1, i2, i3, i4, i5, i6, i7, ?_, fun _ => hA, fun _ => h, ?_, ?_, i10, i11, i12, i13⟩
    · intro th' x hx
      have : th' ≠ th := by rintro rfl; simp only at hx; rw [hc] at hx; simp at hx
      simp only
      rw [Function.update_of_ne this]
      exact i8 th' x hx
    · intro th'
      by_cases e : th' = th
      · subst e; simp
      · simp only; rw [Function.update_of_ne e]; exact ic th'
    · rw [← i9]
      have e2 : (∑ x, if s.pc x < 2 then s.lfp x else 0) =
          (∑ x, if Function.update s.pc th 2 x < 2 then s.lfp x else 0) + s.lfp th := by
        have h1 : ∀ x, (if s.pc x < 2 then s.lfp x else 0) =
            (if Function.update s.pc th 2 x < 2 then s.lfp x else 0) + if x = th then s.lfp th else 0 := by
          intro x
          by_cases hx : x = th
          · subst hx; simp [hp]
          · simp [hx]
        rw [Finset.sum_congr rfl (fun x _ => h1 x), Finset.sum_add_distrib]
        simp
      simp only
      rw [e2]
      omega

theorem cbInv_run {T : ℕ} {lr : LRGen R} {gen : ℕ → ℕ → R} {m0 : Mem R} {F : ℕ → HNode R} {K : ℕ} {s t : CBState T R}
    (hi : CBInv lr gen m0 F K s) (h : CBRun lr gen s t) : CBInv lr gen m0 F K t := by
  induction h with
  | refl => exact hi
  | tail _ hs ih => exact cbInv_step ih hs

theorem cbInv_init {T : ℕ} {lr : LRGen R} {gen : ℕ → ℕ → R} {dg : Option (DenseGen R)} {m : Mem R} {B : Builder}
    (hA : B.adm.Nodup) (hD : B.dense.Nodup) (hdis : ∀ a ∈ B.adm, a ∉ B.dense) (hl : ∀ a, a ∈ B.adm ∨ a ∈ B.dense → m.live a = true) :
    CBInv lr gen m ((cbInit T dg m B).target lr gen) (B.fp + B.adm.countP (failsAt lr gen m.heap)) (cbInit T dg m B) := by
  refine ⟨rfl, hA, ?_, ?_, ?_, ?_, ?_, ?_, ?_, ?_, ?_, ?_, rfl, rfl, rfl, ?_⟩
  · unfold cbInit; simp only; split_ifs <;> simp [hD]
  · intro a ha; unfold cbInit at ha ⊢; simp only at ha ⊢; split_ifs
    · exact hdis a ha
    · simp
  · intro th a h; simp [cbInit] at h
  · intro th th' a h; simp [cbInit] at h
  · intro th a h; simp [cbInit] at h
  · intro th a h; simp [cbInit] at h
  · rintro ⟨th, h⟩; simp [cbInit] at h
  · rintro ⟨th, h⟩; simp [cbInit] at h
  · intro th; simp [cbInit]
  · simp only [failsAt_target]
    simp [cbInit]
    congr 1
    funext a
    rw [failsAt_target]; rfl
  · intro a ha
    unfold CBState.pend cbInit at ha
    simp only at ha
    apply hl
    rcases ha with (ha | ⟨th, ha⟩) | ha
    · exact Or.inl ha
    · simp at ha
    · split_ifs at ha
      · exact Or.inr ha
      · simp at ha

/-- Heap after the parallel region, for every schedule. -/
theorem cbInv_final {T : ℕ} (hT : 0 < T) {lr : LRGen R} {gen : ℕ → ℕ → R} {m0 : Mem R} {F : ℕ → HNode R} {K : ℕ} {s : CBState T R}
    (hi : CBInv lr gen m0 F K s) (hpc : ∀ th, s.pc th = 2) :
    s.mem.heap = F ∧ s.fp = K ∧ s.mem.live = m0.live ∧ s.mem.next = m0.next ∧ s.mem.ub = m0.ub := by
  have hA := hi.pcA ⟨⟨0, hT⟩, by rw [hpc]; omega⟩
  have hD := hi.pcD ⟨⟨0, hT⟩, hpc _⟩
  have hc : ∀ th, s.cur th = none := by
    intro th
    cases hh : s.cur th with
    | none => rfl
    | some a => have := hi.pc0 th a hh; have := hpc th; omega
  refine ⟨?_, ?_, hi.live, hi.next, hi.ub⟩
  · rw [← hi.target]
    funext a
    unfold CBState.target CBState.pend
    simp [hA, hD, hc]
  · rw [← hi.count]
    simp [hA, hc, hpc]

/-- Work left, decreased by every step. -/
def CBState.work {T : ℕ} (s : CBState T R) : ℕ :=
  2 * s.todoA.length + (∑ th, (s.cur th).elim 0 (fun _ => 1)) + s.todoD.length + ∑ th, (2 - s.pc th)

theorem cbStep_work {T : ℕ} {lr : LRGen R} {gen : ℕ → ℕ → R} {s t : CBState T R} (h : CBStep lr gen s t) : t.work < s.work := by
  cases h with
  | take th a before after hp hc h =>
    have := update_sum s.cur (fun o => o.elim 0 (fun _ => 1)) th (some a)
    rw [hc] at this
    unfold CBState.work
    simp only [Option.elim_none, Option.elim_some] at this ⊢
    rw [h]; simp; omega
  | keep th a hp hc h =>
    have := update_sum s.cur (fun o => o.elim 0 (fun _ => 1)) th none
    rw [hc] at this
    unfold CBState.work
    simp only [Option.elim_none, Option.elim_some] at this ⊢
    omega
  | fallback th a hp hc h =>
    have := update_sum s.cur (fun o => o.elim 0 (fun _ => 1)) th none
    rw [hc] at this
    unfold CBState.work
    simp only [Option.elim_none, Option.elim_some] at this ⊢
    omega
  | next th hp hc h =>
    have := update_sum s.pc (fun n => 2 - n) th 1
    rw [hp] at this
    unfold CBState.work
    simp only at this ⊢
    omega
  | dense th a before after hp h =>
    unfold CBState.work
    simp only
    rw [h]; simp
  | commit th hp h =>
    have := update_sum s.pc (fun n => 2 - n) th 2
    rw [hp] at this
    unfold CBState.work
    simp only at this ⊢
    omega

theorem cbInv_progress {T : ℕ} {lr : LRGen R} {gen : ℕ → ℕ → R} {m0 : Mem R} {F : ℕ → HNode R} {K : ℕ} {s : CBState T R}
    (hi : CBInv lr gen m0 F K s) (hn : ∃ th, s.pc th ≠ 2) : ∃ t, CBStep lr gen s t := by
  obtain ⟨th, hth⟩ := hn
  have hle := hi.pcle th
  by_cases h0 : s.pc th = 0
  · cases hc : s.cur th with
    | none =>
      cases hA : s.todoA with
      | nil => exact ⟨_, .next s th h0 hc hA⟩
      | cons a l => exact ⟨_, .take s th a [] l h0 hc (by simp [hA])⟩
    | some a =>
      cases hf : lrFails (s.mem.heap a) (lrOf lr gen (s.mem.heap a)) with
      | false => exact ⟨_, .keep s th a h0 hc hf⟩
      | true => exact ⟨_, .fallback s th a h0 hc hf⟩
  · have h1 : s.pc th = 1 := by omega
    cases hD : s.todoD with
    | nil => exact ⟨_, .commit s th h1 hD⟩
    | cons a l => exact ⟨_, .dense s th a [] l h1 (by simp [hD])⟩

theorem cb_completes {T : ℕ} {lr : LRGen R} {gen : ℕ → ℕ → R} {m0 : Mem R} {F : ℕ → HNode R} {K : ℕ} {s : CBState T R}
    (hi : CBInv lr gen m0 F K s) : ∃ t, CBRun lr gen s t ∧ ∀ th, t.pc th = 2 := by
  have key : ∀ n (s0 s : CBState T R), CBRun lr gen s0 s → CBInv lr gen m0 F K s → s.work ≤ n →
      ∃ t, CBRun lr gen s0 t ∧ ∀ th, t.pc th = 2 := by
    intro n
    induction n with
    | zero =>
      intro s0 s hr hi hw
      by_cases h : ∃ th, s.pc th ≠ 2
      · obtain ⟨t, ht⟩ := cbInv_progress hi h
        have := cbStep_work ht; omega
      · exact ⟨s, hr, fun th => not_not.1 (fun hth => h ⟨th, hth⟩)⟩
    | succ n ih =>
      intro s0 s hr hi hw
      by_cases h : ∃ th, s.pc th ≠ 2
      · obtain ⟨t, ht⟩ := cbInv_progress hi h
        have := cbStep_work ht
        exact ih s0 t (.tail hr ht) (cbInv_step hi ht) (by omega)
      · exact ⟨s, hr, fun th => not_not.1 (fun hth => h ⟨th, hth⟩)⟩
  exact key _ s s (.refl s) hi (le_refl _)

end region


/-! ## Addresses and reset of the root -/

namespace Tree
variable {α β : Type*}

theorem preL_eq (cs : List (Tree α)) : preL cs = cs.flatMap pre := by
  induction cs with
  | nil => rfl
  | cons c cs ih => simp [preL, ih]

theorem pre_node (a : α) (cs : List (Tree α)) : pre (.node a cs) = .node a cs :: cs.flatMap pre := by
  rw [pre, preL_eq]

theorem addrs_node (a : ℕ × α) (cs : List (Tree (ℕ × α))) : addrs (.node a cs) = a.1 :: cs.flatMap addrs := by
  unfold addrs
  rw [pre_node, List.map_cons, List.map_flatMap]; rfl

theorem map_pre (f : α → β) (t : Tree α) : (map f t).pre = t.pre.map (map f) := by
  induction t using Tree.ind with
  | h a cs ih =>
    rw [map_node, pre_node, pre_node, List.map_cons, map_node, List.flatMap_map, List.map_flatMap]
    congr 1
    exact List.flatMap_congr (fun c hc => ih c hc)

theorem label_map (f : α → β) (t : Tree α) : (map f t).label = f t.label := by
  cases t; rw [map_node]; rfl

theorem children_map (f : α → β) (t : Tree α) : (map f t).children = t.children.map (map f) := by
  cases t; rw [map_node]; rfl

theorem number_spec (t : Tree α) : ∀ k, map Prod.snd (t.number k).1 = t ∧ (t.number k).2 = k + t.count ∧
    (t.number k).1.addrs = List.range' k t.count := by
  induction t using Tree.ind with
  | h a cs ih =>
    have key : ∀ (cs : List (Tree α)), (∀ c ∈ cs, ∀ k, map Prod.snd (c.number k).1 = c ∧ (c.number k).2 = k + c.count ∧
        (c.number k).1.addrs = List.range' k c.count) → ∀ k, ((numberL k cs).1.map (map Prod.snd)) = cs ∧
        (numberL k cs).2 = k + countL cs ∧ (numberL k cs).1.flatMap addrs = List.range' k (countL cs) := by
      intro cs
      induction cs with
      | nil => intro _ k; simp [numberL, countL]
      | cons c cs ihc =>
        intro h k
        obtain ⟨h1, h2, h3⟩ := h c (by simp) k
        obtain ⟨g1, g2, g3⟩ := ihc (fun d hd => h d (by simp [hd])) (c.number k).2
        simp only [numberL, List.map_cons, h1, g1, g2, List.flatMap_cons, h3, g3, countL_cons]
        refine ⟨trivial, by omega, ?_⟩
        rw [h2, List.range'_append_1]
    intro k
    obtain ⟨h1, h2, h3⟩ := key cs ih (k + 1)
    simp only [number, map_node, h1, h2, addrs_node, h3, count_node]
    refine ⟨trivial, by omega, ?_⟩
    rw [Nat.add_comm 1, List.range'_succ]

/-- `new_root_children` as a recursion. -/
def gatherG (q : α → Bool) : Tree α → List (Tree α)
  | .node _ cs => go cs
where
  /-- forest version -/
  go : List (Tree α) → List (Tree α)
  | [] => []
  | c :: cs => (if q c.label then [c] else gatherG q c) ++ go cs

theorem gatherG_node (q : α → Bool) (a : α) (cs : List (Tree α)) :
    gatherG q (.node a cs) = cs.flatMap (fun c => if q c.label then [c] else gatherG q c) := by
  rw [gatherG]
  induction cs with
  | nil => rfl
  | cons c cs ih => simp [gatherG.go, ih]

theorem countL_filter_le (l : List (Tree α)) (q : Tree α → Bool) : countL (l.filter q) ≤ countL l := by
  induction l with
  | nil => simp
  | cons a l ih =>
    rw [List.filter_cons]
    split
    · simp; omega
    · simp; omega

theorem gatherLoopG_perm (q : α → Bool) (st : List (Tree α)) : (gatherLoopG q st).Perm (st.flatMap (gatherG q)) := by
  induction h : countL st using Nat.strong_induction_on generalizing st with
  | _ n ih =>
    match st with
    | [] => simp [gatherLoopG]
    | .node a cs :: rest =>
      rw [gatherLoopG, pushAll_eq]
      simp only [children_node]
      have hlt : countL ((cs.filter (fun c => !q c.label)).reverse ++ rest) < n := by
        subst h
        have := countL_filter_le cs (fun c => !q c.label)
        simp only [countL_append, countL_reverse, countL_cons, count_node]
        omega
      have h1 := ih _ hlt _ rfl
      rw [List.flatMap_append] at h1
      rw [List.flatMap_cons, gatherG_node]
      have h2 : (cs.filter (fun c => q c.label) ++ (cs.filter (fun c => !q c.label)).flatMap (gatherG q)).Perm
          (cs.flatMap (fun c => if q c.label then [c] else gatherG q c)) := by
        clear h1 hlt h ih
        induction cs with
        | nil => simp
        | cons c cs ihc =>
          rw [List.flatMap_cons]
          by_cases hc : q c.label = true
          · rw [List.filter_cons_of_pos (by simpa using hc), List.filter_cons_of_neg (by simp [hc]), if_pos hc]
            exact List.Perm.cons _ ihc
          · rw [List.filter_cons_of_neg (by simpa using hc), List.filter_cons_of_pos (by simp [hc]), if_neg hc,
              List.flatMap_cons]
            refine List.Perm.trans ?_ (List.Perm.append_left _ ihc)
            rw [← List.append_assoc, ← List.append_assoc]
            exact List.Perm.append_right _ List.perm_append_comm
      refine (List.Perm.append_left _ h1).trans ?_
      rw [← List.append_assoc]
      refine List.Perm.append_right _ (List.Perm.trans ?_ h2)
      exact List.Perm.append_left _ (flatMap_reverse_perm _ _)

theorem gatherG_sublist (q : α → Bool) (b : Tree α) : ((gatherG q b).flatMap pre).Sublist (b.children.flatMap pre) := by
  induction b using Tree.ind with
  | h a cs ih =>
    rw [gatherG_node, children_node]
    clear a
    induction cs with
    | nil => simp
    | cons c cs ihc =>
      rw [List.flatMap_cons, List.flatMap_append, List.flatMap_cons]
      refine List.Sublist.append ?_ (ihc (fun d hd => ih d (by simp [hd])))
      split_ifs
      · simp
      · refine (ih c (by simp)).trans ?_
        cases c with
        | node a ds => rw [pre_node, children_node]; exact List.sublist_cons_self _ _

theorem gatherG_filter (q k : α → Bool) (b : Tree α) (h : ∀ d ∈ b.pre, k d.label = true → q d.label = true) :
    ((gatherG q b).flatMap pre).filter (fun c => k c.label) = (b.children.flatMap pre).filter (fun c => k c.label) := by
  induction b using Tree.ind with
  | h a cs ih =>
    rw [gatherG_node, children_node]
    have h' : ∀ c ∈ cs, ∀ d ∈ c.pre, k d.label = true → q d.label = true :=
      fun c hc d hd => h d (Tree.mem_pre.2 (Or.inr ⟨c, hc, hd⟩))
    clear h
    induction cs with
    | nil => simp
    | cons c cs ihc =>
      rw [List.flatMap_cons, List.flatMap_append, List.flatMap_cons, List.filter_append, List.filter_append,
        ihc (fun d hd => ih d (by simp [hd])) (fun d hd => h' d (by simp [hd]))]
      congr 1
      split_ifs with hc
      · simp
      · rw [ih c (by simp) (h' c (by simp))]
        have hk : k c.label = false := by
          cases hk : k c.label with
          | false => rfl
          | true => exact absurd (h' c (by simp) c (mem_pre_self _) hk) hc
        cases c with
        | node a ds =>
          rw [pre_node, children_node, List.filter_cons_of_neg]
          simpa using hk

end Tree

theorem gatherLoopG_map (p : ℕ) (st : List (Tree (ℕ × BNode G))) :
    (Tree.gatherLoopG (fun x : ℕ × BNode G => decide (x.2.t.rk = (p : ℤ))) st).map (Tree.map Prod.snd) =
      gatherLoop p (st.map (Tree.map Prod.snd)) := by
  induction h : Tree.countL st using Nat.strong_induction_on generalizing st with
  | _ n ih =>
    match st with
    | [] => simp [Tree.gatherLoopG, gatherLoop]
    | b :: rest =>
      rw [Tree.gatherLoopG, List.map_append, List.map_cons, gatherLoop]
      have hlt : Tree.countL (Tree.pushAll (b.children.filter (fun c => !decide (c.label.2.t.rk = (p : ℤ)))) rest) < n := by
        subst h
        have := Tree.countL_filter_le b.children (fun c => !decide (c.label.2.t.rk = (p : ℤ)))
        cases b with
        | node a cs =>
          simp only [Tree.children_node] at this ⊢
          simp only [Tree.pushAll_eq, Tree.countL_append, Tree.countL_reverse, Tree.countL_cons, Tree.count_node]
          omega
      rw [ih _ hlt _ rfl, Tree.children_map, Tree.pushAll_eq, Tree.pushAll_eq]
      simp only [List.map_append, List.map_reverse]
      rw [List.filter_map, List.filter_map]
      simp only [Function.comp_def, Tree.label_map]

theorem resetRootA_map (E : BEnv G) (b : Tree (ℕ × BNode G)) :
    (resetRootA E b).map Prod.snd = resetRoot E (b.map Prod.snd) := by
  unfold resetRootA resetRoot
  cases E.tp with
  | none => rfl
  | some p =>
    simp only [Tree.label_map]
    split_ifs with h
    · rfl
    · cases E.tct.parts[p]? with
      | none => rfl
      | some P =>
        simp only
        rw [Tree.map_node, gatherLoopG_map]
        rfl

/-- Every block of a target-partition build is above the partition or in partition `p`. -/
theorem nodes_rank {E : BEnv G} (hT : E.tct.WF) (hS : E.sct.WF) {p : ℕ} (htp : E.tp = some p) :
    ∀ (f : ℕ) (t s : CTree G) (b : BTree G), t ∈ E.tct.root.pre → s ∈ E.sct.root.pre → (t.rk < 0 ∨ t.rk = (p : ℤ)) →
      buildBlockTree E f t s = some b → ∀ c ∈ b.pre, c.label.t.rk < 0 ∨ c.label.t.rk = (p : ℤ) := by
  intro f
  induction f with
  | zero => intro t s b _ _ _ h; simp [buildBlockTree] at h
  | succ f ih =>
    intro t s b ht hs hr h c hc
    obtain ⟨f', hf, h⟩ := buildBlockTree_inv h
    obtain rfl : f = f' := by omega
    rcases h with ⟨hz, rfl⟩ | ⟨hz, rfl⟩ | ⟨l, cs, hst, rfl, hcs⟩
    · rcases Tree.mem_pre.1 hc with rfl | ⟨d, hd, -⟩
      · exact hr
      · simp at hd
    · rcases Tree.mem_pre.1 hc with rfl | ⟨d, hd, -⟩
      · exact hr
      · simp at hd
    · rcases Tree.mem_pre.1 hc with rfl | ⟨d, hd, hc⟩
      · exact hr
      · obtain ⟨⟨u, v⟩, hx, hxd⟩ := forall₂_mem_right hcs hd
        obtain ⟨ts, ss, g, rfl, hI⟩ := step_split hT hS ht hs hst
        have hm := pair_mem_pairs.1 (List.mem_filter.1 hx).1
        have hu := hI.ts_mem u hm.1
        have hv := hI.ss_mem v hm.2
        refine ih u v d (Tree.mem_pre_trans ht hu) (Tree.mem_pre_trans hs hv) ?_ hxd c hc
        rcases (hI.guard u hm.1 v hm.2 (List.mem_filter.1 hx).2).2 with rfl | h1 | h1
        · exact hr
        · right
          unfold BEnv.inPart at h1
          rw [htp] at h1
          simpa using h1
        · exact Or.inl h1

/-- The settings in which `build` is analysed: root clusters of the two trees; a target partition number in range, for a root target
cluster in that partition or above the partition. -/
structure BuildOK (E : BEnv G) (t s : CTree G) : Prop where
  wfT : E.tct.WF
  wfS : E.sct.WF
  memT : t ∈ E.tct.root.pre
  memS : s ∈ E.sct.root.pre
  part : ∀ p : ℕ, E.tp = some p → ∃ P, E.tct.parts[p]? = some P ∧ (t.rk < 0 ∨ t.rk = (p : ℤ))

/-- Facts about the addressed block tree after the reset of its root. -/
theorem reset_facts {E : BEnv G} {t s : CTree G} (hE : BuildOK E t s) {f : ℕ} {b0 : BTree G} (h0 : buildBlockTree E f t s = some b0)
    {T0 : Tree (ℕ × BNode G)} (hmap : T0.map Prod.snd = b0) (hnd : T0.addrs.Nodup) :
    (resetRootA E T0).addrs.Nodup ∧
    (∀ c ∈ (resetRootA E T0).pre, (c = resetRootA E T0 ∧ c.label.1 = T0.label.1) ∨ (c ∈ T0.pre ∧ c.label.1 ≠ T0.label.1)) ∧
    (∀ k : BKind, k ≠ .hier → ((resetRootA E T0).pre.filter (fun c => decide (c.label.2.kind = k))).Perm
      (T0.pre.filter (fun c => decide (c.label.2.kind = k)))) := by
  have hself : ∀ c ∈ T0.pre, (c = T0 ∧ c.label.1 = T0.label.1) ∨ (c ∈ T0.pre ∧ c.label.1 ≠ T0.label.1) := by
    intro c hc
    by_cases h : c.label.1 = T0.label.1
    · left
      refine ⟨?_, h⟩
      rcases Tree.mem_pre.1 hc with rfl | ⟨d, hd, hcd⟩
      · rfl
      · exfalso
        cases T0 with
        | node a cs =>
          rw [Tree.addrs_node] at hnd
          apply (List.nodup_cons.1 hnd).1
          rw [List.mem_flatMap]
          exact ⟨d, hd, List.mem_map.2 ⟨c, hcd, h⟩⟩
    · exact Or.inr ⟨hc, h⟩
  have same : resetRootA E T0 = T0 → _ := fun e : resetRootA E T0 = T0 =>
    (show (resetRootA E T0).addrs.Nodup ∧
      (∀ c ∈ (resetRootA E T0).pre, (c = resetRootA E T0 ∧ c.label.1 = T0.label.1) ∨ (c ∈ T0.pre ∧ c.label.1 ≠ T0.label.1)) ∧
      (∀ k : BKind, k ≠ .hier → ((resetRootA E T0).pre.filter (fun c => decide (c.label.2.kind = k))).Perm
        (T0.pre.filter (fun c => decide (c.label.2.kind = k)))) from by
      rw [e]; exact ⟨hnd, hself, fun _ _ => List.Perm.refl _⟩)
  cases htp : E.tp with
  | none => exact same (by unfold resetRootA; rw [htp])
  | some p =>
    obtain ⟨P, hP, hr⟩ := hE.part p htp
    by_cases hrk : T0.label.2.t.rk = (p : ℤ)
    · exact same (by unfold resetRootA; rw [htp]; simp only; rw [if_pos hrk])
    · have hlab : T0.label.2 = b0.label := by rw [← hmap, Tree.label_map]
      have hbt : b0.label.t = t := (buildBlockTree_label h0).1
      have htr : t.rk < 0 := by
        rcases hr with hr | hr
        · exact hr
        · rw [hlab, hbt] at hrk; exact absurd hr hrk
      have e : resetRootA E T0 = .node (T0.label.1, { T0.label.2 with t := P, sym := E.symFlag P T0.label.2.s })
          (Tree.gatherLoopG (fun x => decide (x.2.t.rk = (p : ℤ))) [T0]) := by
        unfold resetRootA; rw [htp]; simp only; rw [if_neg hrk, hP]
      set q : ℕ × BNode G → Bool := fun x => decide (x.2.t.rk = (p : ℤ)) with hq
      have hperm : (Tree.gatherLoopG q [T0]).Perm (Tree.gatherG q T0) := by simpa using Tree.gatherLoopG_perm q [T0]
      have hpp : ((Tree.gatherLoopG q [T0]).flatMap Tree.pre).Perm ((Tree.gatherG q T0).flatMap Tree.pre) :=
        List.Perm.flatMap_right _ hperm
      have hsub := Tree.gatherG_sublist q T0
      have hnodes := buildBlockTree_nodes hE.wfT hE.wfS f t s b0 hE.memT hE.memS h0
      have hrank := nodes_rank hE.wfT hE.wfS htp f t s b0 hE.memT hE.memS (Or.inl htr) h0
      have hT0 : ∀ d ∈ T0.pre, d.map Prod.snd ∈ b0.pre := by
        intro d hd; rw [← hmap, Tree.map_pre]; exact List.mem_map.2 ⟨d, hd, rfl⟩
      have hk : ∀ k : BKind, k ≠ .hier → ∀ d ∈ T0.pre, decide (d.label.2.kind = k) = true → q d.label = true := by
        intro k hk d hd hdk
        have hdk : d.label.2.kind = k := by simpa using hdk
        have hm := hT0 d hd
        obtain ⟨n1, n2, -, n4, n5⟩ := hnodes _ hm
        rw [Tree.label_map] at n1 n2 n4 n5
        rcases hrank _ hm with hh | hh
        · rw [Tree.label_map] at hh
          exfalso
          cases k with
          | hier => exact hk rfl
          | adm =>
            have := (n4 hdk).1
            simp only [BEnv.isAdmTask, Bool.and_eq_true, decide_eq_true_eq] at this
            omega
          | dense =>
            exact (hE.wfT.above _ (Tree.mem_pre_trans hE.memT n1) hh).1 (isLeaf_iff.1 (n5 hdk).1)
        · rw [Tree.label_map] at hh
          simp [hq, hh]
      have hroot : T0.label.2.kind = .hier := by
        cases hkk : T0.label.2.kind with
        | hier => rfl
        | adm =>
          have := hk .adm (by simp) T0 (Tree.mem_pre_self _) (by simp [hkk])
          simp only [hq, decide_eq_true_eq] at this
          exact absurd this hrk
        | dense =>
          have := hk .dense (by simp) T0 (Tree.mem_pre_self _) (by simp [hkk])
          simp only [hq, decide_eq_true_eq] at this
          exact absurd this hrk
      rw [e]
      cases T0 with
      | node a cs =>
        simp only [Tree.children_node, Tree.label_node] at *
        rw [Tree.addrs_node] at hnd
        obtain ⟨hna, hnd2⟩ := List.nodup_cons.1 hnd
        have hflat : ∀ L : List (Tree (ℕ × BNode G)), L.flatMap Tree.addrs = (L.flatMap Tree.pre).map (fun c => c.label.1) := by
          intro L; rw [List.map_flatMap]; rfl
        have hin : ∀ c ∈ (Tree.gatherLoopG q [Tree.node a cs]).flatMap Tree.pre, c ∈ cs.flatMap Tree.pre :=
          fun c hc => hsub.subset (hpp.mem_iff.1 hc)
        refine ⟨?_, ?_, ?_⟩
        · rw [Tree.addrs_node, List.nodup_cons, hflat]
          refine ⟨?_, ?_⟩
          · intro hx
            obtain ⟨c, hc, hca⟩ := List.mem_map.1 hx
            apply hna
            rw [hflat]
            exact List.mem_map.2 ⟨c, hin c hc, hca⟩
          · rw [(hpp.map _).nodup_iff]
            rw [hflat] at hnd2
            exact (hsub.map _).nodup hnd2
        · intro c hc
          rw [Tree.pre_node] at hc
          rcases List.mem_cons.1 hc with rfl | hc
          · left; exact ⟨rfl, rfl⟩
          · right
            have := hin c hc
            refine ⟨by rw [Tree.pre_node]; exact List.mem_cons_of_mem _ this, ?_⟩
            intro hca
            apply hna
            rw [hflat]
            exact List.mem_map.2 ⟨c, this, hca⟩
        · intro k hkh
          have hrk2 : ¬ a.2.kind = k := by
            rw [hroot]; exact fun h => hkh h.symm
          rw [Tree.pre_node, Tree.pre_node, List.filter_cons_of_neg (by simp [hrk2]), List.filter_cons_of_neg (by simp [hrk2])]
          refine (hpp.filter _).trans ?_
          have := Tree.gatherG_filter q (fun x => decide (x.2.kind = k)) (Tree.node a cs) (hk k hkh)
          rw [Tree.children_node] at this
          rw [this]

/-! ## Memory operations -/

theorem alloc_fold (E : BEnv G) (L : List (Tree (ℕ × BNode G))) (hn : (L.map (fun c => c.label.1)).Nodup) : ∀ m : Mem R,
    let m' := L.foldl (fun m c =>
      { m with heap := Function.update m.heap c.label.1 (mkCell E c.label.2), live := Function.update m.live c.label.1 true }) m
    (∀ c ∈ L, m'.heap c.label.1 = mkCell E c.label.2 ∧ m'.live c.label.1 = true) ∧
    (∀ a, a ∉ L.map (fun c => c.label.1) → m'.heap a = m.heap a ∧ m'.live a = m.live a) ∧ m'.ub = m.ub := by
  induction L with
  | nil => intro m; simp
  | cons c L ih =>
    intro m
    simp only [List.map_cons, List.nodup_cons] at hn
    simp only [List.foldl_cons]
    obtain ⟨h1, h2, h3⟩ := ih hn.2 { m with heap := Function.update m.heap c.label.1 (mkCell E c.label.2), live := Function.update m.live c.label.1 true }
    refine ⟨?_, ?_, h3⟩
    · intro d hd
      rcases List.mem_cons.1 hd with rfl | hd
      · obtain ⟨g1, g2⟩ := h2 _ hn.1
        rw [g1, g2]; simp
      · exact h1 d hd
    · intro a ha
      simp only [List.map_cons, List.mem_cons, not_or] at ha
      obtain ⟨g1, g2⟩ := h2 a ha.2
      rw [g1, g2]
      simp [ha.1]

theorem setData_fold (f : HNode R → HData R) (L : List ℕ) (hn : L.Nodup) : ∀ m : Mem R, (∀ a ∈ L, m.live a = true) →
    let m' := L.foldl (fun m a => m.setData a (f (m.heap a))) m
    (∀ a, m'.heap a = if a ∈ L then { m.heap a with data := f (m.heap a) } else m.heap a) ∧ m'.live = m.live ∧ m'.next = m.next ∧
      m'.ub = m.ub := by
  induction L with
  | nil => intro m _; simp
  | cons b L ih =>
    intro m hl
    obtain ⟨hb, hn2⟩ := List.nodup_cons.1 hn
    simp only [List.foldl_cons]
    obtain ⟨h1, h2, h3, h4⟩ := ih hn2 (m.setData b (f (m.heap b))) (fun a ha => hl a (by simp [ha]))
    refine ⟨?_, h2, h3, ?_⟩
    · intro a
      rw [h1]
      by_cases hab : a = b
      · subst hab; simp [hb, Mem.setData]
      · simp [hab, Mem.setData]
    · rw [h4]; simp [Mem.setData, hl b (by simp)]

/-- What `set_symmetry_for_leaves` does to one node. -/
def withSymL (E : BEnv G) (c : Tree ℕ) (h : ℕ → HNode R) : HNode R :=
  if symLOf E (decide ((h c.label).sym ≠ .N)) (c.children.map (fun d => decide ((h d.label).sym ≠ .N))) then
    { h c.label with symL := E.sym.toH, uploL := E.uplo }
  else h c.label

theorem symL_fold (E : BEnv G) (L : List (Tree ℕ)) (hn : (L.map Tree.label).Nodup) : ∀ m : Mem R,
    let m' := L.foldl (fun m c =>
      if symLOf E (decide ((m.heap c.label).sym ≠ .N)) (c.children.map (fun d => decide ((m.heap d.label).sym ≠ .N))) then
        { m with heap := Function.update m.heap c.label { m.heap c.label with symL := E.sym.toH, uploL := E.uplo } }
      else m) m
    (∀ c ∈ L, m'.heap c.label = withSymL E c m.heap) ∧ (∀ a, a ∉ L.map Tree.label → m'.heap a = m.heap a) ∧
      m'.live = m.live ∧ m'.next = m.next ∧ m'.ub = m.ub := by
  induction L with
  | nil => intro m; simp
  | cons c L ih =>
    intro m
    simp only [List.map_cons, List.nodup_cons] at hn
    simp only [List.foldl_cons]
    set m1 : Mem R := if symLOf E (decide ((m.heap c.label).sym ≠ .N)) (c.children.map (fun d => decide ((m.heap d.label).sym ≠ .N))) then
        { m with heap := Function.update m.heap c.label { m.heap c.label with symL := E.sym.toH, uploL := E.uplo } }
      else m with hm1
    have hc : m1.heap c.label = withSymL E c m.heap := by
      rw [hm1]; unfold withSymL
      split_ifs
      · simp
      · rfl
    have ho : ∀ a, a ≠ c.label → m1.heap a = m.heap a := by
      intro a ha; rw [hm1]
      split_ifs
      · simp [ha]
      · rfl
    have hs : ∀ a, (m1.heap a).sym = (m.heap a).sym := by
      intro a
      by_cases ha : a = c.label
      · subst ha; rw [hc]; unfold withSymL; split_ifs <;> rfl
      · rw [ho a ha]
    have hrest : m1.live = m.live ∧ m1.next = m.next ∧ m1.ub = m.ub := by
      rw [hm1]; split_ifs <;> exact ⟨rfl, rfl, rfl⟩
    obtain ⟨h1, h2, h3, h4, h5⟩ := ih hn.2 m1
    refine ⟨?_, ?_, h3.trans hrest.1, h4.trans hrest.2.1, h5.trans hrest.2.2⟩
    · intro d hd
      rcases List.mem_cons.1 hd with rfl | hd
      · rw [h2 _ hn.1, hc]
      · rw [h1 d hd]
        have hdc : d.label ≠ c.label := fun e => hn.1 (e ▸ List.mem_map.2 ⟨d, hd, rfl⟩)
        unfold withSymL
        simp only [hs, ho d.label hdc]
    · intro a ha
      simp only [List.map_cons, List.mem_cons, not_or] at ha
      rw [h2 a ha.2, ho a ha.1]

theorem Tree.postorder_perm {α : Type*} (t : Tree α) : t.postorderTraversal.Perm t.pre := by
  have key : ∀ cs : List (Tree α), (∀ c ∈ cs, c.postorderTraversal.Perm c.pre) → (Tree.postorderTraversalL cs).Perm (Tree.preL cs) := by
    intro cs
    induction cs with
    | nil => intro _; exact List.Perm.refl _
    | cons c cs ih =>
      intro h
      rw [Tree.postorderTraversalL, Tree.preL]
      exact (h c (by simp)).append (ih (fun d hd => h d (by simp [hd])))
  induction t using Tree.ind with
  | h a cs ih =>
    rw [Tree.postorderTraversal, Tree.pre]
    exact (List.perm_append_singleton _ _).trans (List.Perm.cons _ (key cs ih))

/-- Effect of `set_symmetry_for_leaves`. -/
theorem setSymLeaves_spec (E : BEnv G) (H : Tree ℕ) (hn : (H.pre.map Tree.label).Nodup) (m : Mem R) :
    (∀ c ∈ H.pre, (m.setSymLeaves E H).heap c.label = withSymL E c m.heap) ∧
    (∀ a, a ∉ H.pre.map Tree.label → (m.setSymLeaves E H).heap a = m.heap a) ∧
    (m.setSymLeaves E H).live = m.live ∧ (m.setSymLeaves E H).next = m.next ∧ (m.setSymLeaves E H).ub = m.ub := by
  have hp := Tree.postorder_perm H
  have := symL_fold E H.postorderTraversal ((hp.map _).nodup_iff.2 hn) m
  simp only at this
  obtain ⟨h1, h2, h3, h4, h5⟩ := this
  exact ⟨fun c hc => h1 c (hp.mem_iff.2 hc), fun a ha => h2 a (fun hx => ha ((hp.map _).mem_iff.1 hx)), h3, h4, h5⟩


/-! ## Specification of `compute_blocks` and `build` -/

/-- Data of a dense task, with or without dense blocks generator. -/
def denseData (dg : Option (DenseGen R)) (gen : ℕ → ℕ → R) (n : HNode R) : HData R :=
  match dg with
  | none => denseOf gen n
  | some d => .dense (d (n.toff, n.tsz) (n.soff, n.ssz))

/-- Task lists fit for `compute_blocks`: no repetition, all cells allocated. -/
structure TasksOK (m : Mem R) (B : Builder) : Prop where
  nodupA : B.adm.Nodup
  nodupD : B.dense.Nodup
  disj : ∀ a ∈ B.adm, a ∉ B.dense
  live : ∀ a, a ∈ B.adm ∨ a ∈ B.dense → m.live a = true

theorem computeBlocks_spec [Zero R] {T : ℕ} (hT : 0 < T) {lr : LRGen R} {dg : Option (DenseGen R)} {gen : ℕ → ℕ → R} {m m' : Mem R}
    {B : Builder} {fp' : ℕ} (hB : TasksOK m B) (h : ComputeBlocks T lr dg gen m B m' fp') :
    (∀ a, m'.heap a = if a ∈ B.adm then { m.heap a with data := admOf lr gen (m.heap a) }
      else if a ∈ B.dense then { m.heap a with data := denseData dg gen (m.heap a) } else m.heap a) ∧
    m'.live = m.live ∧ m'.next = m.next ∧ m'.ub = m.ub ∧ fp' = B.fp + B.adm.countP (failsAt lr gen m.heap) := by
  obtain ⟨s, hr, hpc, rfl, rfl⟩ := h
  obtain ⟨h1, h2, h3, h4, h5⟩ := cbInv_final hT (cbInv_run (cbInv_init (dg := dg) hB.nodupA hB.nodupD hB.disj hB.live) hr) hpc
  have htgt : ∀ a, s.mem.heap a = if a ∈ B.adm then { m.heap a with data := admOf lr gen (m.heap a) }
      else if dg.isNone ∧ a ∈ B.dense then { m.heap a with data := denseOf gen (m.heap a) } else m.heap a := by
    intro a
    rw [h1]
    unfold CBState.target CBState.pend cbInit
    simp only [reduceCtorEq, exists_false, or_false]
    by_cases ha : a ∈ B.adm
    · simp [ha]
    · cases dg <;> simp [ha]
  cases dg with
  | none =>
    refine ⟨?_, h3, h4, h5, h2⟩
    intro a
    show s.mem.heap a = _
    rw [htgt]
    simp [denseData]
  | some d =>
    have hlv : ∀ a ∈ B.dense, s.mem.live a = true := by
      intro a ha; rw [h3]; exact hB.live a (Or.inr ha)
    obtain ⟨z1, z2, z3, z4⟩ := setData_fold (fun _ => HData.dense (0 : ℕ → ℕ → R)) B.dense hB.nodupD s.mem hlv
    obtain ⟨y1, y2, y3, y4⟩ := setData_fold (fun n : HNode R => HData.dense (d (n.toff, n.tsz) (n.soff, n.ssz))) B.dense hB.nodupD _
      (fun a ha => by rw [z2]; exact hlv a ha)
    refine ⟨?_, ?_, ?_, ?_, h2⟩
    · intro a
      unfold cbFinish
      simp only
      rw [y1, z1, htgt]
      by_cases hd : a ∈ B.dense
      · have hna : a ∉ B.adm := fun hx => hB.disj a hx hd
        simp [hd, hna, denseData]
      · simp [hd]
    · unfold cbFinish; simp only; rw [y2, z2, h3]
    · unfold cbFinish; simp only; rw [y3, z3, h4]
    · unfold cbFinish; simp only; rw [y4, z4, h5]

theorem computeBlocks_exists [Zero R] {T : ℕ} {lr : LRGen R} {dg : Option (DenseGen R)} {gen : ℕ → ℕ → R} {m : Mem R}
    {B : Builder} (hB : TasksOK m B) : ∃ m' fp', ComputeBlocks T lr dg gen m B m' fp' := by
  obtain ⟨t, ht, hpc⟩ := cb_completes (cbInv_init (T := T) (lr := lr) (gen := gen) (dg := dg) hB.nodupA hB.nodupD hB.disj hB.live)
  exact ⟨_, _, t, ht, hpc, rfl, rfl⟩

/-- State of memory and builder between calls: task lists of distinct allocated cells. -/
structure SysInv (m : Mem R) (B : Builder) : Prop where
  tasks : TasksOK m B
  old : ∀ a, a ∈ B.adm ∨ a ∈ B.dense → a < m.next

theorem assembledL_eq (E : BEnv G) (lr : LRGen R) (dg : Option (DenseGen R)) (gen : ℕ → ℕ → R) (cs : List (BTree G)) :
    assembledL E lr dg gen cs = cs.map (assembled E lr dg gen) := by
  induction cs with
  | nil => rfl
  | cons c cs ih => simp [assembledL, ih]

theorem assembled_node (E : BEnv G) (lr : LRGen R) (dg : Option (DenseGen R)) (gen : ℕ → ℕ → R) (a : BNode G) (cs : List (BTree G)) :
    assembled E lr dg gen (.node a cs) = .node (finalNode E lr dg gen (.node a cs)) (cs.map (assembled E lr dg gen)) := by
  rw [assembled, assembledL_eq]

/-- Reading an H-matrix from memory. -/
theorem read_assembled {E : BEnv G} {lr : LRGen R} {dg : Option (DenseGen R)} {gen : ℕ → ℕ → R} {heap : ℕ → HNode R}
    (T : Tree (ℕ × BNode G)) (h : ∀ c ∈ T.pre, heap c.label.1 = finalNode E lr dg gen (c.map Prod.snd)) :
    (T.map Prod.fst).map heap = assembled E lr dg gen (T.map Prod.snd) := by
  induction T using Tree.ind with
  | h a cs ih =>
    have h0 := h _ (Tree.mem_pre_self _)
    rw [Tree.map_node, Tree.map_node, Tree.map_node, assembled_node]
    rw [Tree.map_node, Tree.label_node] at h0
    rw [h0]
    congr 1
    rw [List.map_map, List.map_map]
    apply List.map_congr_left
    intro c hc
    exact ih c hc (fun d hd => h d (Tree.mem_pre.2 (Or.inr ⟨c, hc, hd⟩)))

/-- Number of admissible blocks whose compression fails. -/
def failCount (E : BEnv G) (lr : LRGen R) (gen : ℕ → ℕ → R) (b : BTree G) : ℕ :=
  b.pre.countP (fun c => decide (c.label.kind = .adm) && lrFails (mkCell E c.label) (lrOf lr gen (mkCell (R := R) E c.label)))

/-- The tasks of a new block tree. -/
theorem mem_tasksOf {k : BKind} {T : Tree (ℕ × BNode G)} {a : ℕ} :
    a ∈ tasksOf k T ↔ ∃ c ∈ T.pre, c.label.2.kind = k ∧ c.label.1 = a := by
  unfold tasksOf
  simp only [List.mem_map, List.mem_filter, decide_eq_true_eq]
  constructor
  · rintro ⟨c, ⟨h1, h2⟩, h3⟩; exact ⟨c, h1, h2, h3⟩
  · rintro ⟨c, h1, h2, h3⟩; exact ⟨c, ⟨h1, h2⟩, h3⟩

theorem addr_inj {α : Type*} {T : Tree (ℕ × α)} (hn : T.addrs.Nodup) {c d : Tree (ℕ × α)} (hc : c ∈ T.pre) (hd : d ∈ T.pre)
    (h : c.label.1 = d.label.1) : c = d := List.inj_on_of_nodup_map hn hc hd h

/-- The task lists contain exactly the admissible and dense blocks of an H-matrix (as far as its cells are concerned). -/
def Owns (B : Builder) (T : Tree (ℕ × BNode G)) : Prop :=
  ∀ c ∈ T.pre, (c.label.1 ∈ B.adm ↔ c.label.2.kind = .adm) ∧ (c.label.1 ∈ B.dense ↔ c.label.2.kind = .dense)

theorem mkCell_sym {E : BEnv G} (hE : E.sym ≠ .N) (b : BNode G) : decide ((mkCell (R := R) E b).sym ≠ .N) = b.sym := by
  unfold mkCell
  cases h : b.sym with
  | false => simp
  | true =>
    simp only [if_true, decide_eq_true_eq]
    cases hs : E.sym with
    | N => exact absurd hs hE
    | S => simp [SymType.toH]
    | H => simp [SymType.toH]

/-- A cell after `compute_blocks` and `set_symmetry_for_leaves`. -/
theorem withSymL_final {E : BEnv G} {lr : LRGen R} {dg : Option (DenseGen R)} {gen : ℕ → ℕ → R} {heap : ℕ → HNode R}
    {c : Tree (ℕ × BNode G)} {d : HData R} (h0 : heap c.label.1 = { (mkCell E c.label.2 : HNode R) with data := d })
    (hd : (finalNode E lr dg gen (c.map Prod.snd)).data = d)
    (hk : ∀ e ∈ c.children, (heap e.label.1).sym = (mkCell (R := R) E e.label.2).sym) :
    withSymL E (c.map Prod.fst) heap = finalNode E lr dg gen (c.map Prod.snd) := by
  have hs : (heap c.label.1).sym = (mkCell (R := R) E c.label.2).sym := by rw [h0]
  have e1 : symLOf E (decide ((heap (c.map Prod.fst).label).sym ≠ .N))
      ((c.map Prod.fst).children.map (fun d => decide ((heap d.label).sym ≠ .N))) =
      symLOf E (c.map Prod.snd).label.sym ((c.map Prod.snd).children.map (fun d => d.label.sym)) := by
    rw [Tree.label_map, Tree.label_map, Tree.children_map, Tree.children_map, List.map_map, List.map_map]
    by_cases hE : E.sym = .N
    · simp [symLOf, hE]
    · congr 1
      · rw [hs, mkCell_sym hE]
      · apply List.map_congr_left
        intro e he
        simp only [Function.comp_apply, Tree.label_map]
        rw [hk e he, mkCell_sym hE]
  unfold withSymL
  rw [e1]
  have hfd : finalNode E lr dg gen (c.map Prod.snd) = { finalNode E lr dg gen (c.map Prod.snd) with data := d } := by
    rw [← hd]
  rw [hfd]
  unfold finalNode
  simp only [Tree.label_map]
  rw [h0]
  by_cases hh : symLOf E c.label.2.sym ((c.map Prod.snd).children.map (fun d => d.label.sym)) = true
  · simp only [hh, if_true]
  · simp only [hh, if_false]
    rfl

/-- The task lists and the memory when `compute_blocks` starts. -/
theorem build_tasks [Zero R] {E : BEnv G} {fuel : ℕ} {t s : CTree G} (hE : BuildOK E t s) {m : Mem R} {B : Builder} (hm : SysInv m B)
    {b0 : BTree G} (h0 : buildBlockTree E fuel t s = some b0) :
    TasksOK ((m.alloc E (b0.number m.next).1 (b0.number m.next).2).reset E (b0.number m.next).1 (resetRootA E (b0.number m.next).1))
      (⟨B.adm ++ tasksOf .adm (b0.number m.next).1, B.dense ++ tasksOf .dense (b0.number m.next).1, B.fp⟩ : Builder) := by
  obtain ⟨n1, n2, n3⟩ := Tree.number_spec b0 m.next
  set T0 := (b0.number m.next).1 with hT0
  set T1 := resetRootA E T0 with hT1
  have hnd0 : T0.addrs.Nodup := by rw [n3]; exact List.nodup_range'
  obtain ⟨f1, f2, f3⟩ := reset_facts hE h0 n1 hnd0
  rw [← hT1] at f1 f2 f3
  have hmem0 : ∀ c ∈ T0.pre, c.label.1 ∈ T0.addrs := fun c hc => List.mem_map.2 ⟨c, hc, rfl⟩
  have hrange : ∀ a, a ∈ T0.addrs ↔ m.next ≤ a ∧ a < m.next + b0.count := by
    intro a; rw [n3, List.mem_range'_1]
  have hroot0 : T1.label.1 = T0.label.1 := by
    rcases f2 T1 (Tree.mem_pre_self _) with ⟨-, h⟩ | ⟨-, h⟩
    · exact h
    · exfalso; apply h
      rw [hT1]; unfold resetRootA
      cases E.tp with
      | none => rfl
      | some p =>
        simp only; split_ifs
        · rfl
        · cases E.tct.parts[p]? with
          | none => rfl
          | some P => rfl
  have hmem1 : ∀ a ∈ T1.addrs, a ∈ T0.addrs := by
    intro a ha
    obtain ⟨c, hc, rfl⟩ := List.mem_map.1 ha
    rcases f2 c hc with ⟨-, h⟩ | ⟨h, -⟩
    · show c.label.1 ∈ _
      rw [h]; exact hmem0 _ (Tree.mem_pre_self _)
    · exact hmem0 c h
  -- memory before compute_blocks
  set ma := m.alloc E T0 (b0.number m.next).2 with hma
  set m1 := ma.reset E T0 T1 with hm1
  obtain ⟨a1, a2, a3⟩ := alloc_fold (R := R) E T0.pre hnd0 m
  have hma_next : ma.next = m.next + b0.count := n2
  have hm1_next : m1.next = m.next + b0.count := n2
  have hm1_ub : m1.ub = m.ub := a3
  have hm1_heap : ∀ a, m1.heap a = if a = T1.label.1 then mkCell E T1.label.2 else ma.heap a := by
    intro a
    show Function.update ma.heap T1.label.1 (mkCell E T1.label.2) a = _
    by_cases ha : a = T1.label.1
    · subst ha; simp
    · simp [ha]
  have hm1_live : ∀ a, m1.live a = (ma.live a && !decide (a ∈ T0.addrs.filter (fun a => !decide (a ∈ T1.addrs)))) := fun a => rfl
  have hcell : ∀ c ∈ T1.pre, m1.heap c.label.1 = mkCell E c.label.2 ∧ m1.live c.label.1 = true := by
    intro c hc
    have hca : c.label.1 ∈ T1.addrs := List.mem_map.2 ⟨c, hc, rfl⟩
    constructor
    · rw [hm1_heap]
      rcases f2 c hc with ⟨h1, h2⟩ | ⟨h1, h2⟩
      · rw [if_pos (by rw [hroot0]; exact h2), h1]
      · rw [if_neg (by rw [hroot0]; exact h2)]
        exact (a1 c h1).1
    · rw [hm1_live]
      have : c.label.1 ∈ T0.addrs := hmem1 _ hca
      obtain ⟨d, hd, hda⟩ := List.mem_map.1 this
      have := (a1 d hd).2
      rw [hda] at this
      have e : ma.live c.label.1 = true := this
      rw [e]
      simp [hca]
  have hold : ∀ a < m.next, m1.heap a = m.heap a ∧ m1.live a = m.live a := by
    intro a ha
    have hna : a ∉ T0.addrs := by rw [hrange]; omega
    have hr : a ≠ T1.label.1 := by
      rintro rfl
      exact hna (hmem1 _ (List.mem_map.2 ⟨T1, Tree.mem_pre_self _, rfl⟩))
    constructor
    · rw [hm1_heap, if_neg hr]; exact (a2 a hna).1
    · rw [hm1_live]
      have e : ma.live a = m.live a := (a2 a hna).2
      rw [e]; simp [hna]
  -- new tasks
  have htask : ∀ k : BKind, k ≠ .hier → ∀ a, a ∈ tasksOf k T0 ↔ ∃ c ∈ T1.pre, c.label.2.kind = k ∧ c.label.1 = a := by
    intro k hk a
    rw [mem_tasksOf]
    constructor
    · rintro ⟨c, hc, h1, h2⟩
      have : c ∈ T1.pre.filter (fun c => decide (c.label.2.kind = k)) :=
        (f3 k hk).mem_iff.2 (List.mem_filter.2 ⟨hc, by simp [h1]⟩)
      exact ⟨c, (List.mem_filter.1 this).1, h1, h2⟩
    · rintro ⟨c, hc, h1, h2⟩
      have : c ∈ T0.pre.filter (fun c => decide (c.label.2.kind = k)) :=
        (f3 k hk).mem_iff.1 (List.mem_filter.2 ⟨hc, by simp [h1]⟩)
      exact ⟨c, (List.mem_filter.1 this).1, h1, h2⟩
  have htnew : ∀ k a, a ∈ tasksOf k T0 → m.next ≤ a ∧ a < m.next + b0.count := by
    intro k a ha
    obtain ⟨c, hc, -, rfl⟩ := mem_tasksOf.1 ha
    exact (hrange _).1 (hmem0 c hc)
  have htnd : ∀ k, (tasksOf k T0).Nodup := by
    intro k
    unfold tasksOf
    exact ((List.filter_sublist (p := fun c => decide (c.label.2.kind = k)) (l := T0.pre)).map (fun c : Tree (ℕ × BNode G) => c.label.1)).nodup hnd0
  refine ⟨?_, ?_, ?_, ?_⟩
  · rw [List.nodup_append]
    refine ⟨hm.tasks.nodupA, htnd _, ?_⟩
    rintro x hx y hy rfl
    have := hm.old x (Or.inl hx); have := htnew _ _ hy; omega
  · rw [List.nodup_append]
    refine ⟨hm.tasks.nodupD, htnd _, ?_⟩
    rintro x hx y hy rfl
    have := hm.old x (Or.inr hx); have := htnew _ _ hy; omega
  · intro a ha
    simp only [List.mem_append] at ha ⊢
    rintro (hd | hd) <;> rcases ha with ha | ha
    · exact hm.tasks.disj a ha hd
    · have := hm.old a (Or.inr hd); have := htnew _ _ ha; omega
    · have := hm.old a (Or.inl ha); have := htnew _ _ hd; omega
    · obtain ⟨c, hc, k1, e1⟩ := mem_tasksOf.1 ha
      obtain ⟨d, hd, k2, e2⟩ := mem_tasksOf.1 hd
      rw [addr_inj hnd0 hc hd (e1.trans e2.symm), k2] at k1
      simp at k1
  · intro a ha
    simp only [List.mem_append] at ha
    have key : ∀ k : BKind, k ≠ .hier → a ∈ tasksOf k T0 → m1.live a = true := by
      intro k hk hx
      obtain ⟨c, hc, -, rfl⟩ := (htask k hk a).1 hx
      exact (hcell c hc).2
    rcases ha with (ha | ha) | (ha | ha)
    · rw [(hold a (hm.old a (Or.inl ha))).2]; exact hm.tasks.live a (Or.inl ha)
    · exact key _ (by simp) ha
    · rw [(hold a (hm.old a (Or.inr ha))).2]; exact hm.tasks.live a (Or.inr ha)
    · exact key _ (by simp) ha

/-- **Specification of `build`**: for every schedule, memory and task lists after a call. -/
theorem build_spec [Zero R] {T : ℕ} (hT : 0 < T) {E : BEnv G} {lr : LRGen R} {dg : Option (DenseGen R)} {fuel : ℕ} {t s : CTree G}
    (hE : BuildOK E t s) {gen : ℕ → ℕ → R} {m m' : Mem R} {B B' : Builder} {H : Tree ℕ} (hm : SysInv m B)
    (h : BuildStep T E lr dg fuel t s gen m B m' B' H) :
    ∃ b, buildBlocks E fuel t s = some b ∧ H.map m'.heap = assembled E lr dg gen b ∧
      (∃ T1 : Tree (ℕ × BNode G), H = T1.map Prod.fst ∧ b = T1.map Prod.snd ∧ T1.addrs.Nodup ∧ Owns B' T1 ∧
        (∀ a ∈ T1.addrs, m.next ≤ a ∧ a < m'.next ∧ m'.live a = true)) ∧
      (∃ nA nD, B'.adm = B.adm ++ nA ∧ B'.dense = B.dense ++ nD ∧ ∀ a, a ∈ nA ∨ a ∈ nD → m.next ≤ a) ∧
      (∀ a < m.next, m'.heap a = (if a ∈ B.adm then { m.heap a with data := admOf lr gen (m.heap a) }
        else if a ∈ B.dense then { m.heap a with data := denseData dg gen (m.heap a) } else m.heap a) ∧ m'.live a = m.live a) ∧
      m'.ub = m.ub ∧ m.next ≤ m'.next ∧ B'.fp = B.fp + B.adm.countP (failsAt lr gen m.heap) + failCount E lr gen b ∧ SysInv m' B' := by
  obtain ⟨b0, h0, rfl, hBA, hBD, m2, hcb, rfl⟩ := h
  obtain ⟨n1, n2, n3⟩ := Tree.number_spec b0 m.next
  set T0 := (b0.number m.next).1 with hT0
  set T1 := resetRootA E T0 with hT1
  have hnd0 : T0.addrs.Nodup := by rw [n3]; exact List.nodup_range'
  obtain ⟨f1, f2, f3⟩ := reset_facts hE h0 n1 hnd0
  rw [← hT1] at f1 f2 f3
  have hmem0 : ∀ c ∈ T0.pre, c.label.1 ∈ T0.addrs := fun c hc => List.mem_map.2 ⟨c, hc, rfl⟩
  have hrange : ∀ a, a ∈ T0.addrs ↔ m.next ≤ a ∧ a < m.next + b0.count := by
    intro a; rw [n3, List.mem_range'_1]
  have hroot0 : T1.label.1 = T0.label.1 := by
    rcases f2 T1 (Tree.mem_pre_self _) with ⟨-, h⟩ | ⟨-, h⟩
    · exact h
    · exfalso; apply h
      rw [hT1]; unfold resetRootA
      cases E.tp with
      | none => rfl
      | some p =>
        simp only; split_ifs
        · rfl
        · cases E.tct.parts[p]? with
          | none => rfl
          | some P => rfl
  have hmem1 : ∀ a ∈ T1.addrs, a ∈ T0.addrs := by
    intro a ha
    obtain ⟨c, hc, rfl⟩ := List.mem_map.1 ha
    rcases f2 c hc with ⟨-, h⟩ | ⟨h, -⟩
    · show c.label.1 ∈ _
      rw [h]; exact hmem0 _ (Tree.mem_pre_self _)
    · exact hmem0 c h
  -- memory before compute_blocks
  set ma := m.alloc E T0 (b0.number m.next).2 with hma
  set m1 := ma.reset E T0 T1 with hm1
  obtain ⟨a1, a2, a3⟩ := alloc_fold (R := R) E T0.pre hnd0 m
  have hma_next : ma.next = m.next + b0.count := n2
  have hm1_next : m1.next = m.next + b0.count := n2
  have hm1_ub : m1.ub = m.ub := a3
  have hm1_heap : ∀ a, m1.heap a = if a = T1.label.1 then mkCell E T1.label.2 else ma.heap a := by
    intro a
    show Function.update ma.heap T1.label.1 (mkCell E T1.label.2) a = _
    by_cases ha : a = T1.label.1
    · subst ha; simp
    · simp [ha]
  have hm1_live : ∀ a, m1.live a = (ma.live a && !decide (a ∈ T0.addrs.filter (fun a => !decide (a ∈ T1.addrs)))) := fun a => rfl
  have hcell : ∀ c ∈ T1.pre, m1.heap c.label.1 = mkCell E c.label.2 ∧ m1.live c.label.1 = true := by
    intro c hc
    have hca : c.label.1 ∈ T1.addrs := List.mem_map.2 ⟨c, hc, rfl⟩
    constructor
    · rw [hm1_heap]
      rcases f2 c hc with ⟨h1, h2⟩ | ⟨h1, h2⟩
      · rw [if_pos (by rw [hroot0]; exact h2), h1]
      · rw [if_neg (by rw [hroot0]; exact h2)]
        exact (a1 c h1).1
    · rw [hm1_live]
      have : c.label.1 ∈ T0.addrs := hmem1 _ hca
      obtain ⟨d, hd, hda⟩ := List.mem_map.1 this
      have := (a1 d hd).2
      rw [hda] at this
      have e : ma.live c.label.1 = true := this
      rw [e]
      simp [hca]
  have hold : ∀ a < m.next, m1.heap a = m.heap a ∧ m1.live a = m.live a := by
    intro a ha
    have hna : a ∉ T0.addrs := by rw [hrange]; omega
    have hr : a ≠ T1.label.1 := by
      rintro rfl
      exact hna (hmem1 _ (List.mem_map.2 ⟨T1, Tree.mem_pre_self _, rfl⟩))
    constructor
    · rw [hm1_heap, if_neg hr]; exact (a2 a hna).1
    · rw [hm1_live]
      have e : ma.live a = m.live a := (a2 a hna).2
      rw [e]; simp [hna]
  -- new tasks
  have htask : ∀ k : BKind, k ≠ .hier → ∀ a, a ∈ tasksOf k T0 ↔ ∃ c ∈ T1.pre, c.label.2.kind = k ∧ c.label.1 = a := by
    intro k hk a
    rw [mem_tasksOf]
    constructor
    · rintro ⟨c, hc, h1, h2⟩
      have : c ∈ T1.pre.filter (fun c => decide (c.label.2.kind = k)) :=
        (f3 k hk).mem_iff.2 (List.mem_filter.2 ⟨hc, by simp [h1]⟩)
      exact ⟨c, (List.mem_filter.1 this).1, h1, h2⟩
    · rintro ⟨c, hc, h1, h2⟩
      have : c ∈ T0.pre.filter (fun c => decide (c.label.2.kind = k)) :=
        (f3 k hk).mem_iff.1 (List.mem_filter.2 ⟨hc, by simp [h1]⟩)
      exact ⟨c, (List.mem_filter.1 this).1, h1, h2⟩
  have htnew : ∀ k a, a ∈ tasksOf k T0 → m.next ≤ a ∧ a < m.next + b0.count := by
    intro k a ha
    obtain ⟨c, hc, -, rfl⟩ := mem_tasksOf.1 ha
    exact (hrange _).1 (hmem0 c hc)
  have htnd : ∀ k, (tasksOf k T0).Nodup := by
    intro k
    unfold tasksOf
    exact ((List.filter_sublist (p := fun c => decide (c.label.2.kind = k)) (l := T0.pre)).map (fun c : Tree (ℕ × BNode G) => c.label.1)).nodup hnd0
  have hB1 : TasksOK m1 (⟨B.adm ++ tasksOf .adm T0, B.dense ++ tasksOf .dense T0, B.fp⟩ : Builder) := build_tasks hE hm h0
  obtain ⟨g1, g2, g3, g4, g5⟩ := computeBlocks_spec hT hB1 hcb
  simp only [List.mem_append] at g1
  have howns : ∀ c ∈ T1.pre, (c.label.1 ∈ B'.adm ↔ c.label.2.kind = .adm) ∧ (c.label.1 ∈ B'.dense ↔ c.label.2.kind = .dense) := by
    intro c hc
    have hge : m.next ≤ c.label.1 := ((hrange _).1 (hmem1 _ (List.mem_map.2 ⟨c, hc, rfl⟩))).1
    have key : ∀ k : BKind, k ≠ .hier → (c.label.1 ∈ tasksOf k T0 ↔ c.label.2.kind = k) := by
      intro k hk
      rw [htask k hk]
      constructor
      · rintro ⟨d, hd, h1, h2⟩
        rw [← addr_inj f1 hd hc h2]; exact h1
      · intro h; exact ⟨c, hc, h, rfl⟩
    rw [hBA, hBD]
    simp only [List.mem_append]
    rw [key .adm (by simp), key .dense (by simp)]
    refine ⟨or_iff_right ?_, or_iff_right ?_⟩
    · intro h; have := hm.old _ (Or.inl h); omega
    · intro h; have := hm.old _ (Or.inr h); omega
  have hnew : ∀ c ∈ T1.pre, m2.heap c.label.1 =
      { (mkCell E c.label.2 : HNode R) with data := (finalNode E lr dg gen (c.map Prod.snd)).data } := by
    intro c hc
    obtain ⟨o1, o2⟩ := howns c hc
    rw [hBA] at o1; rw [hBD] at o2
    simp only [List.mem_append] at o1 o2
    rw [g1, (hcell c hc).1]
    simp only [o1, o2]
    unfold finalNode
    simp only [Tree.label_map]
    cases hk : c.label.2.kind with
    | adm => simp
    | dense => simp [denseData]
    | hier => simp only [reduceCtorEq, if_false]; rfl
  have hHpre : (T1.map Prod.fst).pre = T1.pre.map (Tree.map Prod.fst) := Tree.map_pre _ _
  have hHlab : (T1.map Prod.fst).pre.map Tree.label = T1.addrs := by
    rw [hHpre, List.map_map]
    unfold Tree.addrs
    apply List.map_congr_left
    intro c _
    simp [Tree.label_map]
  obtain ⟨s1, s2, s3, s4, s5⟩ := setSymLeaves_spec E (T1.map Prod.fst) (by rw [hHlab]; exact f1) m2
  have hfinal : ∀ c ∈ T1.pre, (m2.setSymLeaves E (T1.map Prod.fst)).heap c.label.1 = finalNode E lr dg gen (c.map Prod.snd) := by
    intro c hc
    have h1 := s1 (c.map Prod.fst) (by rw [hHpre]; exact List.mem_map.2 ⟨c, hc, rfl⟩)
    rw [Tree.label_map] at h1
    rw [h1]
    refine withSymL_final (hnew c hc) rfl ?_
    intro e he
    rw [hnew e (Tree.mem_pre_trans hc (child_mem_pre he))]
  have hmap1 : T1.map Prod.snd = resetRoot E b0 := by rw [hT1, resetRootA_map, n1]
  refine ⟨resetRoot E b0, by simp [buildBlocks, h0], ?_, ⟨T1, rfl, hmap1.symm, f1, howns, ?_⟩, ⟨_, _, hBA, hBD, ?_⟩, ?_, ?_, ?_, ?_, ?_⟩
  · rw [← hmap1]; exact read_assembled T1 hfinal
  · intro a ha
    have := (hrange a).1 (hmem1 a ha)
    obtain ⟨c, hc, rfl⟩ := List.mem_map.1 ha
    refine ⟨this.1, ?_, ?_⟩
    · rw [s4, g3, hm1_next]; exact this.2
    · rw [s3, g2]; exact (hcell c hc).2
  · rintro a (ha | ha)
    · exact (htnew _ a ha).1
    · exact (htnew _ a ha).1
  · intro a ha
    have hna : a ∉ T1.addrs := fun hx => by have := (hrange a).1 (hmem1 a hx); omega
    obtain ⟨o1, o2⟩ := hold a ha
    refine ⟨?_, ?_⟩
    · rw [s2 a (by rw [hHlab]; exact hna), g1, o1]
      have e1 : ∀ k, a ∉ tasksOf k T0 := fun k hx => by have := htnew k a hx; omega
      simp only [e1, or_false]
    · rw [s3, g2]; exact o2
  · rw [s5, g4, hm1_ub]
  · rw [s4, g3, hm1_next]; omega
  · rw [g5]
    simp only [List.countP_append]
    have e1 : B.adm.countP (failsAt lr gen m1.heap) = B.adm.countP (failsAt lr gen m.heap) := by
      apply List.countP_congr
      intro a ha
      unfold failsAt
      rw [(hold a (hm.old a (Or.inl ha))).1]
    have e2 : (tasksOf .adm T0).countP (failsAt lr gen m1.heap) = failCount E lr gen (resetRoot E b0) := by
      unfold failCount tasksOf
      rw [← hmap1, Tree.map_pre, List.countP_map, List.countP_map]
      have hp := f3 .adm (by simp)
      rw [← hp.countP_eq, List.countP_filter]
      apply List.countP_congr
      intro c hc
      simp only [Function.comp_apply, Tree.label_map, failsAt, (hcell c hc).1, Bool.and_eq_true, decide_eq_true_eq]
      tauto
    rw [e1, e2]; omega
  · refine ⟨⟨?_, ?_, ?_, ?_⟩, ?_⟩
    · rw [hBA]; exact hB1.nodupA
    · rw [hBD]; exact hB1.nodupD
    · rw [hBA, hBD]; exact hB1.disj
    · rw [hBA, hBD, s3, g2]; exact hB1.live
    · rw [hBA, hBD, s4, g3, hm1_next]
      intro a ha
      simp only [List.mem_append] at ha
      rcases ha with (ha | ha) | (ha | ha)
      · have := hm.old a (Or.inl ha); omega
      · exact (htnew _ a ha).2
      · have := hm.old a (Or.inr ha); omega
      · exact (htnew _ a ha).2

end Htool
