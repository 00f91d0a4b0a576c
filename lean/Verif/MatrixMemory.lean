import Mathlib.Data.Nat.Basic
import Mathlib.Tactic.Ring
import Mathlib.Logic.Function.Basic

/-! # Storage of dense matrices

Model of the special member functions and of the storage management of `Matrix` (`include/htool/matrix/matrix.hpp` 22-236) as operations on a
heap: histories of any length, over any number of matrices. Blocks are given by `new T[n]`; a block belongs either to matrices or to the user
(buffers passed to `assign`, or taken back by `release`). A freed address is never reused. `ub` records undefined behaviour: deleting a block
which is not live or belongs to the user, or copying through a null pointer or outside a block. -/

namespace Htool.MatMem
variable {R : Type*}

/-- A live block: number of entries, whether it belongs to the user, content. -/
structure Blk (R : Type*) where
  size : ℕ
  user : Bool
  data : ℕ → R

/-- Members of `Matrix` (matrix.hpp 24-27); `ptr = none` is `nullptr`. -/
structure Obj where
  nr : ℕ
  nc : ℕ
  ptr : Option ℕ
  owning : Bool

/-- The matrices alive, the heap, the next fresh address, and whether undefined behaviour happened. -/
structure St (R : Type*) where
  objs : ℕ → Option Obj
  heap : ℕ → Option (Blk R)
  next : ℕ
  ub : Bool

namespace St
variable (s : St R)

/-- `new T[n]` with the given content. -/
def alloc (n : ℕ) (user : Bool) (d : ℕ → R) : St R × ℕ :=
  ({ s with heap := Function.update s.heap s.next (some ⟨n, user, d⟩), next := s.next + 1 }, s.next)

/-- `delete[] p`. -/
def delete (p : Option ℕ) : St R :=
  match p with
  | none => s
  | some p =>
    match s.heap p with
    | some b => if b.user then { s with ub := true } else { s with heap := Function.update s.heap p none }
    | none => { s with ub := true }

/-- Write `n` entries to `p`. -/
def fillAt (p : Option ℕ) (n : ℕ) (d : ℕ → R) : St R :=
  if n = 0 then s
  else match p with
  | none => { s with ub := true }
  | some p =>
    match s.heap p with
    | some b => if n ≤ b.size then
        { s with heap := Function.update s.heap p (some { b with data := fun i => if i < n then d i else b.data i }) }
      else { s with ub := true }
    | none => { s with ub := true }

/-- Reading `n` entries from `p` is allowed. -/
def readable (p : Option ℕ) (n : ℕ) : Bool :=
  n == 0 || match p with
  | none => false
  | some p => match s.heap p with
    | some b => n ≤ b.size
    | none => false

/-- The entries read from `p`. -/
def content (d : R) (p : Option ℕ) : ℕ → R :=
  match p with
  | none => fun _ => d
  | some p => match s.heap p with
    | some b => b.data
    | none => fun _ => d

/-- Set the object `o`. -/
def setObj (o : ℕ) (v : Option Obj) : St R := { s with objs := Function.update s.objs o v }

end St

/-- Operations on matrices. `o`, `a` name objects, `p` a block of the user. -/
inductive Op (R : Type*) where
  | user (n : ℕ) (d : ℕ → R)
  | default (o : ℕ)
  | ctor (o nr nc : ℕ) (v : R)
  | copy (o a : ℕ)
  | copyAssign (o a : ℕ)
  | move (o a : ℕ)
  | moveAssign (o a : ℕ)
  | dtor (o : ℕ)
  | fill (o : ℕ) (v : R)
  | write (o i j : ℕ) (v : R)
  | assign (o nr nc p : ℕ) (owning : Bool)
  | release (o : ℕ)
  | resize (o nr nc : ℕ) (v : R)

variable [Inhabited R]

/-- One operation; operations on objects which do not exist are not C++ programs and do nothing. -/
def step (s : St R) : Op R → St R
  -- a buffer of the user
  | .user n d => (s.alloc n true d).1
  -- `Matrix()` (matrix.hpp 30)
  | .default o => s.setObj o (some ⟨0, 0, none, true⟩)
  -- `Matrix(nbr, nbc, value)` (matrix.hpp 31-34)
  | .ctor o nr nc v =>
    let (s1, p) := s.alloc (nr * nc) false (fun _ => v)
    s1.setObj o (some ⟨nr, nc, some p, true⟩)
  -- copy constructor (matrix.hpp 35-39)
  | .copy o a =>
    match s.objs a with
    | none => s
    | some A =>
      let (s1, p) := s.alloc (A.nr * A.nc) false (s.content default A.ptr)
      let s2 := if s.readable A.ptr (A.nr * A.nc) then s1 else { s1 with ub := true }
      s2.setObj o (some ⟨A.nr, A.nc, some p, true⟩)
  -- copy assignment (matrix.hpp 40-60)
  | .copyAssign o a =>
    match s.objs o, s.objs a with
    | some O, some A =>
      if o = a then s
      else
        let s0 := if s.readable A.ptr (A.nr * A.nc) then s else { s with ub := true }
        if O.nr * O.nc = A.nc * A.nr then
          (s0.fillAt O.ptr (O.nr * O.nc) (s.content default A.ptr)).setObj o (some { O with nr := A.nr, nc := A.nc })
        else
          let d := s.content default A.ptr
          let s1 := if O.owning then s0.delete O.ptr else s0
          let (s2, p) := s1.alloc (A.nr * A.nc) false d
          s2.setObj o (some ⟨A.nr, A.nc, some p, true⟩)
    | _, _ => s
  -- move constructor (matrix.hpp 61-63)
  | .move o a =>
    match s.objs a with
    | none => s
    | some A => if o = a then s else (s.setObj o (some A)).setObj a (some { A with ptr := none })
  -- move assignment (matrix.hpp 65-77)
  | .moveAssign o a =>
    match s.objs o, s.objs a with
    | some O, some A =>
      if o = a then s
      else
        let s1 := if O.owning then s.delete O.ptr else s
        (s1.setObj o (some A)).setObj a (some { A with ptr := none })
    | _, _ => s
  -- destructor (matrix.hpp 79-82)
  | .dtor o =>
    match s.objs o with
    | none => s
    | some O => (if O.owning then s.delete O.ptr else s).setObj o none
  -- `operator=(const T &z)` (matrix.hpp 84-87)
  | .fill o v =>
    match s.objs o with
    | none => s
    | some O => s.fillAt O.ptr (O.nr * O.nc) (fun _ => v)
  -- `A(i, j) = v` (matrix.hpp 95-97)
  | .write o i j v =>
    match s.objs o with
    | none => s
    | some O =>
      match O.ptr with
      | none => { s with ub := true }
      | some p =>
        match s.heap p with
        | some b => if i + j * O.nr < b.size then
            { s with heap := Function.update s.heap p (some { b with data := Function.update b.data (i + j * O.nr) v }) }
          else { s with ub := true }
        | none => { s with ub := true }
  -- `assign` (matrix.hpp 127-135); with `owning_data` the block now belongs to the matrix
  | .assign o nr nc p owning =>
    match s.objs o with
    | none => s
    | some O =>
      let s1 := if 0 < O.nr * O.nc ∧ O.owning = true then s.delete O.ptr else s
      let s2 := if owning then { s1 with heap := Function.update s1.heap p ((s1.heap p).map fun b : Blk R => (⟨b.size, false, b.data⟩ : Blk R)) } else s1
      s2.setObj o (some ⟨nr, nc, some p, owning⟩)
  -- `release` (matrix.hpp 121-125): the block now belongs to the caller
  | .release o =>
    match s.objs o with
    | none => s
    | some O =>
      let s1 := match O.ptr with
        | none => s
        | some p => { s with heap := Function.update s.heap p ((s.heap p).map fun b : Blk R => (⟨b.size, true, b.data⟩ : Blk R)) }
      s1.setObj o (some { O with ptr := none })
  -- `resize` (matrix.hpp 222-236)
  | .resize o nr nc v =>
    match s.objs o with
    | none => s
    | some O =>
      if O.ptr.isSome = true ∧ O.owning = true ∧ O.nr * O.nc ≠ nr * nc then
        let (s1, p) := (s.delete O.ptr).alloc (nr * nc) false (fun _ => default)
        (s1.fillAt (some p) (nr * nc) (fun _ => v)).setObj o (some ⟨nr, nc, some p, true⟩)
      else if O.nr * O.nc ≠ nr * nc then
        let (s1, p) := s.alloc (nr * nc) false (fun _ => default)
        (s1.fillAt (some p) (nr * nc) (fun _ => v)).setObj o (some ⟨nr, nc, some p, true⟩)
      else (s.fillAt O.ptr (nr * nc) (fun _ => v)).setObj o (some ⟨nr, nc, O.ptr, true⟩)

/-- A history. -/
def run (s : St R) (l : List (Op R)) : St R := l.foldl step s

/-- Nothing exists. -/
def init : St R := ⟨fun _ => none, fun _ => none, 0, false⟩

/-- A matrix whose storage was moved or released although its sizes were kept. -/
def Obj.hollow (O : Obj) : Prop := O.ptr = none ∧ 0 < O.nr * O.nc

/-- What the user has to respect. New objects get fresh names; `assign` gets a large enough buffer of the user, not in use if the matrix is to own it; and the restrictions which
the member functions do not check: hollow matrices are neither copied from, nor assigned, filled or resized without a change of the number of
entries; a matrix on borrowed storage is not resized to the same number of entries; `assign` is not called on an owning matrix without
entries which has storage. -/
def Pre (s : St R) : Op R → Prop
  | .user _ _ => True
  | .default o => s.objs o = none
  | .ctor o _ _ _ => s.objs o = none
  | .copy o a => s.objs o = none ∧ ∃ A, s.objs a = some A ∧ ¬ A.hollow
  | .copyAssign o a => ∃ O A, s.objs o = some O ∧ s.objs a = some A ∧ ¬ A.hollow ∧ (O.hollow → O.nr * O.nc ≠ A.nr * A.nc)
  | .move o a => s.objs o = none ∧ ∃ A, s.objs a = some A
  | .moveAssign o a => ∃ O A, s.objs o = some O ∧ s.objs a = some A
  | .dtor o => ∃ O, s.objs o = some O
  | .fill o _ => ∃ O, s.objs o = some O ∧ ¬ O.hollow
  | .write o i j _ => ∃ O, s.objs o = some O ∧ ¬ O.hollow ∧ i < O.nr ∧ j < O.nc
  | .assign o nr nc p owning => ∃ O, s.objs o = some O ∧ (O.ptr ≠ none → O.owning = true → 0 < O.nr * O.nc) ∧
      (∃ b, s.heap p = some b ∧ b.user = true ∧ nr * nc ≤ b.size) ∧
      (owning = true → ∀ q Q, s.objs q = some Q → Q.ptr ≠ some p)
  | .release o => ∃ O, s.objs o = some O
  | .resize o nr nc _ => ∃ O, s.objs o = some O ∧ (O.nr * O.nc = nr * nc → ¬ O.hollow ∧ (O.owning = false → O.ptr = none))

/-- Every operation of the history respects the restrictions when it is executed. -/
def PreAll (s : St R) : List (Op R) → Prop
  | [] => True
  | op :: l => Pre s op ∧ PreAll (step s op) l

/-- No undefined behaviour so far; every matrix with storage has a live block with room for its entries; owning matrices have distinct blocks
which do not belong to the user, the others borrow from the user; and no block is lost. -/
structure Inv (s : St R) : Prop where
  noUb : s.ub = false
  fresh : ∀ p, s.next ≤ p → s.heap p = none
  live : ∀ o O p, s.objs o = some O → O.ptr = some p →
    ∃ b, s.heap p = some b ∧ O.nr * O.nc ≤ b.size ∧ b.user = !O.owning
  excl : ∀ o O a A p, s.objs o = some O → s.objs a = some A → O.ptr = some p → A.ptr = some p → O.owning = true → o = a
  noLeak : ∀ p b, s.heap p = some b → b.user = false → ∃ o O, s.objs o = some O ∧ O.ptr = some p ∧ O.owning = true

/-! ## Lemmas -/

variable {s : St R}

omit [Inhabited R] in
theorem Inv.delete_owned (h : Inv s) {o : ℕ} {O : Obj} (ho : s.objs o = some O) (hw : O.owning = true) :
    (s.delete O.ptr) = { s with heap := fun q => if O.ptr = some q then none else s.heap q } := by
  unfold St.delete
  cases hp : O.ptr with
  | none => simp
  | some p =>
    obtain ⟨b, hb, -, hu⟩ := h.live o O p ho hp
    simp only [hb]
    rw [if_neg (by rw [hu, hw]; decide)]
    congr 1
    funext q
    by_cases e : q = p
    · subst e; simp
    · rw [Function.update_of_ne e, if_neg (by simpa using fun h => e h.symm)]

/-- Destruction of an object, the storage being freed if it is owned. -/
def detach (s : St R) (o : ℕ) (O : Obj) : St R := (if O.owning then s.delete O.ptr else s).setObj o none

omit [Inhabited R] in
theorem detach_eq (h : Inv s) {o : ℕ} {O : Obj} (ho : s.objs o = some O) :
    detach s o O = ⟨Function.update s.objs o none,
      (fun q => if O.owning = true ∧ O.ptr = some q then none else s.heap q), s.next, s.ub⟩ := by
  unfold detach
  by_cases hw : O.owning = true
  · rw [if_pos hw, h.delete_owned ho hw]; simp [St.setObj, hw]
  · rw [if_neg hw]; simp [St.setObj, hw]

omit [Inhabited R] in
theorem Inv.detach (h : Inv s) {o : ℕ} {O : Obj} (ho : s.objs o = some O) : Inv (detach s o O) := by
  rw [detach_eq h ho]
  have sub : ∀ {q Q}, Function.update s.objs o none q = some Q → q ≠ o ∧ s.objs q = some Q := by
    intro q Q hq
    by_cases e : q = o
    · subst e; simp at hq
    · rw [Function.update_of_ne e] at hq; exact ⟨e, hq⟩
  refine ⟨h.noUb, fun p hp => ?_, fun q Q p hq hp => ?_, fun q Q a A p hq ha hp hp' hw => ?_, fun p b hb hu => ?_⟩
  · show (if O.owning = true ∧ O.ptr = some p then none else s.heap p) = none
    rw [h.fresh p hp, ite_self]
  · obtain ⟨hne, hq⟩ := sub hq
    obtain ⟨b, hb, h2, h3⟩ := h.live q Q p hq hp
    refine ⟨b, ?_, h2, h3⟩
    show (if O.owning = true ∧ O.ptr = some p then none else s.heap p) = some b
    rw [if_neg, hb]
    rintro ⟨e1, e2⟩
    exact hne (h.excl o O q Q p ho hq e2 hp e1).symm
  · exact h.excl q Q a A p (sub hq).2 (sub ha).2 hp hp' hw
  · have hb : (if O.owning = true ∧ O.ptr = some p then none else s.heap p) = some b := hb
    split_ifs at hb with hc
    obtain ⟨q, Q, hq, h1, h2⟩ := h.noLeak p b hb hu
    refine ⟨q, Q, ?_, h1, h2⟩
    show Function.update s.objs o none q = some Q
    rw [Function.update_of_ne]
    · exact hq
    · rintro rfl
      rw [ho] at hq; cases hq
      exact hc ⟨h2, h1⟩

/-- A new object on a new block of its own. -/
def attach (s : St R) (o nr nc : ℕ) (d : ℕ → R) : St R :=
  (s.alloc (nr * nc) false d).1.setObj o (some ⟨nr, nc, some s.next, true⟩)

omit [Inhabited R] in
theorem Inv.attach (h : Inv s) {o : ℕ} (ho : s.objs o = none) (nr nc : ℕ) (d : ℕ → R) : Inv (attach s o nr nc d) := by
  have hh : ∀ p, (Htool.MatMem.attach s o nr nc d).heap p = if p = s.next then some ⟨nr * nc, false, d⟩ else s.heap p := by
    intro p
    show Function.update s.heap s.next _ p = _
    by_cases e : p = s.next
    · subst e; simp
    · rw [Function.update_of_ne e, if_neg e]
  have hob : ∀ q, (Htool.MatMem.attach s o nr nc d).objs q = if q = o then some ⟨nr, nc, some s.next, true⟩ else s.objs q := by
    intro q
    show Function.update s.objs o _ q = _
    by_cases e : q = o
    · subst e; simp
    · rw [Function.update_of_ne e, if_neg e]
  have hlt : ∀ q Q p, s.objs q = some Q → Q.ptr = some p → p ≠ s.next := by
    rintro q Q p hq hp rfl
    obtain ⟨b, hb, -⟩ := h.live q Q _ hq hp
    rw [h.fresh _ le_rfl] at hb; cases hb
  refine ⟨h.noUb, fun p hp => ?_, fun q Q p hq hp => ?_, fun q Q a A p hq ha hp hp' hw => ?_, fun p b hb hu => ?_⟩
  · have hp : s.next + 1 ≤ p := hp
    rw [hh, if_neg (by omega), h.fresh p (by omega)]
  · rw [hob] at hq
    split_ifs at hq with e
    · cases hq; cases hp
      exact ⟨_, by rw [hh, if_pos rfl], le_rfl, rfl⟩
    · obtain ⟨b, hb, h2⟩ := h.live q Q p hq hp
      exact ⟨b, by rw [hh, if_neg (hlt q Q p hq hp), hb], h2⟩
  · rw [hob] at hq ha
    split_ifs at hq ha with e1 e2 e2
    · rw [e1, e2]
    · cases hq; cases hp; exact absurd rfl (hlt a A _ ha hp')
    · cases ha; cases hp'; exact absurd rfl (hlt q Q _ hq hp)
    · exact h.excl q Q a A p hq ha hp hp' hw
  · rw [hh] at hb
    split_ifs at hb with e
    · subst e
      exact ⟨o, _, by rw [hob, if_pos rfl], rfl, rfl⟩
    · obtain ⟨q, Q, hq, h1⟩ := h.noLeak p b hb hu
      refine ⟨q, Q, ?_, h1⟩
      rw [hob, if_neg, hq]
      rintro rfl; rw [ho] at hq; cases hq

omit [Inhabited R] in
/-- Only the content of blocks differs. -/
theorem Inv.of_data {s' : St R} (h : Inv s) (hub : s'.ub = false) (hobjs : s'.objs = s.objs) (hnext : s'.next = s.next)
    (hheap : ∀ p, (s'.heap p).map (fun b => (b.size, b.user)) = (s.heap p).map (fun b => (b.size, b.user))) : Inv s' := by
  have fwd : ∀ p b, s.heap p = some b → ∃ b', s'.heap p = some b' ∧ b'.size = b.size ∧ b'.user = b.user := by
    intro p b hb
    have := hheap p
    rw [hb] at this
    cases hs : s'.heap p with
    | none => rw [hs] at this; simp at this
    | some b' => rw [hs] at this; simp at this; exact ⟨b', rfl, this⟩
  have bwd : ∀ p b, s'.heap p = some b → ∃ b', s.heap p = some b' ∧ b'.size = b.size ∧ b'.user = b.user := by
    intro p b hb
    have := hheap p
    rw [hb] at this
    cases hs : s.heap p with
    | none => rw [hs] at this; simp at this
    | some b' => rw [hs] at this; simp at this; exact ⟨b', rfl, this.1.symm, this.2.symm⟩
  refine ⟨hub, fun p hp => ?_, fun q Q p hq hp => ?_, fun q Q a A p hq ha hp hp' hw => ?_, fun p b hb hu => ?_⟩
  · cases hs : s'.heap p with
    | none => rfl
    | some b =>
      obtain ⟨b', hb', -⟩ := bwd p b hs
      rw [h.fresh p (by omega)] at hb'; cases hb'
  · rw [hobjs] at hq
    obtain ⟨b, hb, h1, h2⟩ := h.live q Q p hq hp
    obtain ⟨b', hb', e1, e2⟩ := fwd p b hb
    exact ⟨b', hb', by omega, by rw [e2, h2]⟩
  · rw [hobjs] at hq ha; exact h.excl q Q a A p hq ha hp hp' hw
  · obtain ⟨b', hb', -, e2⟩ := bwd p b hb
    obtain ⟨q, Q, hq, h1⟩ := h.noLeak p b' hb' (by rw [e2, hu])
    exact ⟨q, Q, by rw [hobjs, hq], h1⟩

omit [Inhabited R] in
/-- Writing at most the number of entries of a matrix to its storage. -/
theorem fillAt_eq (h : Inv s) {o : ℕ} {O : Obj} (ho : s.objs o = some O) (hn : ¬ O.hollow) (d : ℕ → R) :
    (s.fillAt O.ptr (O.nr * O.nc) d).ub = false ∧ (s.fillAt O.ptr (O.nr * O.nc) d).objs = s.objs ∧
    (s.fillAt O.ptr (O.nr * O.nc) d).next = s.next ∧
    ∀ p, (s.fillAt O.ptr (O.nr * O.nc) d).heap p = if O.ptr = some p then (s.heap p).map (fun b =>
      ⟨b.size, b.user, fun i => if i < O.nr * O.nc then d i else b.data i⟩) else s.heap p := by
  unfold St.fillAt
  by_cases h0 : O.nr * O.nc = 0
  · rw [if_pos h0]
    refine ⟨h.noUb, rfl, rfl, fun p => ?_⟩
    split_ifs with e
    · rw [h0]
      cases s.heap p <;> simp
    · rfl
  · rw [if_neg h0]
    cases hp : O.ptr with
    | none => exact absurd ⟨hp, Nat.pos_of_ne_zero h0⟩ hn
    | some q =>
      obtain ⟨b, hb, hsz, -⟩ := h.live o O q ho hp
      simp only [hb]
      rw [if_pos hsz]
      refine ⟨h.noUb, rfl, rfl, fun p => ?_⟩
      show Function.update s.heap q _ p = _
      by_cases e : p = q
      · subst e; simp [hb]
      · rw [Function.update_of_ne e, if_neg (by simpa using fun h => e h.symm)]

omit [Inhabited R] in
theorem Inv.fillAt (h : Inv s) {o : ℕ} {O : Obj} (ho : s.objs o = some O) (hn : ¬ O.hollow) (d : ℕ → R) :
    Inv (s.fillAt O.ptr (O.nr * O.nc) d) := by
  obtain ⟨h1, h2, h3, h4⟩ := fillAt_eq h ho hn d
  refine h.of_data h1 h2 h3 (fun p => ?_)
  rw [h4]
  split_ifs
  · cases s.heap p <;> rfl
  · rfl

omit [Inhabited R] in
/-- Changing the sizes of an object without exceeding its number of entries. -/
theorem Inv.setSizes (h : Inv s) {o : ℕ} {O : Obj} (ho : s.objs o = some O) {nr nc : ℕ} (hs : nr * nc ≤ O.nr * O.nc) :
    Inv (s.setObj o (some { O with nr := nr, nc := nc })) := by
  have hob : ∀ q, (s.setObj o (some { O with nr := nr, nc := nc })).objs q = if q = o then some { O with nr := nr, nc := nc } else s.objs q := by
    intro q
    show Function.update s.objs o _ q = _
    by_cases e : q = o
    · subst e; simp
    · rw [Function.update_of_ne e, if_neg e]
  have back : ∀ q Q, (s.setObj o (some { O with nr := nr, nc := nc })).objs q = some Q →
      ∃ Q', s.objs q = some Q' ∧ Q'.ptr = Q.ptr ∧ Q'.owning = Q.owning ∧ Q.nr * Q.nc ≤ Q'.nr * Q'.nc := by
    intro q Q hq
    rw [hob] at hq
    split_ifs at hq with e
    · subst e; cases hq; exact ⟨O, ho, rfl, rfl, hs⟩
    · exact ⟨Q, hq, rfl, rfl, le_rfl⟩
  refine ⟨h.noUb, h.fresh, fun q Q p hq hp => ?_, fun q Q a A p hq ha hp hp' hw => ?_, fun p b hb hu => ?_⟩
  · obtain ⟨Q', hq', e1, e2, e3⟩ := back q Q hq
    obtain ⟨b, hb, h1, h2⟩ := h.live q Q' p hq' (by rw [e1, hp])
    exact ⟨b, hb, by omega, by rw [h2, e2]⟩
  · obtain ⟨Q', hq', e1, e2, -⟩ := back q Q hq
    obtain ⟨A', ha', g1, -, -⟩ := back a A ha
    exact h.excl q Q' a A' p hq' ha' (by rw [e1, hp]) (by rw [g1, hp']) (by rw [e2, hw])
  · obtain ⟨q, Q, hq, h1, h2⟩ := h.noLeak p b hb hu
    by_cases e : q = o
    · subst e
      rw [ho] at hq; cases hq
      exact ⟨q, { O with nr := nr, nc := nc }, by rw [hob, if_pos rfl], h1, h2⟩
    · exact ⟨q, Q, by rw [hob, if_neg e, hq], h1, h2⟩

omit [Inhabited R] in
/-- Moving the storage of `a` to the new object `o`. -/
theorem Inv.transfer (h : Inv s) {o a : ℕ} {A : Obj} (hne : o ≠ a) (ho : s.objs o = none) (ha : s.objs a = some A) :
    Inv ((s.setObj o (some A)).setObj a (some { A with ptr := none })) := by
  have hob : ∀ q, ((s.setObj o (some A)).setObj a (some { A with ptr := none })).objs q =
      if q = a then some { A with ptr := none } else if q = o then some A else s.objs q := by
    intro q
    show Function.update (Function.update s.objs o _) a _ q = _
    by_cases e : q = a
    · subst e; simp
    · rw [Function.update_of_ne e, if_neg e]
      by_cases e' : q = o
      · subst e'; simp
      · rw [Function.update_of_ne e', if_neg e']
  -- objects with storage: rename `o` to `a`
  have back : ∀ q Q p, ((s.setObj o (some A)).setObj a (some { A with ptr := none })).objs q = some Q → Q.ptr = some p →
      q ≠ a ∧ s.objs (if q = o then a else q) = some Q := by
    intro q Q p hq hp
    rw [hob] at hq
    split_ifs at hq with e1 e2
    · cases hq; cases hp
    · cases hq; exact ⟨e1, by rw [if_pos e2, ha]⟩
    · exact ⟨e1, by rw [if_neg e2, hq]⟩
  refine ⟨h.noUb, h.fresh, fun q Q p hq hp => ?_, fun q Q r Q' p hq hr hp hp' hw => ?_, fun p b hb hu => ?_⟩
  · exact h.live _ Q p (back q Q p hq hp).2 hp
  · obtain ⟨n1, h1⟩ := back q Q p hq hp
    obtain ⟨n2, h2⟩ := back r Q' p hr hp'
    have := h.excl _ Q _ Q' p h1 h2 hp hp' hw
    split_ifs at this with e1 e2 e2
    · rw [e1, e2]
    · exact absurd this.symm n2
    · exact absurd this n1
    · exact this
  · obtain ⟨q, Q, hq, h1, h2⟩ := h.noLeak p b hb hu
    by_cases e : q = a
    · subst e
      rw [ha] at hq; cases hq
      exact ⟨o, A, by rw [hob, if_neg hne, if_pos rfl], h1, h2⟩
    · refine ⟨q, Q, ?_, h1, h2⟩
      rw [hob, if_neg e, if_neg, hq]
      rintro rfl; rw [ho] at hq; cases hq

omit [Inhabited R] in
theorem Inv.readable (h : Inv s) {a : ℕ} {A : Obj} (ha : s.objs a = some A) (hn : ¬ A.hollow) : s.readable A.ptr (A.nr * A.nc) = true := by
  unfold St.readable
  by_cases h0 : A.nr * A.nc = 0
  · simp [h0]
  · cases hp : A.ptr with
    | none => exact absurd ⟨hp, Nat.pos_of_ne_zero h0⟩ hn
    | some q =>
      obtain ⟨b, hb, hsz, -⟩ := h.live a A q ha hp
      simp [hb, hsz]

omit [Inhabited R] in
theorem Inv.addEmpty (h : Inv s) {o : ℕ} (ho : s.objs o = none) (O : Obj) (hp : O.ptr = none) : Inv (s.setObj o (some O)) := by
  have hob : ∀ q, (s.setObj o (some O)).objs q = if q = o then some O else s.objs q := by
    intro q
    show Function.update s.objs o _ q = _
    by_cases e : q = o
    · subst e; simp
    · rw [Function.update_of_ne e, if_neg e]
  have back : ∀ q Q p, (s.setObj o (some O)).objs q = some Q → Q.ptr = some p → s.objs q = some Q := by
    intro q Q p hq hp'
    rw [hob] at hq
    split_ifs at hq with e
    · cases hq; rw [hp] at hp'; cases hp'
    · exact hq
  refine ⟨h.noUb, h.fresh, fun q Q p hq hp => ?_, fun q Q r Q' p hq hr hp hp' hw => ?_, fun p b hb hu => ?_⟩
  · exact h.live q Q p (back q Q p hq hp) hp
  · exact h.excl q Q r Q' p (back q Q p hq hp) (back r Q' p hr hp') hp hp' hw
  · obtain ⟨q, Q, hq, h1⟩ := h.noLeak p b hb hu
    refine ⟨q, Q, ?_, h1⟩
    rw [hob, if_neg, hq]
    rintro rfl; rw [ho] at hq; cases hq

omit [Inhabited R] in
/-- Fresh block of the user. -/
theorem Inv.user (h : Inv s) (n : ℕ) (d : ℕ → R) : Inv (s.alloc n true d).1 := by
  have hh : ∀ p, (s.alloc n true d).1.heap p = if p = s.next then some ⟨n, true, d⟩ else s.heap p := by
    intro p
    show Function.update s.heap s.next _ p = _
    by_cases e : p = s.next
    · subst e; simp
    · rw [Function.update_of_ne e, if_neg e]
  refine ⟨h.noUb, fun p hp => ?_, fun q Q p hq hp => ?_, h.excl, fun p b hb hu => ?_⟩
  · have hp : s.next + 1 ≤ p := hp
    rw [hh, if_neg (by omega), h.fresh p (by omega)]
  · obtain ⟨b, hb, h2⟩ := h.live q Q p hq hp
    refine ⟨b, ?_, h2⟩
    rw [hh, if_neg, hb]
    rintro rfl
    rw [h.fresh _ le_rfl] at hb; cases hb
  · rw [hh] at hb
    split_ifs at hb with e
    · cases hb; cases hu
    · exact h.noLeak p b hb hu

omit [Inhabited R] in
/-- Giving an object storage borrowed from the user. -/
theorem Inv.borrow (h : Inv s) {o : ℕ} (ho : s.objs o = none) {nr nc p : ℕ} {b : Blk R} (hb : s.heap p = some b) (hu : b.user = true)
    (hsz : nr * nc ≤ b.size) : Inv (s.setObj o (some ⟨nr, nc, some p, false⟩)) := by
  have hob : ∀ q, (s.setObj o (some ⟨nr, nc, some p, false⟩)).objs q = if q = o then some ⟨nr, nc, some p, false⟩ else s.objs q := by
    intro q
    show Function.update s.objs o _ q = _
    by_cases e : q = o
    · subst e; simp
    · rw [Function.update_of_ne e, if_neg e]
  have noown : ∀ q Q, s.objs q = some Q → Q.ptr = some p → Q.owning = false := by
    intro q Q hq hp
    obtain ⟨b', hb', -, h3⟩ := h.live q Q p hq hp
    rw [hb] at hb'; cases hb'
    rw [hu] at h3
    cases hw : Q.owning
    · rfl
    · rw [hw] at h3; cases h3
  refine ⟨h.noUb, h.fresh, fun q Q r hq hp => ?_, fun q Q a A r hq ha hp hp' hw => ?_, fun r b' hb' hu' => ?_⟩
  · rw [hob] at hq
    split_ifs at hq with e
    · cases hq; cases hp
      exact ⟨b, hb, hsz, by rw [hu]; rfl⟩
    · exact h.live q Q r hq hp
  · rw [hob] at hq ha
    split_ifs at hq ha with e1 e2 e2
    · rw [e1, e2]
    · cases hq; cases hw
    · cases ha; cases hp'
      rw [noown q Q hq hp] at hw; cases hw
    · exact h.excl q Q a A r hq ha hp hp' hw
  · obtain ⟨q, Q, hq, h1⟩ := h.noLeak r b' hb' hu'
    refine ⟨q, Q, ?_, h1⟩
    rw [hob, if_neg, hq]
    rintro rfl; rw [ho] at hq; cases hq

omit [Inhabited R] in
/-- Giving an object a block of the user which no matrix uses. -/
theorem Inv.adopt (h : Inv s) {o : ℕ} (ho : s.objs o = none) {nr nc p : ℕ} {b : Blk R} (hb : s.heap p = some b) 
    (hsz : nr * nc ≤ b.size) (hfree : ∀ q Q, s.objs q = some Q → Q.ptr ≠ some p) :
    Inv (({ s with heap := Function.update s.heap p (some ⟨b.size, false, b.data⟩) } : St R).setObj o (some ⟨nr, nc, some p, true⟩)) := by
  set s' := ({ s with heap := Function.update s.heap p (some ⟨b.size, false, b.data⟩) } : St R).setObj o (some ⟨nr, nc, some p, true⟩) with hs'
  have hob : ∀ q, s'.objs q = if q = o then some ⟨nr, nc, some p, true⟩ else s.objs q := by
    intro q
    show Function.update s.objs o _ q = _
    by_cases e : q = o
    · subst e; simp
    · rw [Function.update_of_ne e, if_neg e]
  have hh : ∀ r, s'.heap r = if r = p then some ⟨b.size, false, b.data⟩ else s.heap r := by
    intro r
    show Function.update s.heap p _ r = _
    by_cases e : r = p
    · subst e; simp
    · rw [Function.update_of_ne e, if_neg e]
  refine ⟨h.noUb, fun r hr => ?_, fun q Q r hq hp => ?_, fun q Q a A r hq ha hp hp' hw => ?_, fun r b' hb' hu' => ?_⟩
  · have hr : s.next ≤ r := hr
    rw [hh, if_neg, h.fresh r hr]
    rintro rfl
    rw [h.fresh r hr] at hb; cases hb
  · rw [hob] at hq
    split_ifs at hq with e
    · cases hq; cases hp
      exact ⟨⟨b.size, false, b.data⟩, by rw [hh, if_pos rfl], hsz, rfl⟩
    · obtain ⟨b', hb', h2⟩ := h.live q Q r hq hp
      refine ⟨b', ?_, h2⟩
      rw [hh, if_neg, hb']
      rintro rfl
      exact hfree q Q hq hp
  · rw [hob] at hq ha
    split_ifs at hq ha with e1 e2 e2
    · rw [e1, e2]
    · cases hq; cases hp; exact absurd hp' (hfree a A ha)
    · cases ha; cases hp'; exact absurd hp (hfree q Q hq)
    · exact h.excl q Q a A r hq ha hp hp' hw
  · rw [hh] at hb'
    split_ifs at hb' with e
    · subst e
      exact ⟨o, _, by rw [hob, if_pos rfl], rfl, rfl⟩
    · obtain ⟨q, Q, hq, h1⟩ := h.noLeak r b' hb' hu'
      refine ⟨q, Q, ?_, h1⟩
      rw [hob, if_neg, hq]
      rintro rfl; rw [ho] at hq; cases hq

omit [Inhabited R] in
/-- Releasing the storage of an object to the user. -/
theorem Inv.release (h : Inv s) {o : ℕ} {O : Obj} (ho : s.objs o = some O) {p : ℕ} {b : Blk R} (hp : O.ptr = some p) (hb : s.heap p = some b) :
    Inv (({ s with heap := Function.update s.heap p (some ⟨b.size, true, b.data⟩) } : St R).setObj o (some { O with ptr := none })) := by
  set s' := ({ s with heap := Function.update s.heap p (some ⟨b.size, true, b.data⟩) } : St R).setObj o (some { O with ptr := none }) with hs'
  have hob : ∀ q, s'.objs q = if q = o then some { O with ptr := none } else s.objs q := by
    intro q
    show Function.update s.objs o _ q = _
    by_cases e : q = o
    · subst e; simp
    · rw [Function.update_of_ne e, if_neg e]
  have hh : ∀ r, s'.heap r = if r = p then some ⟨b.size, true, b.data⟩ else s.heap r := by
    intro r
    show Function.update s.heap p _ r = _
    by_cases e : r = p
    · subst e; simp
    · rw [Function.update_of_ne e, if_neg e]
  have back : ∀ q Q r, s'.objs q = some Q → Q.ptr = some r → q ≠ o ∧ s.objs q = some Q := by
    intro q Q r hq hp'
    rw [hob] at hq
    split_ifs at hq with e
    · cases hq; cases hp'
    · exact ⟨e, hq⟩
  refine ⟨h.noUb, fun r hr => ?_, fun q Q r hq hp' => ?_, fun q Q a A r hq ha h1 h2 hw => ?_, fun r b' hb' hu' => ?_⟩
  · have hr : s.next ≤ r := hr
    rw [hh, if_neg, h.fresh r hr]
    rintro rfl
    rw [h.fresh r hr] at hb; cases hb
  · obtain ⟨hne, hq'⟩ := back q Q r hq hp'
    obtain ⟨b', hb', h2, h3⟩ := h.live q Q r hq' hp'
    by_cases e : r = p
    · subst e
      rw [hb] at hb'; cases hb'
      refine ⟨⟨b.size, true, b.data⟩, by rw [hh, if_pos rfl], h2, ?_⟩
      cases hw : Q.owning
      · rfl
      · exact absurd (h.excl q Q o O r hq' ho hp' hp hw) hne
    · exact ⟨b', by rw [hh, if_neg e, hb'], h2, h3⟩
  · exact h.excl q Q a A r (back q Q r hq h1).2 (back a A r ha h2).2 h1 h2 hw
  · rw [hh] at hb'
    split_ifs at hb' with e
    · cases hb'; cases hu'
    · obtain ⟨q, Q, hq, h1, h2⟩ := h.noLeak r b' hb' hu'
      refine ⟨q, Q, ?_, h1, h2⟩
      rw [hob, if_neg, hq]
      rintro rfl
      rw [ho] at hq; cases hq
      rw [hp] at h1; cases h1; exact e rfl

omit [Inhabited R] in
theorem setObj_setObj (s : St R) (o : ℕ) (u v : Option Obj) : (s.setObj o u).setObj o v = s.setObj o v := by
  simp [St.setObj]

omit [Inhabited R] in
theorem setObj_self (s : St R) {o : ℕ} {v : Option Obj} (h : s.objs o = v) : s.setObj o v = s := by
  unfold St.setObj
  have : Function.update s.objs o v = s.objs := by subst h; exact Function.update_eq_self _ _
  rw [this]

omit [Inhabited R] in
/-- Freeing a hollow object changes nothing. -/
theorem detach_objs (s : St R) (o : ℕ) (O : Obj) : (Htool.MatMem.detach s o O).objs o = none := by
  unfold Htool.MatMem.detach St.setObj
  simp

/-- Every operation preserves the invariant. -/
theorem Inv.step (h : Inv s) (op : Op R) (hp : Pre s op) : Inv (step s op) := by
  have attach_detach : ∀ {o O}, s.objs o = some O → ∀ nr nc (d : ℕ → R),
      Inv ((((if O.owning then s.delete O.ptr else s).alloc (nr * nc) false d).1).setObj o
        (some ⟨nr, nc, some (if O.owning then s.delete O.ptr else s).next, true⟩)) := by
    intro o O ho nr nc d
    have := (h.detach ho).attach (detach_objs s o O) nr nc d
    unfold Htool.MatMem.attach Htool.MatMem.detach at this
    simpa [St.alloc, St.setObj] using this
  cases op with
  | user n d => exact h.user n d
  | default o => exact h.addEmpty hp _ rfl
  | ctor o nr nc v => exact h.attach hp nr nc _
  | copy o a =>
    obtain ⟨ho, A, ha, hn⟩ := hp
    have := h.attach ho A.nr A.nc (s.content default A.ptr)
    simp only [Htool.MatMem.step, ha, h.readable ha hn, if_true]
    exact this
  | copyAssign o a =>
    obtain ⟨O, A, ho, ha, hn, hO⟩ := hp
    simp only [Htool.MatMem.step, ho, ha, h.readable ha hn, if_true]
    by_cases e : o = a
    · rw [if_pos e]; exact h
    rw [if_neg e]
    by_cases e2 : O.nr * O.nc = A.nc * A.nr
    · rw [if_pos e2]
      have hOn : ¬ O.hollow := fun hh => hO hh (by rw [e2, Nat.mul_comm])
      have hs : (s.fillAt O.ptr (O.nr * O.nc) (s.content default A.ptr)).objs o = some O := by
        rw [(fillAt_eq h ho hOn _).2.1, ho]
      exact (h.fillAt ho hOn _).setSizes hs (by rw [e2, Nat.mul_comm])
    · rw [if_neg e2]
      exact attach_detach ho _ _ _
  | move o a =>
    obtain ⟨ho, A, ha⟩ := hp
    have e : o ≠ a := by rintro rfl; rw [ho] at ha; cases ha
    simp only [Htool.MatMem.step, ha, if_neg e]
    exact h.transfer e ho ha
  | moveAssign o a =>
    obtain ⟨O, A, ho, ha⟩ := hp
    simp only [Htool.MatMem.step, ho, ha]
    by_cases e : o = a
    · rw [if_pos e]; exact h
    rw [if_neg e]
    have ha' : (Htool.MatMem.detach s o O).objs a = some A := by
      rw [detach_eq h ho]
      show Function.update s.objs o none a = _
      rw [Function.update_of_ne (Ne.symm e), ha]
    have := (h.detach ho).transfer e (detach_objs s o O) ha'
    unfold Htool.MatMem.detach at this
    rwa [setObj_setObj] at this
  | dtor o =>
    obtain ⟨O, ho⟩ := hp
    simp only [Htool.MatMem.step, ho]
    exact h.detach ho
  | fill o v =>
    obtain ⟨O, ho, hn⟩ := hp
    simp only [Htool.MatMem.step, ho]
    exact h.fillAt ho hn _
  | write o i j v =>
    obtain ⟨O, ho, hn, hi, hj⟩ := hp
    have hlt : i + j * O.nr < O.nr * O.nc := by
      have : (j + 1) * O.nr ≤ O.nc * O.nr := Nat.mul_le_mul_right _ hj
      rw [Nat.mul_comm O.nr O.nc]
      rw [Nat.add_mul] at this
      omega
    simp only [Htool.MatMem.step, ho]
    cases hpt : O.ptr with
    | none => exact absurd ⟨hpt, by omega⟩ hn
    | some p =>
      obtain ⟨b, hb, hsz, -⟩ := h.live o O p ho hpt
      simp only [hb]
      rw [if_pos (by omega)]
      refine h.of_data h.noUb rfl rfl (fun q => ?_)
      show (Function.update s.heap p _ q).map _ = _
      by_cases e : q = p
      · subst e; simp [hb]
      · rw [Function.update_of_ne e]
  | assign o nr nc p owning =>
    obtain ⟨O, ho, h1, ⟨b, hb, hu, hsz⟩, hfree⟩ := hp
    simp only [Htool.MatMem.step, ho]
    -- the storage of the object is freed if it is owned
    have hdel : (if 0 < O.nr * O.nc ∧ O.owning = true then s.delete O.ptr else s) = if O.owning = true then s.delete O.ptr else s := by
      by_cases hw : O.owning = true
      · by_cases h0 : 0 < O.nr * O.nc
        · rw [if_pos ⟨h0, hw⟩, if_pos hw]
        · rw [if_neg (fun hh => h0 hh.1), if_pos hw]
          cases hpt : O.ptr with
          | none => rfl
          | some q => exact absurd (h1 (by simp [hpt]) hw) h0
      · rw [if_neg (fun hh => hw hh.2), if_neg hw]
    rw [hdel]
    have hd := h.detach ho
    have hdo := detach_objs s o O
    have hne : ¬ (O.owning = true ∧ O.ptr = some p) := by
      rintro ⟨hw, hpt⟩
      obtain ⟨b', hb', -, h3⟩ := h.live o O p ho hpt
      rw [hb] at hb'; cases hb'
      rw [hu, hw] at h3; cases h3
    have hdb : (Htool.MatMem.detach s o O).heap p = some b := by
      rw [detach_eq h ho]
      show (if O.owning = true ∧ O.ptr = some p then none else s.heap p) = some b
      rw [if_neg hne, hb]
    have hdb' : (if O.owning = true then s.delete O.ptr else s).heap p = some b := hdb
    cases owning with
    | false =>
      have := hd.borrow hdo hdb hu hsz
      unfold Htool.MatMem.detach at this
      rwa [setObj_setObj] at this
    | true =>
      have hfree' : ∀ q Q, (Htool.MatMem.detach s o O).objs q = some Q → Q.ptr ≠ some p := by
        intro q Q hq
        rw [detach_eq h ho] at hq
        have hq : Function.update s.objs o none q = some Q := hq
        by_cases e : q = o
        · subst e; simp at hq
        · rw [Function.update_of_ne e] at hq
          exact hfree rfl q Q hq
      have := hd.adopt hdo hdb hsz hfree'
      simp only [if_true, hdb']
      simpa [Htool.MatMem.detach, St.setObj] using this
  | release o =>
    obtain ⟨O, ho⟩ := hp
    simp only [Htool.MatMem.step, ho]
    cases hpt : O.ptr with
    | none =>
      have : ({ O with ptr := none } : Obj) = O := by cases O; simp at hpt; simp [hpt]
      simp only
      rw [this, setObj_self s ho]
      exact h
    | some p =>
      obtain ⟨b, hb, -⟩ := h.live o O p ho hpt
      have := h.release ho hpt hb
      simpa only [hb, Option.map_some] using this
  | resize o nr nc v =>
    obtain ⟨O, ho, hp⟩ := hp
    simp only [Htool.MatMem.step, ho]
    have key : ∀ s' : St R, Inv (Htool.MatMem.attach s' o nr nc (fun _ => default)) →
        Inv (((s'.alloc (nr * nc) false (fun _ => default)).1.fillAt (some s'.next) (nr * nc) (fun _ => v)).setObj o (some ⟨nr, nc, some s'.next, true⟩)) := by
      intro s' hs'
      have hob : (Htool.MatMem.attach s' o nr nc (fun _ => default)).objs o = some ⟨nr, nc, some s'.next, true⟩ := by
        simp [Htool.MatMem.attach, St.setObj]
      have hnh : ¬ (⟨nr, nc, some s'.next, true⟩ : Obj).hollow := fun hh => by cases hh.1
      have := hs'.fillAt hob hnh (fun _ => v)
      convert this using 1
      simp only [Htool.MatMem.attach, St.fillAt, St.alloc, St.setObj]
      split_ifs <;> simp
    by_cases e : O.nr * O.nc = nr * nc
    · rw [if_neg (fun hh => hh.2.2 e), if_neg (fun hh => hh e)]
      obtain ⟨hn, hb⟩ := hp e
      have hf := h.fillAt ho hn (fun _ => v)
      rw [e] at hf
      have hs : (s.fillAt O.ptr (nr * nc) (fun _ => v)).objs o = some O := by
        rw [← e, (fillAt_eq h ho hn _).2.1, ho]
      cases hw : O.owning with
      | true =>
        have := hf.setSizes hs (nr := nr) (nc := nc) (by rw [e])
        rwa [hw] at this
      | false =>
        have hd := (hf.detach hs).addEmpty (detach_objs _ o O) ⟨nr, nc, none, true⟩ rfl
        unfold Htool.MatMem.detach at hd
        rw [hw] at hd
        rw [setObj_setObj] at hd
        rw [hb hw] at hd ⊢
        exact hd
    · by_cases e1 : O.ptr.isSome = true ∧ O.owning = true ∧ O.nr * O.nc ≠ nr * nc
      · rw [if_pos e1]
        have := attach_detach ho nr nc (fun _ => default)
        rw [if_pos e1.2.1] at this
        exact key _ this
      · rw [if_neg e1, if_pos e]
        refine key _ ?_
        have := attach_detach ho nr nc (fun _ => default)
        have e2 : (if O.owning = true then s.delete O.ptr else s) = s := by
          split_ifs with hw
          · cases hpt : O.ptr with
            | none => rfl
            | some q => exact absurd ⟨by rw [hpt]; rfl, hw, e⟩ e1
          · rfl
        rwa [e2] at this

theorem Inv.run (h : Inv s) (l : List (Op R)) (hp : PreAll s l) : Inv (run s l) := by
  induction l generalizing s with
  | nil => exact h
  | cons op l ih => exact ih (h.step op hp.1) hp.2

omit [Inhabited R] in
theorem inv_init : Inv (init : St R) :=
  ⟨rfl, fun _ _ => rfl, fun _ _ _ h => by simp [init] at h, fun _ _ _ _ _ h => by simp [init] at h, fun _ _ h => by simp [init] at h⟩

end Htool.MatMem
