import Verif.MatrixMemory

/-! # C54: storage of dense matrices over histories -/

namespace Htool.MatMem
variable {R : Type*} [Inhabited R]

/-! ## Specification -/

/-- Sizes of a matrix. -/
def St.dims (s : St R) (o : ℕ) : Option (ℕ × ℕ) := (s.objs o).map fun O => (O.nr, O.nc)

/-- Entry `(i, j)` of a matrix, if it has storage. -/
def St.entry (s : St R) (o i j : ℕ) : Option R :=
  (s.objs o).bind fun O => O.ptr.bind fun p => (s.heap p).bind fun b => if i < O.nr ∧ j < O.nc then some (b.data (i + j * O.nr)) else none

/-- The matrix manages its own storage. -/
def St.Owns (s : St R) (o : ℕ) : Prop := ∃ O p, s.objs o = some O ∧ O.ptr = some p ∧ O.owning = true

/-- The matrix is an argument which the operation may change (the source of a move is, the source of a copy is not). -/
def Op.Changes : Op R → ℕ → Prop
  | .user _ _, _ => False
  | .default o, q => q = o
  | .ctor o _ _ _, q => q = o
  | .copy o _, q => q = o
  | .copyAssign o _, q => q = o
  | .move o a, q => q = o ∨ q = a
  | .moveAssign o a, q => q = o ∨ q = a
  | .dtor o, q => q = o
  | .fill o _, q => q = o
  | .write o _ _ _, q => q = o
  | .assign o _ _ _ _, q => q = o
  | .release o, q => q = o
  | .resize o _ _ _, q => q = o

/-- A history with copies, moves, borrowed and adopted buffers, and destructions. -/
def exHist : List (Op ℤ) :=
  [.ctor 0 2 3 1, .user 6 (fun i => i), .default 1, .copyAssign 1 0, .write 1 1 2 7, .move 2 0, .copy 3 1, .assign 0 3 2 1 false,
   .moveAssign 3 0, .dtor 3, .resize 2 1 5 4, .copyAssign 2 1, .release 1, .dtor 1, .dtor 2, .dtor 0]

theorem exHist_pre : PreAll init exHist := by
  simp only [exHist, PreAll, Pre, step, init, St.setObj, St.alloc, St.fillAt, St.delete, St.readable, St.content, Obj.hollow]
  simp [Function.update_apply]

/-! ## Theorems -/

/-- **C54** Whatever the history, no block is deleted twice, no block of the user is deleted, and no entry outside a live block is accessed. -/
theorem C54_no_undefined_behaviour_partial (l : List (Op R)) (h : PreAll init l) : (run init l).ub = false :=
  (inv_init.run l h).noUb

example : (run init exHist).ub = false := C54_no_undefined_behaviour_partial exHist exHist_pre

/-- **C54** No storage is lost: every block allocated by a matrix or adopted by one, and not released, belongs to exactly one matrix. -/
theorem C54_no_leak_partial (l : List (Op R)) (h : PreAll init l) (p : ℕ) (b : Blk R) (hb : (run init l).heap p = some b) (hu : b.user = false) :
    ∃! o, ∃ O, (run init l).objs o = some O ∧ O.ptr = some p ∧ O.owning = true := by
  have hi := inv_init.run l h
  obtain ⟨o, O, ho, hp, hw⟩ := hi.noLeak p b hb hu
  refine ⟨o, ⟨O, ho, hp, hw⟩, ?_⟩
  rintro q ⟨Q, hq, hqp, hqw⟩
  exact hi.excl q Q o O p hq ho hqp hp hqw

/-- **C54** When all matrices have been destroyed, the only live blocks are those of the user. -/
theorem C54_all_freed_partial (l : List (Op R)) (h : PreAll init l) (hall : ∀ o, (run init l).objs o = none) (p : ℕ) (b : Blk R)
    (hb : (run init l).heap p = some b) : b.user = true := by
  cases hu : b.user with
  | true => rfl
  | false =>
    obtain ⟨o, ⟨O, ho, -⟩, -⟩ := C54_no_leak_partial l h p b hb hu
    rw [hall o] at ho; cases ho

theorem exHist_done (o : ℕ) : (run init exHist).objs o = none := by
  simp only [exHist, run, List.foldl, step, init, St.setObj, St.alloc, St.fillAt, St.delete, St.readable, St.content]
  simp only [Function.update_apply]
  by_cases h0 : o = 0 <;> by_cases h1 : o = 1 <;> by_cases h2 : o = 2 <;> by_cases h3 : o = 3 <;> simp_all

example (p : ℕ) (b : Blk ℤ) (hb : (run init exHist).heap p = some b) : b.user = true :=
  C54_all_freed_partial exHist exHist_pre exHist_done p b hb

section frame
variable (s : St R)

omit [Inhabited R] in
theorem delete_objs (p : Option ℕ) : (s.delete p).objs = s.objs := by
  unfold St.delete; repeat' split
  all_goals rfl

omit [Inhabited R] in
theorem delete_next (p : Option ℕ) : (s.delete p).next = s.next := by
  unfold St.delete; repeat' split
  all_goals rfl

omit [Inhabited R] in
theorem fillAt_objs (p : Option ℕ) (n : ℕ) (d : ℕ → R) : (s.fillAt p n d).objs = s.objs := by
  unfold St.fillAt; repeat' split
  all_goals rfl

omit [Inhabited R] in
theorem delete_heap {q : Option ℕ} {p : ℕ} (h : q ≠ some p) : (s.delete q).heap p = s.heap p := by
  unfold St.delete
  split
  · rfl
  · rename_i r
    have : p ≠ r := by rintro rfl; exact h rfl
    repeat' split
    · rfl
    · exact Function.update_of_ne this _ _
    · rfl

omit [Inhabited R] in
theorem fillAt_heap {q : Option ℕ} {p n : ℕ} {d : ℕ → R} (h : q ≠ some p) : (s.fillAt q n d).heap p = s.heap p := by
  unfold St.fillAt
  split
  · rfl
  split
  · rfl
  · rename_i r
    have : p ≠ r := by rintro rfl; exact h rfl
    repeat' split
    · exact Function.update_of_ne this _ _
    · rfl
    · rfl

omit [Inhabited R] in
theorem setObj_objs {o q : ℕ} {v : Option Obj} (h : q ≠ o) : (s.setObj o v).objs q = s.objs q := Function.update_of_ne h _ _

omit [Inhabited R] in
theorem alloc_heap {n p : ℕ} {u : Bool} {d : ℕ → R} (h : p ≠ s.next) : (s.alloc n u d).1.heap p = s.heap p := Function.update_of_ne h _ _

theorem step_objs (op : Op R) (q : ℕ) (hc : ¬ op.Changes q) : (step s op).objs q = s.objs q := by
  cases op <;> simp only [Op.Changes, not_or] at hc <;> simp only [step]
  case user => rfl
  case default => exact setObj_objs _ hc
  case ctor => rw [setObj_objs _ hc]; rfl
  case copy => split; · rfl
               · rw [setObj_objs _ hc]; split <;> rfl
  case copyAssign =>
    split
    · split; · rfl
      split
      · rw [setObj_objs _ hc, fillAt_objs]; split <;> rfl
      · rw [setObj_objs _ hc]
        show ((if _ then _ else _ : St R)).objs q = _
        split
        · rw [delete_objs]; split <;> rfl
        · split <;> rfl
    · rfl
  case move =>
    split; · rfl
    split; · rfl
    rw [setObj_objs _ hc.2, setObj_objs _ hc.1]
  case moveAssign =>
    split
    · split; · rfl
      rw [setObj_objs _ hc.2, setObj_objs _ hc.1]
      split
      · rw [delete_objs]
      · rfl
    · rfl
  case dtor =>
    split; · rfl
    rw [setObj_objs _ hc]
    split
    · rw [delete_objs]
    · rfl
  case fill =>
    split; · rfl
    rw [fillAt_objs]
  case write =>
    split; · rfl
    repeat' split
    all_goals rfl
  case assign =>
    split; · rfl
    rw [setObj_objs _ hc]
    repeat' split
    all_goals first | rfl | rw [delete_objs]
  case release =>
    split; · rfl
    rw [setObj_objs _ hc]
    split <;> rfl
  case resize =>
    split; · rfl
    split
    · rw [setObj_objs _ hc, fillAt_objs]
      show (s.delete _).objs q = _
      rw [delete_objs]
    split
    · rw [setObj_objs _ hc, fillAt_objs]; rfl
    · rw [setObj_objs _ hc, fillAt_objs]

variable {s}

/-- A block in use by an owning matrix which the operation does not change keeps its content. -/
theorem step_heap (h : Inv s) (op : Op R) (hpre : Pre s op) (q : ℕ) (hc : ¬ op.Changes q) {Q : Obj} {p : ℕ} (hq : s.objs q = some Q)
    (hp : Q.ptr = some p) (hw : Q.owning = true) : (step s op).heap p = s.heap p := by
  obtain ⟨b, hb, -, hu⟩ := h.live q Q p hq hp
  have hnx : p ≠ s.next := by rintro rfl; rw [h.fresh _ le_rfl] at hb; cases hb
  have other : ∀ o O, s.objs o = some O → q ≠ o → O.ptr ≠ some p := fun o O ho hne hp' => hne (h.excl q Q o O p hq ho hp hp' hw)
  cases op <;> simp only [Op.Changes, not_or] at hc <;> simp only [step]
  case user => exact alloc_heap _ hnx
  case default => rfl
  case ctor => exact alloc_heap _ hnx
  case copy =>
    split; · rfl
    show ((if _ then _ else _ : St R)).heap p = _
    split <;> exact alloc_heap _ hnx
  case copyAssign o a =>
    split
    · rename_i O A ho ha
      split; · rfl
      have ho' := other o O ho hc
      split
      · show (St.fillAt _ _ _ _).heap p = _
        rw [fillAt_heap _ ho']; split <;> rfl
      · show (St.alloc _ _ _ _).1.heap p = _
        rw [alloc_heap]
        · split
          · rw [delete_heap _ ho']; split <;> rfl
          · split <;> rfl
        · split
          · rw [delete_next]; split <;> exact hnx
          · split <;> exact hnx
    · rfl
  case move =>
    split; · rfl
    split <;> rfl
  case moveAssign o a =>
    split
    · rename_i O A ho ha
      split; · rfl
      show ((if _ then _ else _ : St R)).heap p = _
      split
      · rw [delete_heap _ (other o O ho hc.1)]
      · rfl
    · rfl
  case dtor o =>
    split; · rfl
    rename_i O ho
    show ((if _ then _ else _ : St R)).heap p = _
    split
    · rw [delete_heap _ (other o O ho hc)]
    · rfl
  case fill o v =>
    split; · rfl
    rename_i O ho
    rw [fillAt_heap _ (other o O ho hc)]
  case write o i j v =>
    split; · rfl
    rename_i O ho
    have := other o O ho hc
    split
    · rfl
    rename_i r hr
    split
    · split
      · refine Function.update_of_ne ?_ _ _
        rintro rfl
        exact this hr
      · rfl
    · rfl
  case assign o nr nc r owning =>
    obtain ⟨O, ho, -, ⟨b', hb', hu', -⟩, -⟩ := hpre
    simp only [ho]
    have hne : p ≠ r := by
      rintro rfl
      rw [hb] at hb'; cases hb'
      rw [hu', hw] at hu; cases hu
    have hd : (if 0 < O.nr * O.nc ∧ O.owning = true then s.delete O.ptr else s).heap p = s.heap p := by
      split
      · rw [delete_heap _ (other o O ho hc)]
      · rfl
    show ((if _ then _ else _ : St R)).heap p = _
    split
    · rw [← hd]; exact Function.update_of_ne hne _ _
    · exact hd
  case release o =>
    split; · rfl
    rename_i O ho
    have := other o O ho hc
    show (St.heap (match O.ptr with | none => s | some p => _)) p = _
    split
    · rfl
    · rename_i r hr
      refine Function.update_of_ne ?_ _ _
      rintro rfl
      exact this hr
  case resize o nr nc v =>
    split; · rfl
    rename_i O ho
    have := other o O ho hc
    have hsn : some s.next ≠ some p := by simpa using hnx.symm
    split
    · show (St.fillAt _ _ _ _).heap p = _
      rw [fillAt_heap, alloc_heap, delete_heap _ this]
      · rw [delete_next]; exact hnx
      · show some (s.delete O.ptr).next ≠ some p
        rw [delete_next]; exact hsn
    split
    · show (St.fillAt _ _ _ _).heap p = _
      rw [fillAt_heap, alloc_heap _ hnx]
      exact hsn
    · show (St.fillAt _ _ _ _).heap p = _
      rw [fillAt_heap _ this]

end frame

/-- **C54** Matrices do not interfere: an operation leaves the sizes and the entries of every matrix which owns its storage and which it does not
name as a destination (or as the source of a move), however the matrices were made: in particular later changes of a matrix never show
through in its copies nor in the matrix it was copied from. -/
theorem C54_no_interference (l : List (Op R)) (op : Op R) (h : PreAll init l) (hop : Pre (run init l) op) (q : ℕ) (hc : ¬ op.Changes q)
    (hq : (run init l).Owns q) :
    (step (run init l) op).dims q = (run init l).dims q ∧ (∀ i j, (step (run init l) op).entry q i j = (run init l).entry q i j) ∧
      (step (run init l) op).Owns q := by
  have hi := inv_init.run l h
  obtain ⟨Q, p, hQ, hp, hw⟩ := hq
  have h1 := step_objs (run init l) op q hc
  have h2 := step_heap hi op hop q hc hQ hp hw
  refine ⟨by simp only [St.dims, h1], fun i j => ?_, Q, p, by rw [h1, hQ], hp, hw⟩
  simp only [St.entry, h1, hQ, Option.bind_some, hp, h2]

example : (step (run init (exHist.take 4)) (.write 1 1 2 7)).entry 0 1 2 = some 1 ∧
    (step (run init (exHist.take 4)) (.write 1 1 2 7)).entry 1 1 2 = some 7 := by
  constructor <;> decide +kernel

/-- **C54** A copy, made by construction or by assignment to another matrix, has the sizes and the entries of the original, which it
leaves unchanged. -/
theorem C54_copy_values (l : List (Op R)) (o a : ℕ) (h : PreAll init l) (assign : Bool)
    (hop : Pre (run init l) (if assign then .copyAssign o a else .copy o a)) :
    (step (run init l) (if assign then .copyAssign o a else .copy o a)).dims o = (run init l).dims a ∧
    ∀ i j, (step (run init l) (if assign then .copyAssign o a else .copy o a)).entry o i j = (run init l).entry a i j := by
  have hi := inv_init.run l h
  generalize run init l = s at *
  have main : ∀ (s' : St R) (A : Obj) (p : ℕ) (b : Blk R) (w : Bool), s.objs a = some A → ¬ A.hollow → s'.objs o = some ⟨A.nr, A.nc, some p, w⟩ →
      s'.heap p = some b → (∀ i, i < A.nr * A.nc → b.data i = s.content default A.ptr i) →
      s'.dims o = s.dims a ∧ ∀ i j, s'.entry o i j = s.entry a i j := by
    intro s' A p b w ha hn ho hb hd
    refine ⟨by simp [St.dims, ha, ho], fun i j => ?_⟩
    simp only [St.entry, ho, ha, Option.bind_some, hb]
    by_cases hij : i < A.nr ∧ j < A.nc
    · have hlt : i + j * A.nr < A.nr * A.nc := by
        have : (j + 1) * A.nr ≤ A.nc * A.nr := Nat.mul_le_mul_right _ hij.2
        rw [Nat.mul_comm A.nr A.nc]
        rw [Nat.add_mul] at this
        omega
      rw [if_pos hij, hd _ hlt]
      cases hp : A.ptr with
      | none => exact absurd ⟨hp, by omega⟩ hn
      | some r =>
        obtain ⟨b', hb', -⟩ := hi.live a A r ha hp
        simp [St.content, hb', hij]
    · rw [if_neg hij]
      cases hp : A.ptr with
      | none => rfl
      | some r =>
        obtain ⟨b', hb', -⟩ := hi.live a A r ha hp
        simp [hb', hij]
  cases assign with
  | false =>
    obtain ⟨ho, A, ha, hn⟩ := hop
    simp only [Bool.false_eq_true, if_false, step, ha, hi.readable ha hn, if_true]
    refine main _ A s.next ⟨A.nr * A.nc, false, s.content default A.ptr⟩ true ha hn ?_ ?_ (fun _ _ => rfl)
    · simp [St.setObj, St.alloc]
    · simp [St.setObj, St.alloc]
  | true =>
    obtain ⟨O, A, ho, ha, hn, hO⟩ := hop
    simp only [if_true, step, ho, ha, hi.readable ha hn]
    by_cases e : o = a
    · subst e; simp
    rw [if_neg e]
    by_cases e2 : O.nr * O.nc = A.nc * A.nr
    · rw [if_pos e2]
      have hOn : ¬ O.hollow := fun hh => hO hh (by rw [e2, Nat.mul_comm])
      obtain ⟨-, g2, -, g4⟩ := fillAt_eq hi ho hOn (s.content default A.ptr)
      cases hp : O.ptr with
      | none =>
        -- neither matrix has entries
        have h0 : O.nr * O.nc = 0 := by
          by_contra h0
          exact hOn ⟨hp, Nat.pos_of_ne_zero h0⟩
        have h1 : A.nc * A.nr = 0 := by omega
        refine ⟨by simp [St.dims, St.setObj, ha], fun i j => ?_⟩
        have : ¬ (i < A.nr ∧ j < A.nc) := by
          rintro ⟨hi, hj⟩
          have := Nat.mul_pos (Nat.lt_of_le_of_lt (Nat.zero_le _) hj) (Nat.lt_of_le_of_lt (Nat.zero_le _) hi)
          omega
        simp only [St.entry, St.setObj, Function.update_self, Option.bind_some, ha, hp, Option.bind_none, if_neg this, Option.bind_fun_none]
      | some p =>
        obtain ⟨b, hb, -⟩ := hi.live o O p ho hp
        rw [hp] at g4
        refine main _ A p ⟨b.size, b.user, fun i => if i < O.nr * O.nc then s.content default A.ptr i else b.data i⟩ O.owning ha hn ?_ ?_ ?_
        · simp [St.setObj, hp]
        · show (St.fillAt _ _ _ _).heap p = _
          rw [g4]; simp [hb]
        · intro i hlt
          exact if_pos (by rw [e2, Nat.mul_comm]; exact hlt)
    · rw [if_neg e2]
      refine main _ A (if O.owning = true then s.delete O.ptr else s).next ⟨A.nr * A.nc, false, s.content default A.ptr⟩ true ha hn ?_ ?_ (fun _ _ => rfl)
      · simp only [St.setObj, Function.update_self]
        rfl
      · simp [St.setObj, St.alloc]

example : (step (run init (exHist.take 6)) (.copy 3 1)).entry 3 1 2 = some 7 ∧ (step (run init (exHist.take 6)) (.copy 3 1)).dims 3 = some (2, 3) := by
  constructor <;> decide +kernel

/-- **C54** A moved matrix arrives with its sizes and entries. -/
theorem C54_move_values (l : List (Op R)) (o a : ℕ) (assign : Bool) (hne : o ≠ a)
    (hop : Pre (run init l) (if assign then .moveAssign o a else .move o a)) (h : PreAll init l) :
    (step (run init l) (if assign then .moveAssign o a else .move o a)).dims o = (run init l).dims a ∧
    ∀ i j, (step (run init l) (if assign then .moveAssign o a else .move o a)).entry o i j = (run init l).entry a i j := by
  have hi := inv_init.run l h
  generalize run init l = s at *
  cases assign with
  | false =>
    obtain ⟨ho, A, ha⟩ := hop
    simp only [Bool.false_eq_true, if_false, step, ha, if_neg hne]
    refine ⟨by simp [St.dims, St.setObj, ha, Function.update_of_ne hne], fun i j => ?_⟩
    simp only [St.entry, St.setObj, Function.update_of_ne hne, Function.update_self, ha]
  | true =>
    obtain ⟨O, A, ho, ha⟩ := hop
    simp only [if_true, step, ho, ha, if_neg hne]
    refine ⟨by simp [St.dims, St.setObj, ha, Function.update_of_ne hne], fun i j => ?_⟩
    simp only [St.entry, St.setObj, Function.update_of_ne hne, Function.update_self, ha, Option.bind_some]
    cases hp : A.ptr with
    | none => rfl
    | some p =>
      simp only [Option.bind_some]
      have : (if O.owning then s.delete O.ptr else s).heap p = s.heap p := by
        split
        · rename_i hw
          rw [delete_heap]
          intro hp'
          exact hne (hi.excl o O a A p ho ha hp' hp hw)
        · rfl
      rw [this]

example : (step (run init (exHist.take 8)) (.moveAssign 3 0)).entry 3 2 1 = some 5 := by decide +kernel

/-- **C54** A buffer of the user stays live, with its size, whatever is done to the matrices which borrow it. -/
theorem C54_user_buffer_kept (l : List (Op R)) (op : Op R) (h : PreAll init l) (hop : Pre (run init l) op) (p : ℕ) (b : Blk R)
    (hb : (run init l).heap p = some b) (hu : b.user = true) : ∃ b', (step (run init l) op).heap p = some b' ∧ b'.size = b.size := by
  have hi := inv_init.run l h
  generalize run init l = s at *
  have hnx : p ≠ s.next := by rintro rfl; rw [hi.fresh _ le_rfl] at hb; cases hb
  have own : ∀ {o O}, s.objs o = some O → O.owning = true → O.ptr ≠ some p := by
    intro o O ho hw hp
    obtain ⟨b', hb', -, h3⟩ := hi.live o O p ho hp
    rw [hb] at hb'; cases hb'
    rw [hu, hw] at h3; cases h3
  have del : ∀ {o O}, s.objs o = some O → (if O.owning = true then s.delete O.ptr else s).heap p = some b := by
    intro o O ho
    split
    · rename_i hw; rw [delete_heap _ (own ho hw), hb]
    · exact hb
  have fil : ∀ (t : St R) (q : Option ℕ) (n : ℕ) (d : ℕ → R), (∃ b', t.heap p = some b' ∧ b'.size = b.size) →
      ∃ b', (t.fillAt q n d).heap p = some b' ∧ b'.size = b.size := by
    intro t q n d ht
    by_cases hq : q = some p
    · subst hq
      obtain ⟨b', hb', hs⟩ := ht
      unfold St.fillAt
      split
      · exact ⟨b', hb', hs⟩
      simp only [hb']
      split
      · exact ⟨_, Function.update_self _ _ _, hs⟩
      · exact ⟨b', hb', hs⟩
    · rw [fillAt_heap _ hq]; exact ht
  have self : ∃ b', s.heap p = some b' ∧ b'.size = b.size := ⟨b, hb, rfl⟩
  cases op <;> simp only [step]
  case user => rw [alloc_heap _ hnx]; exact self
  case default => exact self
  case ctor => refine ⟨b, ?_, rfl⟩; show (St.alloc _ _ _ _).1.heap p = _; rw [alloc_heap _ hnx, hb]
  case copy o a =>
    obtain ⟨-, A, ha, hn⟩ := hop
    simp only [ha, hi.readable ha hn, if_true]
    refine ⟨b, ?_, rfl⟩; show (St.alloc _ _ _ _).1.heap p = _; rw [alloc_heap _ hnx, hb]
  case copyAssign o a =>
    obtain ⟨O, A, ho, ha, hn, -⟩ := hop
    simp only [ho, ha, hi.readable ha hn, if_true]
    split; · exact self
    split
    · exact fil s _ _ _ self
    · refine ⟨b, ?_, rfl⟩
      show (St.alloc _ _ _ _).1.heap p = _
      rw [alloc_heap, del ho]
      split
      · rw [delete_next]; exact hnx
      · exact hnx
  case move =>
    split; · exact self
    split <;> exact self
  case moveAssign o a =>
    obtain ⟨O, A, ho, ha⟩ := hop
    simp only [ho, ha]
    split; · exact self
    exact ⟨b, del ho, rfl⟩
  case dtor o =>
    obtain ⟨O, ho⟩ := hop
    simp only [ho]
    exact ⟨b, del ho, rfl⟩
  case fill o v =>
    split; · exact self
    exact fil s _ _ _ self
  case write o i j v =>
    split; · exact self
    split; · exact self
    rename_i r hr
    split
    · rename_i b' hb'
      split
      · by_cases e : p = r
        · subst e
          rw [hb] at hb'; cases hb'
          exact ⟨_, Function.update_self _ _ _, rfl⟩
        · exact ⟨b, by rw [← hb]; exact Function.update_of_ne e _ _, rfl⟩
      · exact self
    · exact self
  case assign o nr nc r owning =>
    obtain ⟨O, ho, -⟩ := hop
    simp only [ho]
    have hd : (if 0 < O.nr * O.nc ∧ O.owning = true then s.delete O.ptr else s).heap p = some b := by
      split
      · rename_i hw; rw [delete_heap _ (own ho hw.2), hb]
      · exact hb
    split
    · by_cases e : p = r
      · subst e
        exact ⟨⟨b.size, false, b.data⟩, by simp [St.setObj, hd], rfl⟩
      · refine ⟨b, ?_, rfl⟩
        rw [← hd]; exact Function.update_of_ne e _ _
    · exact ⟨b, hd, rfl⟩
  case release o =>
    split; · exact self
    rename_i O ho
    cases hp : O.ptr with
    | none => exact self
    | some r =>
      by_cases e : p = r
      · subst e
        exact ⟨⟨b.size, true, b.data⟩, by simp [St.setObj, hb], rfl⟩
      · refine ⟨b, ?_, rfl⟩
        rw [← hb]; exact Function.update_of_ne e _ _
  case resize o nr nc v =>
    split; · exact self
    rename_i O ho
    split
    · rename_i hw
      refine fil _ _ _ _ ⟨b, ?_, rfl⟩
      rw [alloc_heap _ (by rw [delete_next]; exact hnx), delete_heap _ (own ho hw.2.1), hb]
    split
    · refine fil _ _ _ _ ⟨b, ?_, rfl⟩
      rw [alloc_heap _ hnx, hb]
    · exact fil _ _ _ _ self

/-! ## Defects: without the restrictions of `Pre` -/

/-- **C54, defect** `resize` of a matrix on borrowed storage to the same number of entries makes the matrix the owner: its destruction deletes the
buffer of the user. -/
theorem C54_resize_borrowed_defect :
    PreAll (init : St ℤ) [.user 6 (fun i => i), .default 0, .assign 0 2 3 0 false] ∧
    (run (init : St ℤ) [.user 6 (fun i => i), .default 0, .assign 0 2 3 0 false, .resize 0 3 2 0]).ub = false ∧
    (run (init : St ℤ) [.user 6 (fun i => i), .default 0, .assign 0 2 3 0 false, .resize 0 3 2 0, .dtor 0]).ub = true := by
  refine ⟨?_, by decide +kernel, by decide +kernel⟩
  simp only [PreAll, Pre, step, init, St.setObj, St.alloc, St.fillAt, St.delete]
  simp [Function.update_apply]

/-- **C54, defect** A moved-from matrix keeps its sizes without storage: copying it, assigning a matrix of the same size to it, filling it, or
resizing it to the same size accesses memory through a null pointer. -/
theorem C54_moved_from_defect (op : Op ℤ) (h : op = .copy 2 0 ∨ op = .copyAssign 0 3 ∨ op = .fill 0 1 ∨ op = .resize 0 2 2 0) :
    PreAll (init : St ℤ) [.ctor 0 2 2 1, .ctor 3 2 2 5, .move 1 0] ∧
    (run (init : St ℤ) [.ctor 0 2 2 1, .ctor 3 2 2 5, .move 1 0, op]).ub = true := by
  refine ⟨?_, ?_⟩
  · simp only [PreAll, Pre, step, init, St.setObj, St.alloc, St.fillAt, St.delete]
    simp [Function.update_apply]
  · rcases h with rfl | rfl | rfl | rfl <;> decide +kernel

/-- **C54, defect** `assign` on an owning matrix without entries but with storage (`Matrix(0, 5)`) loses that storage. -/
theorem C54_assign_empty_defect :
    PreAll (init : St ℤ) [.ctor 0 0 5 1, .user 4 (fun _ => 0)] ∧
    (∀ o, (run (init : St ℤ) [.ctor 0 0 5 1, .user 4 (fun _ => 0), .assign 0 2 2 1 false, .dtor 0]).objs o = none) ∧
    ∃ b, (run (init : St ℤ) [.ctor 0 0 5 1, .user 4 (fun _ => 0), .assign 0 2 2 1 false, .dtor 0]).heap 0 = some b ∧ b.user = false := by
  refine ⟨?_, ?_, ?_⟩
  · simp only [PreAll, Pre, step, init, St.setObj, St.alloc]
    simp
  · intro o
    simp only [run, List.foldl, step, init, St.setObj, St.alloc, St.delete]
    by_cases h : o = 0 <;> simp [h, Function.update_apply]
  · exact ⟨_, rfl, rfl⟩

end Htool.MatMem
