import Verif.SolverBuffer
import Verif.Props.LocalSolvers

/-! # C72: histories of calls of `LocalHMatrixSolver::solve` -/

namespace Htool
open SolverBuf MatMem Finset
variable {G R : Type*} [CommRing R]

/-- **C72** Whatever the history of calls of both versions of `solve`, with varying numbers of right-hand sides, and of allocations, writes and deallocations by the
user between the calls, nothing outside a live array is accessed and nothing is deleted which is not owned. -/
theorem C72_no_undefined_behaviour {C : Cfg R} {s : St R} (h : Reach C s) : s.ub = false := h.binv.noUb

/-- **C72** When the solver is destroyed, after any history, nothing it allocated is left, no array of the user is affected, and nothing is deleted twice. -/
theorem C72_destroyed {C : Cfg R} {s : St R} (h : Reach C s) :
    (stepR s (.dtor 0)).ub = false ∧ (∀ p b, (stepR s (.dtor 0)).heap p = some b → b.user = true) ∧
    ∀ p b, s.heap p = some b → b.user = true → (stepR s (.dtor 0)).heap p = some b := by
  obtain ⟨O, ho, hc, hl⟩ := h.binv.obj
  have hall : (O.ptr = none ∨ O.owning = false) → ∀ p b, s.heap p = some b → b.user = true := by
    intro h p b hb
    by_contra hu
    obtain ⟨l1, l2⟩ := hl p b hb (by simpa using hu)
    rcases h with h | h
    · rw [h] at l1; cases l1
    · rw [h] at l2; cases l2
  unfold stepR step
  simp only [ho, St.setObj]
  rcases hc with ⟨c1, -⟩ | ⟨-, c2, p, b, c3, c4, c5, -⟩ | ⟨-, c2, -⟩
  · rw [c1]
    have e : (if O.owning = true then s.delete none else s) = s := by split_ifs <;> rfl
    rw [e]
    exact ⟨h.binv.noUb, hall (Or.inl c1), fun p b hb _ => hb⟩
  · rw [c2, if_pos rfl, c3, delete_some c4 c5]
    refine ⟨h.binv.noUb, fun q b' hb => ?_, fun q b' hb hu => ?_⟩
    · have hb : Function.update s.heap p none q = some b' := hb
      by_cases e : q = p
      · rw [e, Function.update_self] at hb; cases hb
      · rw [Function.update_of_ne e] at hb
        by_contra hu
        have := (hl q b' hb (by simpa using hu)).1
        rw [c3] at this; cases this
        exact e rfl
    · have : q ≠ p := by rintro rfl; rw [c4] at hb; cases hb; rw [c5] at hu; cases hu
      exact (Function.update_of_ne this ..).trans hb
  · rw [c2]
    simp only [Bool.false_eq_true, if_false]
    exact ⟨h.binv.noUb, hall (Or.inr c2), fun p b hb _ => hb⟩

section
variable [StarRing R] [DecidableEq R] {E : LinOps R} {f : ℕ} {sym : HSym} {u : UploType} {usePerm : Bool} {pt ps : List ℕ} {A : FTree G R}

/-- **C72** The result of `solve(b, x, mu)` does not depend on the history: `x` receives what the call computes from the present content of the two arrays, and every
other array of the user is unchanged. -/
theorem C72_two_arrays (hA : A.label.t = A.label.s) {s : St R} (h : Reach (cfgOf E f sym u usePerm pt ps A) s) {b x mu : ℕ} {bb bx : Blk R}
    (hb : s.heap b = some bb) (hx : s.heap x = some bx) (ub : bb.user = true) (ux : bx.user = true) (sb : A.label.s.sz * mu ≤ bb.size) (sx : A.label.s.sz * mu ≤ bx.size)
    (hmu : usePerm = false → 0 < mu) {y : Buf R} (hy : hmSolve E f sym u usePerm pt ps A bb.data bx.data mu = some y) :
    ∃ s', exec (cfgOf E f sym u usePerm pt ps A) s (.solve2 b x mu) = some s' ∧
      s'.heap x = some { bx with data := fun q => if q < A.label.s.sz * mu then y q else bx.data q } ∧
      ∀ p c, p ≠ x → s.heap p = some c → c.user = true → s'.heap p = some c := by
  rw [← result_hmSolve E f sym u usePerm pt ps A hA] at hy
  obtain ⟨s', h1, -, h2, h3⟩ := (solve2_spec h.binv hb hx ub ux sb sx hmu).2 y hy
  exact ⟨s', h1, h2, h3⟩

/-- **C72** Same for `solve(b, mu)`, in place. -/
theorem C72_in_place (hA : A.label.t = A.label.s) {s : St R} (h : Reach (cfgOf E f sym u usePerm pt ps A) s) {b mu : ℕ} {bb : Blk R}
    (hb : s.heap b = some bb) (ub : bb.user = true) (sb : A.label.s.sz * mu ≤ bb.size) {y : Buf R}
    (hy : hmSolve E f sym u usePerm pt ps A bb.data bb.data mu = some y) :
    ∃ s', exec (cfgOf E f sym u usePerm pt ps A) s (.solve1 b mu) = some s' ∧
      s'.heap b = some { bb with data := fun q => if q < A.label.s.sz * mu then y q else bb.data q } ∧
      ∀ p c, p ≠ b → s.heap p = some c → c.user = true → s'.heap p = some c := by
  rw [← result_hmSolve E f sym u usePerm pt ps A hA] at hy
  obtain ⟨s', h1, -, h2, h3⟩ := (solve1_spec h.binv hb ub sb).2 y hy
  exact ⟨s', h1, h2, h3⟩

variable {ad : ClusterTree G → ClusterTree G → Prop} {M K : ℕ → ℕ → R} {perm : List ℕ} {n : ℕ}

/-- **C72** End to end, unsymmetric matrices: after `numfact`, every call of `solve(b, x, mu)`, at any point of any history, solves the system with the matrix of the
H-matrix (in user numbering with permutation, in cluster numbering without), leaves `b` (if it is another array), the rest of `x` and every other array as they were. -/
theorem C72_lu (hEx : E.Exact) (hT : TrsmOK E) (hG : GetrfOK E) (hA : LUOperand ad M A) {f : ℕ} (hf : 2 * A.ht ≤ f) (hn : A.label.t.sz = n)
    (hp : LocalPerm perm A.label.t.off n)
    (hK : ∀ i < n, ∀ j < n, M (A.label.t.off + i) (A.label.t.off + j) = K (userIdx perm A.label.t.off i) (userIdx perm A.label.t.off j)) :
    ∃ A', hmNumfact E f .N u A = some A' ∧ ∀ (usePerm : Bool) (g : ℕ), A.ht ≤ g → ∀ s : St R, Reach (cfgOf E g .N u usePerm perm perm A') s →
      ∀ (b x mu : ℕ) (bb bx : Blk R), s.heap b = some bb → s.heap x = some bx → bb.user = true → bx.user = true → n * mu ≤ bb.size → n * mu ≤ bx.size → 0 < mu →
      ∃ s' bx', exec (cfgOf E g .N u usePerm perm perm A') s (.solve2 b x mu) = some s' ∧ Reach (cfgOf E g .N u usePerm perm perm A') s' ∧ s'.heap x = some bx' ∧
        (∀ k < mu, ∀ i < n, ∑ l ∈ range n, (if usePerm then K i l else M (A.label.t.off + i) (A.label.t.off + l)) * bx'.data (k * n + l) = bb.data (k * n + i)) ∧
        (∀ q, mu * n ≤ q → bx'.data q = bx.data q) ∧ ∀ p c, p ≠ x → s.heap p = some c → c.user = true → s'.heap p = some c := by
  obtain ⟨A', e1, e2⟩ := C58_lu (u := u) hEx hT hG hA hf hn hp hK
  obtain ⟨A'', -, -, e1', e3, e4, -⟩ := C37_factorization hEx hT hG hA hf
  have e1'' : hmNumfact E f .N u A = some A'' := (if_pos rfl).trans e1'
  obtain rfl : A'' = A' := Option.some.inj (e1''.symm.trans e1)
  have hsq : A''.label.t = A''.label.s := by rw [e3, e4, hA.square]
  have hsz : A''.label.s.sz = n := by rw [← hsq, e3, hn]
  refine ⟨A'', e1, fun usePerm g hg s hs b x mu bb bx hb hx ub ux sb sx hmu => ?_⟩
  obtain ⟨y, y1, y2, y3⟩ := e2 usePerm bb.data bx.data mu g hg
  obtain ⟨s', s1, s2, s3⟩ := C72_two_arrays hsq hs hb hx ub ux (by rw [hsz]; exact sb) (by rw [hsz]; exact sx) (fun _ => hmu) y1
  refine ⟨s', _, s1, Reach.event (.solve2 b x mu) hs ⟨⟨bb, hb, ub, by show A''.label.s.sz * mu ≤ _; rw [hsz]; exact sb⟩, ⟨bx, hx, ux, by show A''.label.s.sz * mu ≤ _; rw [hsz]; exact sx⟩, fun _ => hmu⟩ s1,
    s2, fun k hk i hi => ?_, fun q hq => ?_, s3⟩
  · rw [← y2 k hk i hi]
    refine sum_congr rfl fun l hl => ?_
    have : k * n + l < A''.label.s.sz * mu := by
      have h1 := mem_range.1 hl
      have h2 : (k + 1) * n ≤ mu * n := Nat.mul_le_mul_right _ hk
      rw [hsz, Nat.mul_comm n]
      rw [Nat.succ_mul] at h2
      omega
    simp only [if_pos this]
  · have : ¬ q < A''.label.s.sz * mu := by rw [hsz, Nat.mul_comm n]; omega
    simp only [if_neg this]

/-- **C72**, symmetric and Hermitian matrices (Cholesky). Missing: what is missing in C38 (clusters with more than two children). -/
theorem C72_cholesky_partial {m : Mask} (hEx : E.Exact) (hT : TrsmOK E) (hP : PotrfOK E) (hA : CholOperand u m ad M A) {f : ℕ} (hf : 2 * A.ht ≤ f) (hn : A.label.t.sz = n)
    (hp : LocalPerm perm A.label.t.off n)
    (hK : ∀ i < n, ∀ j < n, M (A.label.t.off + i) (A.label.t.off + j) = K (userIdx perm A.label.t.off i) (userIdx perm A.label.t.off j))
    {sym : HSym} (hs : sym = .S ∨ sym = .H) :
    ∃ A', hmNumfact E f sym u A = some A' ∧ ∀ (usePerm : Bool) (g : ℕ), A.ht ≤ g → ∀ s : St R, Reach (cfgOf E g sym u usePerm perm perm A') s →
      ∀ (b x mu : ℕ) (bb bx : Blk R), s.heap b = some bb → s.heap x = some bx → bb.user = true → bx.user = true → n * mu ≤ bb.size → n * mu ≤ bx.size → 0 < mu →
      ∃ s' bx', exec (cfgOf E g sym u usePerm perm perm A') s (.solve2 b x mu) = some s' ∧ Reach (cfgOf E g sym u usePerm perm perm A') s' ∧ s'.heap x = some bx' ∧
        (∀ k < mu, ∀ i < n, ∑ l ∈ range n, (if usePerm then K i l else M (A.label.t.off + i) (A.label.t.off + l)) * bx'.data (k * n + l) = bb.data (k * n + i)) ∧
        (∀ q, mu * n ≤ q → bx'.data q = bx.data q) ∧ ∀ p c, p ≠ x → s.heap p = some c → c.user = true → s'.heap p = some c := by
  have hN : ¬ sym = .N := by rcases hs with rfl | rfl <;> simp
  obtain ⟨A', e1, e2⟩ := C58_cholesky_partial hEx hT hP hA hf hn hp hK hs
  obtain ⟨A'', -, e1', e3, e4, -⟩ := C38_factorization_partial hEx hT hP hA hf
  have e1'' : hmNumfact E f sym u A = some A'' := (if_neg hN).trans ((if_pos hs).trans e1')
  obtain rfl : A'' = A' := Option.some.inj (e1''.symm.trans e1)
  have hsq : A''.label.t = A''.label.s := by rw [e3, e4, hA.square]
  have hsz : A''.label.s.sz = n := by rw [← hsq, e3, hn]
  refine ⟨A'', e1, fun usePerm g hg s hs b x mu bb bx hb hx ub ux sb sx hmu => ?_⟩
  obtain ⟨y, y1, y2, y3⟩ := e2 usePerm bb.data bx.data mu g hg
  obtain ⟨s', s1, s2, s3⟩ := C72_two_arrays hsq hs hb hx ub ux (by rw [hsz]; exact sb) (by rw [hsz]; exact sx) (fun _ => hmu) y1
  refine ⟨s', _, s1, Reach.event (.solve2 b x mu) hs ⟨⟨bb, hb, ub, by show A''.label.s.sz * mu ≤ _; rw [hsz]; exact sb⟩, ⟨bx, hx, ux, by show A''.label.s.sz * mu ≤ _; rw [hsz]; exact sx⟩, fun _ => hmu⟩ s1,
    s2, fun k hk i hi => ?_, fun q hq => ?_, s3⟩
  · rw [← y2 k hk i hi]
    refine sum_congr rfl fun l hl => ?_
    have : k * n + l < A''.label.s.sz * mu := by
      have h1 := mem_range.1 hl
      have h2 : (k + 1) * n ≤ mu * n := Nat.mul_le_mul_right _ hk
      rw [hsz, Nat.mul_comm n]
      rw [Nat.succ_mul] at h2
      omega
    simp only [if_pos this]
  · have : ¬ q < A''.label.s.sz * mu := by rw [hsz, Nat.mul_comm n]; omega
    simp only [if_neg this]

end

/-- The hypotheses on the history are met for every configuration: two arrays of the user with the given content (the hypotheses on the H-matrix are those of
C58, met by `exLU_operand`). -/
theorem reach_two_arrays (C : Cfg R) (k : ℕ) (d e : Buf R) : ∃ s, Reach C s ∧ s.heap 0 = some ⟨k, true, d⟩ ∧ s.heap 1 = some ⟨k, true, e⟩ := by
  refine ⟨(((stepR init (.default 0) : St R).alloc k true d).1.alloc k true e).1, .event (.user k e) (.event (.user k d) .start trivial rfl) trivial rfl, ?_, ?_⟩
  · simp [stepR, step, init, St.setObj, St.alloc, Function.update]
  · simp [stepR, step, init, St.setObj, St.alloc, Function.update]

/-- A solver for one unknown without permutation and without factorization. -/
def exCfg (usePerm : Bool) : Cfg ℤ := ⟨usePerm, 1, 0, [0], [0], fun X => some ⟨X.nr, X.nc, fun k => 2 * X.data k⟩⟩

/-- Executes a history. -/
def execAll (C : Cfg ℤ) (s : St ℤ) (l : List (Ev ℤ)) : Option (St ℤ) := l.foldlM (exec C) s

/-- What the user sees of a state: undefined behaviour, the owner and the content of the first blocks. -/
def view5 (s : St ℤ) : Bool × List (Option (Bool × List ℤ)) :=
  (s.ub, [0, 1, 2, 3, 4].map fun p => (s.heap p).map fun b => (b.user, (List.range b.size).map b.data))

/-- Histories with calls of both versions, where the array borrowed by the buffer is freed between two calls, for several numbers of right-hand sides. -/
example : (execAll (exCfg false) (stepR init (.default 0)) [.user 2 (fun k => k + 1), .user 2 (fun _ => 0), .solve1 0 1, .solve2 0 1 2, .free 1, .user 2 (fun _ => 7),
    .solve2 0 3 1, .solve1 3 2]).map view5 = some (false, [some (true, [2, 2]), none, none, some (true, [8, 14]), none]) := by
  decide +kernel

example : (execAll (exCfg true) (stepR init (.default 0)) [.user 2 (fun k => k + 1), .user 2 (fun _ => 0), .solve1 0 1, .solve2 0 1 2, .free 1, .user 2 (fun _ => 7),
    .solve2 0 4 1]).map view5 = some (false, [some (true, [2, 2]), none, none, none, some (true, [4, 7])]) := by
  decide +kernel

/-- **C72, defect** Without permutation, a call of `solve(b, x, mu)` for zero vectors after another call loses the storage the buffer was resized to: it is still
allocated, and nobody owns it, after the destruction of the solver. -/
theorem C72_zero_vectors_leak : (execAll (exCfg false) (stepR init (.default 0)) [.user 1 (fun _ => 1), .user 1 (fun _ => 0), .solve2 0 1 1, .solve2 0 1 0]).map
    (fun s => view5 (stepR s (.dtor 0))) = some (false, [some (true, [1]), some (true, [2]), none, some (false, []), none]) := by
  decide +kernel

end Htool
