import Verif.MatrixMemory
import Verif.Overlap

/-! # The buffer of `LocalHMatrixSolver`

`LocalHMatrixSolver` (`include/htool/solvers/local_solvers/local_hmatrix_solvers.hpp` 15-87) keeps a mutable matrix `buffer` between the calls of `solve`: with
permutation it owns storage for the right-hand sides in cluster numbering, without permutation it is a view of the array of the caller of the last call, which
may have been freed since. The calls are executed on the heap of `MatrixMemory`; the buffer is the object `0`. -/

namespace Htool.SolverBuf
open MatMem
variable {G R : Type*} [CommRing R]

/-- Members of the solver and what `solve` needs of the factorized H-matrix: `n` is `nb_cols()`, `off` the offset of the clusters, `pt`, `ps` the permutations of
the target and source cluster trees, `inner` the solver in cluster numbering (local_hmatrix_solvers.hpp 46-50). -/
structure Cfg (R : Type*) where
  usePerm : Bool
  n : ℕ
  off : ℕ
  pt : List ℕ
  ps : List ℕ
  inner : Mat R → Option (Mat R)

/-- The configuration of the solver for a factorized H-matrix. -/
def cfgOf [StarRing R] [DecidableEq R] (E : LinOps R) (f : ℕ) (sym : HSym) (u : UploType) (usePerm : Bool) (pt ps : List ℕ) (A : FTree G R) : Cfg R where
  usePerm := usePerm
  n := A.label.s.sz
  off := A.label.s.off
  pt := pt
  ps := ps
  inner X := if sym = .N then luSolveH E f .N A X else if sym = .S ∨ sym = .H then cholSolveH E f u A X else some X

/-- Member functions of `Matrix` (`MatrixMemory`); fresh storage is zero where it is not set. -/
def stepR (s : St R) (op : Op R) : St R := @step R ⟨0⟩ s op

/-- The buffer. -/
def bufObj (s : St R) : Obj := (s.objs 0).getD ⟨0, 0, none, true⟩

/-- A loop which reads `k` values from `src` and writes `k` values to `dst`; undefined when one of them has less room. -/
def transfer (s : St R) (k : ℕ) (src dst : Option ℕ) (g : Buf R → Buf R → Buf R) : St R :=
  (if s.readable src k then s else { s with ub := true }).fillAt dst k (g (s.content 0 src) (s.content 0 dst))

/-- Resize of the buffer (local_hmatrix_solvers.hpp 33-35, 61-63). -/
def ensure (C : Cfg R) (s : St R) (mu : ℕ) : St R :=
  if (bufObj s).nr ≠ C.n ∨ (bufObj s).nc ≠ mu then stepR s (.resize 0 C.n mu 0) else s

/-- The columns into cluster numbering (local_hmatrix_solvers.hpp 37-40, 65-68). -/
def colsIn (C : Cfg R) (mu : ℕ) (x d : Buf R) : Buf R :=
  (List.range mu).foldl (fun d i => Buf.at' (C.n * i) (userToCluster C.ps C.off C.n (x.from' (C.n * i))) d) d

/-- The columns into user numbering (local_hmatrix_solvers.hpp 53-56, 81-84). -/
def colsOut (C : Cfg R) (mu : ℕ) (x d : Buf R) : Buf R :=
  (List.range mu).foldl (fun d i => Buf.at' (C.n * i) (clusterToUser C.pt C.off C.n (x.from' (C.n * i))) d) d

/-- The solver in cluster numbering, in place in the buffer (local_hmatrix_solvers.hpp 45-49, 74-78). -/
def innerSolve (C : Cfg R) (s : St R) : Option (St R) :=
  (C.inner ⟨(bufObj s).nr, (bufObj s).nc, s.content 0 (bufObj s).ptr⟩).map fun Y =>
    transfer s ((bufObj s).nr * (bufObj s).nc) (bufObj s).ptr (bufObj s).ptr fun _ _ => Y.data

/-- `solve(b, mu)` (local_hmatrix_solvers.hpp 30-58). -/
def solve1 (C : Cfg R) (s : St R) (b mu : ℕ) : Option (St R) :=
  let s := if C.usePerm then
      let s := ensure C s mu
      transfer s (C.n * mu) (some b) (bufObj s).ptr (colsIn C mu)
    else stepR s (.assign 0 C.n mu b false)
  (innerSolve C s).map fun s => if C.usePerm then transfer s (C.n * mu) (bufObj s).ptr (some b) (colsOut C mu) else s

/-- `solve(b, x, mu)` (local_hmatrix_solvers.hpp 59-86). -/
def solve2 (C : Cfg R) (s : St R) (b x mu : ℕ) : Option (St R) :=
  let s := ensure C s mu
  let s := if C.usePerm then transfer s (C.n * mu) (some b) (bufObj s).ptr (colsIn C mu)
    else
      let s := stepR s (.assign 0 C.n mu x false)
      transfer s (mu * C.n) (some b) (bufObj s).ptr fun v _ => v
  (innerSolve C s).map fun s => if C.usePerm then transfer s (C.n * mu) (bufObj s).ptr (some x) (colsOut C mu) else s

/-- What the program does: the user allocates, writes and frees arrays between the calls of the solver. -/
inductive Ev (R : Type*) where
  | user (n : ℕ) (d : ℕ → R)
  | write (p : ℕ) (d : ℕ → R)
  | free (p : ℕ)
  | solve1 (b mu : ℕ)
  | solve2 (b x mu : ℕ)

/-- One event. -/
def exec (C : Cfg R) (s : St R) : Ev R → Option (St R)
  | .user n d => some (s.alloc n true d).1
  | .write p d => some { s with heap := Function.update s.heap p ((s.heap p).map fun b => { b with data := d }) }
  | .free p => some { s with heap := Function.update s.heap p none }
  | .solve1 b mu => solve1 C s b mu
  | .solve2 b x mu => solve2 C s b x mu

/-- An array of the user with room for `k` values. -/
def Room (s : St R) (p k : ℕ) : Prop := ∃ b, s.heap p = some b ∧ b.user = true ∧ k ≤ b.size

/-- What the user has to respect: arrays written or freed are his own and live; the arrays of a call are live and have room for `mu` vectors; without permutation
`mu` is not zero. -/
def Ev.Allowed (C : Cfg R) (s : St R) : Ev R → Prop
  | .user _ _ => True
  | .write p _ => Room s p 0
  | .free p => Room s p 0
  | .solve1 b mu => Room s b (C.n * mu) ∧ (C.usePerm = false → 0 < mu)
  | .solve2 b x mu => Room s b (C.n * mu) ∧ Room s x (C.n * mu) ∧ (C.usePerm = false → 0 < mu)

/-- The states reached from the construction of the solver (local_hmatrix_solvers.hpp 22) by any history. -/
inductive Reach (C : Cfg R) : St R → Prop
  | start : Reach C (stepR init (.default 0))
  | event {s s' : St R} (e : Ev R) (h : Reach C s) (ha : e.Allowed C s) (he : exec C s e = some s') : Reach C s'

/-! ## Invariant -/

/-- Between two calls. With permutation, the buffer owns a live block with exactly its entries, or is empty; without permutation it is a view (possibly of an array
which has been freed), or empty. Nothing else is allocated by the solver. -/
structure BInv (C : Cfg R) (s : St R) : Prop where
  noUb : s.ub = false
  fresh : ∀ p, s.next ≤ p → s.heap p = none
  obj : ∃ O, s.objs 0 = some O ∧
    ((O.ptr = none ∧ O.nr * O.nc = 0) ∨
     (C.usePerm = true ∧ O.owning = true ∧ ∃ p b, O.ptr = some p ∧ s.heap p = some b ∧ b.user = false ∧ b.size = O.nr * O.nc ∧ ∀ q, b.size ≤ q → b.data q = 0) ∨
     (C.usePerm = false ∧ O.owning = false ∧ O.nr = C.n)) ∧
    ∀ p b, s.heap p = some b → b.user = false → O.ptr = some p ∧ O.owning = true

/-! ## Lemmas -/

theorem upd_self {α : Type*} (f : ℕ → Option α) (a : ℕ) (v : Option α) : Function.update f a v a = v := Function.update_self ..

theorem fillAt_some {s : St R} {p k : ℕ} {b : Blk R} (h : s.heap p = some b) (hk : k ≤ b.size) (d : Buf R) :
    s.fillAt (some p) k d = { s with heap := Function.update s.heap p (some { b with data := fun i => if i < k then d i else b.data i }) } := by
  unfold St.fillAt
  by_cases h0 : k = 0
  · subst h0
    simp only [if_true, Nat.not_lt_zero, if_false]
    rw [← h, Function.update_eq_self]
  · rw [if_neg h0]
    simp only [h]
    rw [if_pos hk]

theorem fillAt_zero (s : St R) (p : Option ℕ) (d : Buf R) : s.fillAt p 0 d = s := if_pos rfl

theorem readable_some {s : St R} {p k : ℕ} {b : Blk R} (h : s.heap p = some b) (hk : k ≤ b.size) : s.readable (some p) k = true := by
  unfold St.readable
  simp [h, hk]

theorem readable_zero (s : St R) (p : Option ℕ) : s.readable p 0 = true := by simp [St.readable]

theorem content_some {s : St R} {p : ℕ} {b : Blk R} (h : s.heap p = some b) : s.content (0 : R) (some p) = b.data := by
  unfold St.content
  simp [h]

theorem transfer_zero (s : St R) (src dst : Option ℕ) (g : Buf R → Buf R → Buf R) : transfer s 0 src dst g = s := by
  unfold transfer
  rw [if_pos (readable_zero s src), fillAt_zero]

theorem transfer_some {s : St R} {p q k : ℕ} {a b : Blk R} (hp : s.heap p = some a) (hq : s.heap q = some b) (h1 : k ≤ a.size) (h2 : k ≤ b.size)
    (g : Buf R → Buf R → Buf R) : transfer s k (some p) (some q) g =
      { s with heap := Function.update s.heap q (some { b with data := fun i => if i < k then g a.data b.data i else b.data i }) } := by
  unfold transfer
  rw [if_pos (readable_some hp h1), fillAt_some hq h2, content_some hp, content_some hq]

theorem bufObj_some {s : St R} {O : Obj} (h : s.objs 0 = some O) : bufObj s = O := by
  unfold bufObj
  rw [h]
  rfl

theorem delete_some {s : St R} {p : ℕ} {b : Blk R} (h : s.heap p = some b) (hu : b.user = false) :
    s.delete (some p) = { s with heap := Function.update s.heap p none } := by
  unfold St.delete
  simp [h, hu]

theorem colsIn_eq (C : Cfg R) (mu : ℕ) (x d : Buf R) (q : ℕ) :
    colsIn C mu x d q = if q < C.n * mu then x (C.n * (q / C.n) + userIdx C.ps C.off (q % C.n)) else d q := by
  have h := colLoopAt (size := C.n) (fun i => userToCluster C.ps C.off C.n (x.from' (C.n * i))) (fun i k => x (C.n * i + userIdx C.ps C.off k))
    (fun i d k hk => (userToCluster_spec C.ps C.off C.n (x.from' (C.n * i)) d).1 k hk) (fun i d k hk => (userToCluster_spec C.ps C.off C.n (x.from' (C.n * i)) d).2 k hk) mu d
  by_cases hq : q < C.n * mu
  · rw [if_pos hq]
    have hn : 0 < C.n := by rcases Nat.eq_zero_or_pos C.n with h | h <;> [(rw [h, Nat.zero_mul] at hq; omega); exact h]
    have h1 := h.1 (q / C.n) (Nat.div_lt_of_lt_mul hq) (q % C.n) (Nat.mod_lt _ hn)
    rw [Nat.div_add_mod] at h1
    exact h1
  · rw [if_neg hq]
    exact h.2 q (by omega)

theorem clusterToUser_congr (perm : List ℕ) (off size : ℕ) {x y : Buf R} (h : ∀ i < size, x i = y i) (d : Buf R) :
    clusterToUser perm off size x d = clusterToUser perm off size y d := by
  unfold clusterToUser
  induction size with
  | zero => rfl
  | succ k ih =>
    rw [List.range_succ, List.foldl_append, List.foldl_append, ih fun i hi => h i (by omega), List.foldl_cons, List.foldl_nil, List.foldl_cons, List.foldl_nil, h k (by omega)]

theorem colsOut_congr (C : Cfg R) (mu : ℕ) {x y : Buf R} (h : ∀ i < C.n * mu, x i = y i) (d : Buf R) : colsOut C mu x d = colsOut C mu y d := by
  unfold colsOut
  induction mu with
  | zero => rfl
  | succ k ih =>
    rw [List.range_succ, List.foldl_append, List.foldl_append, ih fun i hi => h i (by rw [Nat.mul_succ]; omega), List.foldl_cons, List.foldl_nil, List.foldl_cons, List.foldl_nil]
    have : ∀ e : Buf R, clusterToUser C.pt C.off C.n (x.from' (C.n * k)) e = clusterToUser C.pt C.off C.n (y.from' (C.n * k)) e :=
      clusterToUser_congr _ _ _ fun i hi => h (C.n * k + i) (by rw [Nat.mul_succ]; omega)
    unfold Buf.at'
    funext q
    rw [this]

/-- The result of a call as a function of the content of the two arrays. -/
def Cfg.result (C : Cfg R) (mu : ℕ) (b x : Buf R) : Option (Buf R) :=
  (C.inner ⟨C.n, mu, if C.usePerm then colsIn C mu b (fun _ => 0) else copyN (mu * C.n) b x⟩).map fun Y =>
    if C.usePerm then colsOut C mu Y.data x else copyN (mu * C.n) Y.data x

theorem result_hmSolve [StarRing R] [DecidableEq R] (E : LinOps R) (f : ℕ) (sym : HSym) (u : UploType) (usePerm : Bool) (pt ps : List ℕ) (A : FTree G R)
    (hA : A.label.t = A.label.s) (b x : Buf R) (mu : ℕ) : (cfgOf E f sym u usePerm pt ps A).result mu b x = hmSolve E f sym u usePerm pt ps A b x mu := by
  unfold Cfg.result hmSolve
  rw [hA]
  cases usePerm with
  | false => rfl
  | true =>
    have e : permIn ps A.label.s.off A.label.s.sz ⟨A.label.s.sz, mu, b⟩ = ⟨A.label.s.sz, mu, colsIn (cfgOf E f sym u true pt ps A) mu b (fun _ => 0)⟩ := by
      unfold permIn Mat.mk' colsIn cfgOf
      simp only [ite_self]
    simp only [if_true, e]
    rfl

variable {C : Cfg R} {s : St R}

/-- Writing an array of the user. -/
theorem BInv.updUser (h : BInv C s) {x : ℕ} {bx : Blk R} (hx : s.heap x = some bx) (hu : bx.user = true) (d : Buf R) :
    BInv C { s with heap := Function.update s.heap x (some { bx with data := d }) } := by
  obtain ⟨O, ho, hc, hl⟩ := h.obj
  refine ⟨h.noUb, fun p hp => ?_, O, ho, ?_, fun p b hb hub => ?_⟩
  · have : p ≠ x := by rintro rfl; rw [h.fresh _ hp] at hx; cases hx
    show Function.update s.heap x _ p = none
    rw [Function.update_of_ne this]
    exact h.fresh p hp
  · rcases hc with hc | ⟨c1, c2, p, b, c3, c4, c5, c6⟩ | hc
    · exact Or.inl hc
    · refine Or.inr (Or.inl ⟨c1, c2, p, b, c3, ?_, c5, c6⟩)
      have : p ≠ x := by rintro rfl; rw [c4] at hx; cases hx; rw [c5] at hu; cases hu
      show Function.update s.heap x _ p = some b
      rw [Function.update_of_ne this]
      exact c4
    · exact Or.inr (Or.inr hc)
  · have hb : Function.update s.heap x (some { bx with data := d }) p = some b := hb
    by_cases e : p = x
    · subst e
      rw [Function.update_self] at hb
      cases hb
      rw [hu] at hub
      cases hub
    · rw [Function.update_of_ne e] at hb
      exact hl p b hb hub

/-- Writing the buffer. -/
theorem BInv.updBuf (h : BInv C s) {p : ℕ} {c : Blk R} (hp : s.heap p = some c) (hu : c.user = false) (d : Buf R) :
    BInv C { s with heap := Function.update s.heap p (some { c with data := fun i => if i < c.size then d i else c.data i }) } := by
  obtain ⟨O, ho, hc, hl⟩ := h.obj
  obtain ⟨l1, l2⟩ := hl p c hp hu
  refine ⟨h.noUb, fun q hq => ?_, O, ho, ?_, fun q b hb hub => ?_⟩
  · have : q ≠ p := by rintro rfl; rw [h.fresh _ hq] at hp; cases hp
    show Function.update s.heap p _ q = none
    rw [Function.update_of_ne this]
    exact h.fresh q hq
  · rcases hc with ⟨c1, -⟩ | ⟨c1, c2, p', b, c3, c4, c5, c6, c7⟩ | ⟨-, c2, -⟩
    · rw [l1] at c1; cases c1
    · rw [l1] at c3
      cases c3
      rw [hp] at c4
      cases c4
      refine Or.inr (Or.inl ⟨c1, c2, p, _, l1, upd_self .., c5, c6, fun q hq => ?_⟩)
      show (if q < c.size then d q else c.data q) = 0
      rw [if_neg (by have : c.size ≤ q := hq; omega)]
      exact c7 q hq
    · rw [l2] at c2; cases c2
  · have hb : Function.update s.heap p _ q = some b := hb
    by_cases e : q = p
    · subst e
      exact ⟨l1, l2⟩
    · rw [Function.update_of_ne e] at hb
      exact hl q b hb hub

/-- The buffer is a new block of `k` zeros. -/
theorem BInv.newBuf (hub : s.ub = false) (hf : ∀ p, s.next ≤ p → s.heap p = none) (hn : ∀ p b, s.heap p = some b → b.user = true) (hp : C.usePerm = true) (nr nc : ℕ) :
    BInv C ⟨Function.update s.objs 0 (some ⟨nr, nc, some s.next, true⟩), Function.update s.heap s.next (some ⟨nr * nc, false, fun _ => 0⟩), s.next + 1, s.ub⟩ := by
  refine ⟨hub, fun p hp => ?_, ⟨nr, nc, some s.next, true⟩, by simp, Or.inr (Or.inl ⟨hp, rfl, s.next, _, rfl, upd_self .., rfl, rfl, fun _ _ => rfl⟩),
    fun p b hb hu => ?_⟩
  · have hp : s.next + 1 ≤ p := hp
    show Function.update s.heap s.next _ p = none
    rw [Function.update_of_ne (by omega)]
    exact hf p (by omega)
  · have hb : Function.update s.heap s.next _ p = some b := hb
    by_cases e : p = s.next
    · exact ⟨by rw [e], rfl⟩
    · rw [Function.update_of_ne e] at hb
      rw [hn p b hb] at hu
      cases hu

/-- The resize with permutation. -/
theorem ensure_perm (h : BInv C s) (hp : C.usePerm = true) (mu : ℕ) :
    BInv C (ensure C s mu) ∧ (∃ O, (ensure C s mu).objs 0 = some O ∧ O.nr = C.n ∧ O.nc = mu) ∧
    ∀ p b, s.heap p = some b → b.user = true → (ensure C s mu).heap p = some b := by
  obtain ⟨O, ho, hc, hl⟩ := h.obj
  unfold ensure
  rw [bufObj_some ho]
  by_cases hsz : O.nr ≠ C.n ∨ O.nc ≠ mu
  swap
  · rw [if_neg hsz]
    push Not at hsz
    exact ⟨h, ⟨O, ho, hsz⟩, fun p b hb _ => hb⟩
  rw [if_pos hsz]
  unfold stepR step
  simp only [ho]
  rcases hc with ⟨c1, c2⟩ | ⟨-, c2, p, b, c3, c4, c5, c6, c7⟩ | ⟨c1, -⟩
  · have hall : ∀ p b, s.heap p = some b → b.user = true := by
      intro p b hb
      by_contra hu
      have := (hl p b hb (by simpa using hu)).1
      rw [c1] at this; cases this
    rw [if_neg (by rw [c1]; simp), c2]
    by_cases hz : 0 = C.n * mu
    · rw [if_neg (fun h => h hz), ← hz, fillAt_zero, c1]
      refine ⟨⟨h.noUb, h.fresh, ⟨C.n, mu, none, true⟩, by simp [St.setObj], Or.inl ⟨rfl, hz.symm⟩, fun p b hb hu => ?_⟩, ⟨⟨C.n, mu, none, true⟩, by simp [St.setObj], rfl, rfl⟩, fun p b hb _ => hb⟩
      rw [hall p b hb] at hu; cases hu
    · rw [if_pos hz]
      simp only [St.alloc]
      rw [fillAt_some (b := ⟨C.n * mu, false, fun _ => 0⟩) (upd_self ..) le_rfl]
      simp only [St.setObj, ite_self, Function.update_idem]
      refine ⟨BInv.newBuf h.noUb h.fresh hall hp C.n mu, ⟨⟨C.n, mu, some s.next, true⟩, upd_self .., rfl, rfl⟩, fun p b hb _ => ?_⟩
      show Function.update s.heap s.next _ p = some b
      rw [Function.update_of_ne, hb]
      rintro rfl
      rw [h.fresh _ le_rfl] at hb; cases hb
  · have hne : ∀ q b', s.heap q = some b' → b'.user = true → q ≠ p := by
      rintro q b' hb hu rfl
      rw [c4] at hb; cases hb; rw [c5] at hu; cases hu
    by_cases hz : O.nr * O.nc = C.n * mu
    · rw [if_neg (by rw [hz]; simp), if_neg (by simpa using hz), c3, fillAt_some c4 (by rw [c6, hz])]
      have hd : (fun i => if i < C.n * mu then (0 : R) else b.data i) = fun i => if i < b.size then 0 else b.data i := by rw [c6, hz]
      rw [hd]
      have hI := h.updBuf c4 c5 (fun _ => 0)
      refine ⟨⟨h.noUb, hI.fresh, ⟨C.n, mu, some p, true⟩, by simp [St.setObj], Or.inr (Or.inl ⟨hp, rfl, p, _, rfl, upd_self .., c5, c6.trans hz, fun q hq => ?_⟩),
        fun q b' hb hu => ?_⟩, ⟨⟨C.n, mu, some p, true⟩, by simp [St.setObj], rfl, rfl⟩, fun q b' hb hu => ?_⟩
      · have hq : b.size ≤ q := hq
        show (if q < b.size then 0 else b.data q) = 0
        rw [if_neg (by omega), c7 q hq]
      · have hb : Function.update s.heap p _ q = some b' := hb
        by_cases e : q = p
        · exact ⟨by rw [e], rfl⟩
        · rw [Function.update_of_ne e] at hb
          have := (hl q b' hb hu).1
          rw [c3] at this; cases this
          exact absurd rfl e
      · show Function.update s.heap p _ q = some b'
        rw [Function.update_of_ne (hne q b' hb hu), hb]
    · rw [if_pos ⟨by rw [c3]; rfl, c2, hz⟩, c3, delete_some c4 c5]
      simp only [St.alloc]
      rw [fillAt_some (b := ⟨C.n * mu, false, fun _ => 0⟩) (upd_self ..) le_rfl]
      simp only [St.setObj, ite_self, Function.update_idem]
      refine ⟨BInv.newBuf (s := { s with heap := Function.update s.heap p none }) h.noUb (fun q hq => ?_) (fun q b' hb => ?_) hp C.n mu, ⟨⟨C.n, mu, some s.next, true⟩, upd_self .., rfl, rfl⟩,
        fun q b' hb hu => ?_⟩
      · show Function.update s.heap p none q = none
        by_cases e : q = p
        · rw [e, Function.update_self]
        · rw [Function.update_of_ne e]; exact h.fresh q hq
      · have hb : Function.update s.heap p none q = some b' := hb
        by_cases e : q = p
        · rw [e, Function.update_self] at hb; cases hb
        · rw [Function.update_of_ne e] at hb
          by_contra hu
          have := (hl q b' hb (by simpa using hu)).1
          rw [c3] at this; cases this
          exact e rfl
      · show Function.update (Function.update s.heap p none) s.next _ q = some b'
        rw [Function.update_of_ne, Function.update_of_ne (hne q b' hb hu), hb]
        rintro rfl
        rw [h.fresh _ le_rfl] at hb; cases hb
  · rw [hp] at c1; cases c1

/-- With permutation: after the resize, both versions. -/
theorem perm_spec (h : BInv C s) (hp : C.usePerm = true) {b x mu : ℕ} {bb bx : Blk R} (hb : s.heap b = some bb) (hx : s.heap x = some bx)
    (ub : bb.user = true) (ux : bx.user = true) (sb : C.n * mu ≤ bb.size) (sx : C.n * mu ≤ bx.size) :
    let s1 := ensure C s mu
    let r := (innerSolve C (transfer s1 (C.n * mu) (some b) (bufObj s1).ptr (colsIn C mu))).map fun s => transfer s (C.n * mu) (bufObj s).ptr (some x) (colsOut C mu)
    (C.result mu bb.data bx.data = none → r = none) ∧ ∀ y, C.result mu bb.data bx.data = some y → ∃ s', r = some s' ∧ BInv C s' ∧
      s'.heap x = some { bx with data := fun q => if q < C.n * mu then y q else bx.data q } ∧
      ∀ p c, p ≠ x → s.heap p = some c → c.user = true → s'.heap p = some c := by
  obtain ⟨e1, ⟨O, ho, on, oc⟩, e3⟩ := ensure_perm h hp mu
  intro s1
  change BInv C s1 at e1
  change s1.objs 0 = some O at ho
  change ∀ p b, s.heap p = some b → b.user = true → s1.heap p = some b at e3
  obtain ⟨O', ho', hc, hl⟩ := e1.obj
  rw [ho] at ho'
  cases ho'
  have key : ∀ Y : Mat R, ∃ (s2 : St R), BInv C s2 ∧ s2.objs 0 = some O ∧ s2.content 0 O.ptr = colsIn C mu bb.data (fun _ => 0) ∧
      transfer s1 (C.n * mu) (some b) (bufObj s1).ptr (colsIn C mu) = s2 ∧
      ∃ s', transfer (transfer s2 (C.n * mu) O.ptr O.ptr fun _ _ => Y.data) (C.n * mu) O.ptr (some x) (colsOut C mu) = s' ∧
        (transfer s2 (C.n * mu) O.ptr O.ptr fun _ _ => Y.data).objs = s2.objs ∧ BInv C s' ∧
        s'.heap x = some { bx with data := fun q => if q < C.n * mu then colsOut C mu Y.data bx.data q else bx.data q } ∧
        ∀ p c, p ≠ x → s.heap p = some c → c.user = true → s'.heap p = some c := by
    intro Y
    rw [bufObj_some ho]
    by_cases hz : C.n * mu = 0
    · refine ⟨s1, e1, ho, ?_, by rw [hz, transfer_zero], s1, by rw [hz, transfer_zero, transfer_zero], by rw [hz, transfer_zero], e1, ?_, fun p c _ hc hu => e3 p c hc hu⟩
      · have e : colsIn C mu bb.data (fun _ => 0) = fun _ => 0 := by
          funext q
          rw [colsIn_eq, if_neg (by omega)]
        rw [e]
        rcases hc with ⟨c1, -⟩ | ⟨-, -, p, b, c3, c4, -, c6, c7⟩ | ⟨c1, -⟩
        · rw [c1]; rfl
        · rw [c3, content_some c4]
          funext q
          exact c7 q (by rw [c6, on, oc, hz]; exact Nat.zero_le _)
        · rw [hp] at c1; cases c1
      · rw [e3 x bx hx ux, hz]
        simp
    · rcases hc with ⟨-, c1⟩ | ⟨-, c2, p, c, c3, c4, c5, c6, c7⟩ | ⟨c1, -⟩
      · rw [on, oc] at c1; exact absurd c1 hz
      · rw [on, oc] at c6
        obtain ⟨csz, cu, cd⟩ := c
        simp only at c5 c6 c7
        subst c6
        subst c5
        have px : p ≠ x := by rintro rfl; rw [e3 _ bx hx ux] at c4; cases c4; cases ux
        have t1 := transfer_some (e3 b bb hb ub) c4 sb le_rfl (colsIn C mu)
        have b1 := e1.updBuf c4 rfl (colsIn C mu bb.data cd)
        dsimp only at b1 t1
        rw [c3, t1]
        refine ⟨_, b1, ho, ?_, rfl, ?_⟩
        · rw [content_some (upd_self ..)]
          funext q
          show (if q < C.n * mu then _ else cd q) = _
          rw [colsIn_eq, colsIn_eq]
          by_cases hq : q < C.n * mu
          · rw [if_pos hq, if_pos hq, if_pos hq]
          · rw [if_neg hq, if_neg hq, c7 q (by omega)]
        · rw [transfer_some (p := p) (q := p) (k := C.n * mu) (a := ⟨C.n * mu, false, fun i => if i < C.n * mu then colsIn C mu bb.data cd i else cd i⟩)
            (b := ⟨C.n * mu, false, fun i => if i < C.n * mu then colsIn C mu bb.data cd i else cd i⟩) (upd_self ..) (upd_self ..) le_rfl le_rfl]
          simp only [Function.update_idem]
          have b2 := b1.updBuf (upd_self ..) rfl Y.data
          simp only [Function.update_idem] at b2
          rw [transfer_some (k := C.n * mu) (a := ⟨C.n * mu, false, fun i => if i < C.n * mu then Y.data i else if i < C.n * mu then colsIn C mu bb.data cd i else cd i⟩) (upd_self ..) (b := bx) ((Function.update_of_ne px.symm ..).trans (e3 x bx hx ux)) le_rfl sx]
          refine ⟨_, rfl, trivial, ?_, ?_, ?_⟩
          · exact b2.updUser ((Function.update_of_ne px.symm ..).trans (e3 x bx hx ux)) ux _
          · refine (Function.update_self ..).trans (congrArg some ?_)
            congr 1
            funext q
            refine if_congr Iff.rfl (congrFun (colsOut_congr C mu (fun i hi => ?_) _) q) rfl
            exact if_pos hi
          · intro q d hq hd hu
            have qp : q ≠ p := by rintro rfl; rw [e3 _ d hd hu] at c4; cases c4; cases hu
            exact (Function.update_of_ne hq ..).trans ((Function.update_of_ne qp ..).trans (e3 q d hd hu))
      · rw [hp] at c1; cases c1
  have hr : C.result mu bb.data bx.data = (C.inner ⟨C.n, mu, colsIn C mu bb.data (fun _ => 0)⟩).map fun Y => colsOut C mu Y.data bx.data := by
    unfold Cfg.result
    simp only [hp, if_true]
  have hi : ∀ s2 : St R, s2.objs 0 = some O → s2.content 0 O.ptr = colsIn C mu bb.data (fun _ => 0) → innerSolve C s2 =
      (C.inner ⟨C.n, mu, colsIn C mu bb.data (fun _ => 0)⟩).map fun Y => transfer s2 (C.n * mu) O.ptr O.ptr fun _ _ => Y.data := by
    intro s2 h1 h2
    unfold innerSolve
    rw [bufObj_some h1, h2, on, oc]
  rw [hr]
  cases hY : C.inner ⟨C.n, mu, colsIn C mu bb.data (fun _ => 0)⟩ with
  | none =>
    obtain ⟨s2, -, h2, h3, h4, -⟩ := key ⟨0, 0, fun _ => 0⟩
    refine ⟨fun _ => ?_, fun y hy => by simp at hy⟩
    rw [h4, hi s2 h2 h3, hY]
    rfl
  | some Y =>
    obtain ⟨s2, -, h2, h3, h4, s', h5, h6, h7, h8, h9⟩ := key Y
    refine ⟨fun hn => by simp at hn, fun y hy => ⟨s', ?_, h7, ?_, h9⟩⟩
    · rw [h4, hi s2 h2 h3, hY]
      simp only [Option.map_some]
      rw [bufObj_some (h6 ▸ h2), h5]
    · simp only [Option.map_some, Option.some.injEq] at hy
      rw [← hy]
      exact h8

/-- Without permutation: the buffer becomes a view of `x`. -/
theorem assign_view (h : BInv C s) (hp : C.usePerm = false) (x mu : ℕ) :
    stepR s (.assign 0 C.n mu x false) = ⟨Function.update s.objs 0 (some ⟨C.n, mu, some x, false⟩), s.heap, s.next, s.ub⟩ := by
  obtain ⟨O, ho, hc, -⟩ := h.obj
  unfold stepR step
  simp only [ho]
  have hn : ¬ (0 < O.nr * O.nc ∧ O.owning = true) := by
    rcases hc with ⟨-, c⟩ | ⟨c, -⟩ | ⟨-, c, -⟩
    · rw [c]; simp
    · rw [hp] at c; cases c
    · rw [c]; simp
  rw [if_neg hn]
  rfl

/-- Without permutation: the resize and the view. -/
theorem ensure_view (h : BInv C s) (hp : C.usePerm = false) {mu : ℕ} (hmu : 0 < mu) (x : ℕ) :
    ∃ m, s.next ≤ m ∧ stepR (ensure C s mu) (.assign 0 C.n mu x false) = ⟨Function.update s.objs 0 (some ⟨C.n, mu, some x, false⟩), s.heap, m, s.ub⟩ := by
  obtain ⟨O, ho, hc, hl⟩ := h.obj
  unfold ensure
  rw [bufObj_some ho]
  by_cases hsz : O.nr ≠ C.n ∨ O.nc ≠ mu
  swap
  · rw [if_neg hsz]
    exact ⟨s.next, le_rfl, assign_view h hp x mu⟩
  rw [if_pos hsz]
  have hnew : ¬ (O.ptr.isSome = true ∧ O.owning = true ∧ O.nr * O.nc ≠ C.n * mu) := by
    rcases hc with ⟨c, -⟩ | ⟨c, -⟩ | ⟨-, c, -⟩
    · rw [c]; simp
    · rw [hp] at c; cases c
    · rw [c]; simp
  by_cases hz : O.nr * O.nc = C.n * mu
  · have h0 : C.n * mu = 0 := by
      rcases hc with ⟨-, c⟩ | ⟨c, -⟩ | ⟨-, -, c⟩
      · rw [← hz, c]
      · rw [hp] at c; cases c
      · rcases Nat.eq_zero_or_pos C.n with h1 | h1
        · rw [h1, Nat.zero_mul]
        · rw [c] at hz
          have := Nat.eq_of_mul_eq_mul_left h1 hz
          rcases hsz with h2 | h2
          · exact absurd c h2
          · exact absurd this h2
    refine ⟨s.next, le_rfl, ?_⟩
    have e : stepR s (.resize 0 C.n mu 0) = s.setObj 0 (some ⟨C.n, mu, O.ptr, true⟩) := by
      unfold stepR step
      simp only [ho]
      rw [if_neg hnew, if_neg (fun h => h hz), h0, fillAt_zero]
    rw [e]
    unfold stepR step
    simp only [St.setObj, Function.update_self, h0, Nat.lt_irrefl, false_and, if_false, Bool.false_eq_true, Function.update_idem]
  · refine ⟨s.next + 1, Nat.le_succ _, ?_⟩
    have e : stepR s (.resize 0 C.n mu 0) = ⟨Function.update s.objs 0 (some ⟨C.n, mu, some s.next, true⟩),
        Function.update s.heap s.next (some ⟨C.n * mu, false, fun _ => 0⟩), s.next + 1, s.ub⟩ := by
      unfold stepR step
      simp only [ho]
      rw [if_neg hnew, if_pos hz]
      simp only [St.alloc]
      rw [fillAt_some (b := ⟨C.n * mu, false, fun _ => 0⟩) (upd_self ..) le_rfl]
      simp only [St.setObj, ite_self, Function.update_idem]
    have hpos : 0 < C.n * mu := by
      rcases Nat.eq_zero_or_pos C.n with h1 | h1
      · rcases hc with ⟨-, c⟩ | ⟨c, -⟩ | ⟨-, -, c⟩
        · rw [c, h1, Nat.zero_mul] at hz; exact absurd rfl hz
        · rw [hp] at c; cases c
        · rw [c, h1, Nat.zero_mul, Nat.zero_mul] at hz; exact absurd rfl hz
      · exact Nat.mul_pos h1 hmu
    rw [e]
    unfold stepR step
    simp only [Function.update_self, hpos, and_self, if_true, Bool.false_eq_true, if_false]
    rw [delete_some (b := ⟨C.n * mu, false, fun _ => 0⟩) (upd_self ..) rfl]
    simp only [St.setObj, Function.update_idem]
    congr 1
    rw [← h.fresh s.next le_rfl, Function.update_eq_self]

/-- The invariant when the buffer is a view. -/
theorem BInv.view (h : BInv C s) (hp : C.usePerm = false) {m : ℕ} (hm : s.next ≤ m) (x mu : ℕ) :
    BInv C ⟨Function.update s.objs 0 (some ⟨C.n, mu, some x, false⟩), s.heap, m, s.ub⟩ := by
  obtain ⟨O, ho, hc, hl⟩ := h.obj
  refine ⟨h.noUb, fun p hp => h.fresh p (hm.trans hp), ⟨C.n, mu, some x, false⟩, by simp, Or.inr (Or.inr ⟨hp, rfl, rfl⟩), fun p b hb hu => ?_⟩
  obtain ⟨l1, l2⟩ := hl p b hb hu
  rcases hc with ⟨c, -⟩ | ⟨c, -⟩ | ⟨-, c, -⟩
  · rw [c] at l1; cases l1
  · rw [hp] at c; cases c
  · rw [c] at l2; cases l2

/-- Without permutation: the solver in a view of `x`, whose first values are those of `v`. -/
theorem view_spec (h : BInv C s) (hp : C.usePerm = false) {x mu : ℕ} {bx : Blk R} (ho : s.objs 0 = some ⟨C.n, mu, some x, false⟩) (hx : s.heap x = some bx)
    (ux : bx.user = true) (sx : C.n * mu ≤ bx.size) (b x0 : Buf R) (hd : bx.data = copyN (mu * C.n) b x0) :
    (C.result mu b x0 = none → innerSolve C s = none) ∧ ∀ y, C.result mu b x0 = some y → ∃ s', innerSolve C s = some s' ∧ BInv C s' ∧
      s'.heap x = some { bx with data := fun q => if q < C.n * mu then y q else x0 q } ∧
      ∀ p, p ≠ x → s'.heap p = s.heap p := by
  unfold innerSolve Cfg.result
  rw [bufObj_some ho, content_some hx, hd]
  simp only [hp, Bool.false_eq_true, if_false]
  cases hY : C.inner ⟨C.n, mu, copyN (mu * C.n) b x0⟩ with
  | none => exact ⟨fun _ => rfl, fun y hy => by simp at hy⟩
  | some Y =>
    refine ⟨fun hn => by simp at hn, fun y hy => ⟨_, rfl, ?_, ?_, ?_⟩⟩
    · beta_reduce
      rw [transfer_some hx hx sx sx]
      exact h.updUser hx ux _
    · beta_reduce
      rw [transfer_some hx hx sx sx]
      simp only [Option.map_some, Option.some.injEq] at hy
      rw [← hy]
      show Function.update _ x _ x = _
      rw [Function.update_self, hd]
      refine congrArg some ?_
      congr 1
      funext q
      unfold copyN
      rw [Nat.mul_comm mu]
      split_ifs <;> rfl
    · intro p hne
      beta_reduce
      rw [transfer_some hx hx sx sx]
      exact Function.update_of_ne hne ..

/-- `solve(b, x, mu)`. -/
theorem solve2_spec (h : BInv C s) {b x mu : ℕ} {bb bx : Blk R} (hb : s.heap b = some bb) (hx : s.heap x = some bx)
    (ub : bb.user = true) (ux : bx.user = true) (sb : C.n * mu ≤ bb.size) (sx : C.n * mu ≤ bx.size) (hmu : C.usePerm = false → 0 < mu) :
    (C.result mu bb.data bx.data = none → solve2 C s b x mu = none) ∧ ∀ y, C.result mu bb.data bx.data = some y → ∃ s', solve2 C s b x mu = some s' ∧ BInv C s' ∧
      s'.heap x = some { bx with data := fun q => if q < C.n * mu then y q else bx.data q } ∧
      ∀ p c, p ≠ x → s.heap p = some c → c.user = true → s'.heap p = some c := by
  by_cases hp : C.usePerm = true
  · have := perm_spec h hp hb hx ub ux sb sx
    unfold solve2
    simp only [hp, if_true]
    exact this
  · have hp' : C.usePerm = false := by simpa using hp
    obtain ⟨m, hm, e⟩ := ensure_view h hp' (hmu hp') x
    have i1 := h.view hp' hm x mu
    unfold solve2
    simp only [hp', Bool.false_eq_true, if_false]
    rw [e, bufObj_some (O := ⟨C.n, mu, some x, false⟩) (by simp)]
    simp only
    rw [transfer_some (s := ⟨Function.update s.objs 0 (some ⟨C.n, mu, some x, false⟩), s.heap, m, s.ub⟩) (p := b) (q := x) (k := mu * C.n) (a := bb) (b := bx) hb hx (by rw [Nat.mul_comm]; exact sb) (by rw [Nat.mul_comm]; exact sx)]
    have i2 := i1.updUser hx ux (fun i => if i < mu * C.n then bb.data i else bx.data i)
    obtain ⟨v1, v2⟩ := view_spec i2 hp' (x := x) (mu := mu) (by simp) (upd_self ..) ux sx bb.data bx.data rfl
    refine ⟨fun hn => by rw [v1 hn]; rfl, fun y hy => ?_⟩
    obtain ⟨s', a1, a2, a3, a4⟩ := v2 y hy
    refine ⟨s', by rw [a1]; rfl, a2, a3, fun p c hne hc _ => ?_⟩
    rw [a4 p hne]
    show Function.update _ x _ p = _
    rw [Function.update_of_ne hne]
    exact hc

/-- `solve(b, mu)`. -/
theorem solve1_spec (h : BInv C s) {b mu : ℕ} {bb : Blk R} (hb : s.heap b = some bb) (ub : bb.user = true) (sb : C.n * mu ≤ bb.size) :
    (C.result mu bb.data bb.data = none → solve1 C s b mu = none) ∧ ∀ y, C.result mu bb.data bb.data = some y → ∃ s', solve1 C s b mu = some s' ∧ BInv C s' ∧
      s'.heap b = some { bb with data := fun q => if q < C.n * mu then y q else bb.data q } ∧
      ∀ p c, p ≠ b → s.heap p = some c → c.user = true → s'.heap p = some c := by
  by_cases hp : C.usePerm = true
  · have := perm_spec h hp hb hb ub ub sb sb
    unfold solve1
    simp only [hp, if_true]
    exact this
  · have hp' : C.usePerm = false := by simpa using hp
    have i1 := h.view hp' le_rfl b mu
    unfold solve1
    simp only [hp', Bool.false_eq_true, if_false]
    rw [assign_view h hp' b mu]
    obtain ⟨v1, v2⟩ := view_spec i1 hp' (x := b) (mu := mu) (by simp) hb ub sb bb.data bb.data (by funext q; unfold copyN; rw [ite_self])
    refine ⟨fun hn => by rw [v1 hn]; rfl, fun y hy => ?_⟩
    obtain ⟨s', a1, a2, a3, a4⟩ := v2 y hy
    exact ⟨s', by rw [a1]; rfl, a2, a3, fun p c hne hc _ => by rw [a4 p hne]; exact hc⟩

theorem binv_start : BInv C (stepR init (.default 0)) := by
  refine ⟨rfl, fun _ _ => rfl, ⟨0, 0, none, true⟩, by simp [stepR, step, St.setObj], Or.inl ⟨rfl, rfl⟩, fun p b hb => ?_⟩
  have : (none : Option (Blk R)) = some b := hb
  cases this

theorem binv_step {s' : St R} (e : Ev R) (h : BInv C s) (ha : e.Allowed C s) (he : exec C s e = some s') : BInv C s' := by
  cases e with
  | user n d =>
    cases he
    obtain ⟨O, ho, hc, hl⟩ := h.obj
    have hne : ∀ p b, s.heap p = some b → p ≠ s.next := by
      rintro p b hb rfl
      rw [h.fresh _ le_rfl] at hb; cases hb
    refine ⟨h.noUb, fun p hp => ?_, O, ho, ?_, fun p b hb hu => ?_⟩
    · have hp : s.next + 1 ≤ p := hp
      show Function.update s.heap s.next _ p = none
      rw [Function.update_of_ne (by omega)]
      exact h.fresh p (by omega)
    · rcases hc with hc | ⟨c1, c2, p, b, c3, c4, c5⟩ | hc
      · exact Or.inl hc
      · exact Or.inr (Or.inl ⟨c1, c2, p, b, c3, (Function.update_of_ne (hne p b c4) ..).trans c4, c5⟩)
      · exact Or.inr (Or.inr hc)
    · have hb : Function.update s.heap s.next _ p = some b := hb
      by_cases e : p = s.next
      · rw [e, Function.update_self] at hb; cases hb; cases hu
      · rw [Function.update_of_ne e] at hb
        exact hl p b hb hu
  | write p d =>
    obtain ⟨b, hb, hu, -⟩ := ha
    unfold exec at he
    cases he
    rw [hb]
    exact h.updUser hb hu d
  | free p =>
    obtain ⟨b, hb, hu, -⟩ := ha
    cases he
    obtain ⟨O, ho, hc, hl⟩ := h.obj
    refine ⟨h.noUb, fun q hq => ?_, O, ho, ?_, fun q b' hb' hu' => ?_⟩
    · show Function.update s.heap p none q = none
      by_cases e : q = p
      · rw [e, Function.update_self]
      · rw [Function.update_of_ne e]; exact h.fresh q hq
    · rcases hc with hc | ⟨c1, c2, p', b', c3, c4, c5, c6⟩ | hc
      · exact Or.inl hc
      · refine Or.inr (Or.inl ⟨c1, c2, p', b', c3, (Function.update_of_ne ?_ ..).trans c4, c5, c6⟩)
        rintro rfl
        rw [hb] at c4; cases c4; rw [hu] at c5; cases c5
      · exact Or.inr (Or.inr hc)
    · have hb' : Function.update s.heap p none q = some b' := hb'
      by_cases e : q = p
      · rw [e, Function.update_self] at hb'; cases hb'
      · rw [Function.update_of_ne e] at hb'
        exact hl q b' hb' hu'
  | solve1 b mu =>
    obtain ⟨⟨bb, hb, ub, sb⟩, -⟩ := ha
    obtain ⟨v1, v2⟩ := solve1_spec h hb ub sb
    have he : solve1 C s b mu = some s' := he
    cases hr : C.result mu bb.data bb.data with
    | none => rw [v1 hr] at he; cases he
    | some y =>
      obtain ⟨s'', a1, a2, -⟩ := v2 y hr
      rw [a1] at he; cases he; exact a2
  | solve2 b x mu =>
    obtain ⟨⟨bb, hb, ub, sb⟩, ⟨bx, hx, ux, sx⟩, hmu⟩ := ha
    obtain ⟨v1, v2⟩ := solve2_spec h hb hx ub ux sb sx hmu
    have he : solve2 C s b x mu = some s' := he
    cases hr : C.result mu bb.data bx.data with
    | none => rw [v1 hr] at he; cases he
    | some y =>
      obtain ⟨s'', a1, a2, -⟩ := v2 y hr
      rw [a1] at he; cases he; exact a2

theorem Reach.binv (h : Reach C s) : BInv C s := by
  induction h with
  | start => exact binv_start
  | event e _ ha he ih => exact binv_step e ih ha he

end Htool.SolverBuf
