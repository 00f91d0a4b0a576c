import Verif.TwoLevel
import Verif.Props.Geneo
import Verif.Props.GeneoBuilder

/-! # C78: the two-level set-up

A user builds a `DDM` object, factorises the local problems, builds a coarse space and solves, possibly several times. The theorems say what the vectors and the coarse
matrix given to HPDDM are after any history of calls, and when the history is defined. -/

namespace Htool.TwoLevel
open Finset
open scoped ComplexOrder

variable {R : Type*}

/-! ## Specification -/

/-- The coarse spaces built by a history, in order. -/
def spaces (l : List (Op R)) : List (ℕ → Mat R) := l.filterMap fun o => match o with | .coarseSpace Z => some Z | _ => none

/-- The matrices have one row for each unknown of the subdomain with its overlap. -/
def Sized (D : DOp R) (X : Subdomains) (Z : ℕ → Mat R) : Prop := ∀ r < D.P, (Z r).nr = X.N r

/-- Column `j` of the matrix of process `r`, as a vector of the whole problem in the numbering of the partition: the values at the unknowns owned by the process, zero
elsewhere. -/
def extended [Zero R] (D : DOp R) (Z : ℕ → Mat R) (r j a : ℕ) : R :=
  if D.tgt.off r ≤ a ∧ a < D.tgt.off r + D.tgt.size r then (Z r).get (a - D.tgt.off r) j else 0

/-- Calls of `solve` made after a coarse space was built and before any factorisation; the flags say whether each has happened. -/
def early : Bool → Bool → List (Op R) → ℕ
  | _, _, [] => 0
  | _, two, .facto :: l => early true two l
  | one, _, .coarseSpace _ :: l => early one true l
  | one, two, .solve :: l => (if two ∧ ¬ one then 1 else 0) + early one two l
  | one, two, .clean :: l => early one two l

/-- The call needs the operator destroyed by `clean`. -/
def Op.needs : Op R → Bool
  | .clean => false
  | _ => true

/-- No call needing the operator comes after a call of `clean`. -/
def CleanLast : List (Op R) → Prop
  | [] => True
  | .clean :: l => (∀ o ∈ l, o.needs = false) ∧ CleanLast l
  | _ :: l => CleanLast l

/-! ## Proofs -/

variable [CommRing R] [StarRing R] {D : DOp R} {X : Subdomains}

omit [CommRing R] [StarRing R] in
theorem inBounds_of_sized {n m : ℕ} {Z : Mat R} (h : Z.nr = n) (hm : m ≤ n) : InBounds n m Z := by
  intro j hj k hk
  subst h
  calc j * Z.nr + k < (j + 1) * Z.nr := by rw [Nat.succ_mul]; omega
    _ ≤ Z.nc * Z.nr := Nat.mul_le_mul_right _ hj
    _ = Z.nr * Z.nc := Nat.mul_comm _ _

/-- What is known after a history `l` (in reverse order of the calls, here as a list ending with the last one). -/
structure After (D : DOp R) (X : Subdomains) (M : ℕ → ℕ → R) (l : List (Op R)) (s : St R) : Prop where
  one : s.oneLevel = true ↔ .facto ∈ l
  two : s.twoLevel = true ↔ spaces l ≠ []
  none : spaces l = [] → s.coarse = none ∧ s.size = none ∧ ∀ r, s.nevi r = 0
  nevi : ∀ Z, (spaces l).getLast? = some Z → ∀ r, s.nevi r = (Z r).nc
  vecs : ∀ Z, (spaces l).getLast? = some Z → ∀ r < D.P, ∀ j < (Z r).nc, ∀ k < X.N r, s.vecs r j k = (Z r).get k j
  size : ∀ Z, (spaces l).getLast? = some Z → s.size = some (∑ r ∈ range D.P, (Z r).nc)
  coarse : ∀ Z, (spaces l).getLast? = some Z → ∃ E, s.coarse = some (∑ r ∈ range D.P, (Z r).nc, E) ∧
    ∀ i < D.P, ∀ j < (Z i).nc, ∀ r < D.P, ∀ jj < (Z r).nc,
      E (∑ q ∈ range i, (Z q).nc + j) (∑ q ∈ range r, (Z q).nc + jj) =
        ∑ a ∈ range D.tgt.n, ∑ b ∈ range D.tgt.n, extended D Z r jj a * M a b * (if D.sym = .H then star (extended D Z i j b) else extended D Z i j b)

theorem displs_sum (c : ℕ → ℕ) (n : ℕ) : displs c n = ∑ r ∈ range n, c r := by
  induction n with
  | zero => rfl
  | succ n ih => rw [displs, ih, Finset.sum_range_succ]

theorem after_step {M : ℕ → ℕ → R} (h : D.tgt.OK D.P) (hS : D.SubOK M)
    (hX : ∀ r < D.P, D.tgt.size r ≤ X.N r) {l : List (Op R)} {s s' : St R} {o : Op R} (hs : After D X M l s)
    (ho : ∀ Z, o = .coarseSpace Z → Sized D X Z) (e : step D X s o = some s') : After D X M (l ++ [o]) s' := by
  have hsp : ∀ o : Op R, spaces (l ++ [o]) = spaces l ++ spaces [o] := fun o => List.filterMap_append
  cases o with
  | facto =>
    have e0 : spaces (l ++ [Op.facto (R := R)]) = spaces l := by rw [hsp]; exact List.append_nil _
    simp only [step] at e
    split at e
    · obtain rfl := Option.some.inj e
      refine ⟨by simp, ?_, ?_, ?_, ?_, ?_, ?_⟩ <;> rw [e0]
      exacts [hs.two, hs.none, hs.nevi, hs.vecs, hs.size, hs.coarse]
    · exact absurd e (by simp)
  | solve =>
    have e0 : spaces (l ++ [Op.solve (R := R)]) = spaces l := by rw [hsp]; exact List.append_nil _
    simp only [step] at e
    split at e
    · obtain rfl := Option.some.inj e
      refine ⟨by simpa using hs.one, ?_, ?_, ?_, ?_, ?_, ?_⟩ <;> rw [e0]
      exacts [hs.two, hs.none, hs.nevi, hs.vecs, hs.size, hs.coarse]
    · exact absurd e (by simp)
  | clean =>
    have e0 : spaces (l ++ [Op.clean (R := R)]) = spaces l := by rw [hsp]; exact List.append_nil _
    obtain rfl := Option.some.inj e
    refine ⟨by simpa using hs.one, ?_, ?_, ?_, ?_, ?_, ?_⟩ <;> rw [e0]
    exacts [hs.two, hs.none, hs.nevi, hs.vecs, hs.size, hs.coarse]
  | coarseSpace Z =>
    have e0 : spaces (l ++ [Op.coarseSpace Z]) = spaces l ++ [Z] := hsp _
    have hZ := ho Z rfl
    obtain ⟨E, hE, hEe⟩ := C49_entries h hS (fun r => (Z r).nc) (fun r => pointers (X.N r) (Z r))
    have hlast : ∀ Z', (spaces (l ++ [Op.coarseSpace Z])).getLast? = some Z' → Z = Z' := by
      intro Z' h'
      rw [e0, List.getLast?_concat] at h'
      exact Option.some.inj h'
    simp only [step] at e
    split at e
    case isFalse => exact absurd e (by simp)
    simp only [hE] at e
    obtain rfl := Option.some.inj e
    have hv : ∀ r < D.P, ∀ j, ∀ k < X.N r, pointers (X.N r) (Z r) j k = (Z r).get k j := by
      intro r hr j k _
      unfold pointers Buf.from' Mat.get
      rw [hZ r hr, Nat.add_comm]
    refine ⟨by simpa using hs.one, ?_, ?_, ?_, ?_, ?_, ?_⟩
    · simp [e0]
    · intro h'; rw [e0] at h'; exact absurd h' (by simp)
    · intro Z' h'; obtain rfl := hlast Z' h'; exact fun r => rfl
    · intro Z' h'; obtain rfl := hlast Z' h'; exact fun r hr j _ k hk => hv r hr j k hk
    · intro Z' h'; obtain rfl := hlast Z' h'; exact congrArg some (displs_sum _ _)
    · intro Z' h'
      obtain rfl := hlast Z' h'
      refine ⟨E, by rw [displs_sum], fun i hi j hj r hr jj hjj => ?_⟩
      have := hEe i hi j hj r hr jj hjj
      rw [displs_sum, displs_sum] at this
      rw [this, coarseEntry]
      refine Finset.sum_congr rfl fun a _ => Finset.sum_congr rfl fun b _ => ?_
      have hc : ∀ q < D.P, ∀ j a, coarseVec D (fun r => pointers (X.N r) (Z r)) q j a = extended D Z q j a := by
        intro q hq j a
        unfold coarseVec extended
        split
        · rename_i h1
          exact hv q hq j _ (by have := hX q hq; omega)
        · rfl
      rw [hc i hi, hc r hr]

theorem after_run {M : ℕ → ℕ → R} (h : D.tgt.OK D.P) (hS : D.SubOK M)
    (hX : ∀ r < D.P, D.tgt.size r ≤ X.N r) (l' : List (Op R)) : ∀ (l : List (Op R)) (s s' : St R), After D X M l s →
    (∀ Z ∈ spaces l', Sized D X Z) → run D X s l' = some s' → After D X M (l ++ l') s' := by
  induction l' with
  | nil => intro l s s' hs _ e; obtain rfl := Option.some.inj e; simpa using hs
  | cons o l' ih =>
    intro l s s' hs hz e
    unfold run at e
    obtain ⟨s1, e1, e2⟩ := Option.bind_eq_some_iff.1 e
    have := ih (l ++ [o]) s1 s' (after_step h hS hX hs (fun Z hZ => hz Z (by subst hZ; simp [spaces])) e1) (fun Z hZ => hz Z (by
      unfold spaces at hZ ⊢
      rw [List.filterMap_cons]
      split
      · exact hZ
      · exact List.mem_cons_of_mem _ hZ)) e2
    simpa using this

/-- **C78 (any operator).** After any history of calls on a two-level solver, the vectors and the coarse matrix which HPDDM has are those of the last coarse space: on each
process the vectors are the columns of the matrix returned by the builder, `get_nevi` is their number, the coarse matrix has one row and one column for each vector of each
process, and the entry of row `z` and column `z'` is `z'ᵀ A z`, where the vectors are extended by zero outside of the unknowns owned by their process and, for a hermitian
operator, `z` is conjugated. Without any coarse space nothing is given to HPDDM. -/
theorem C78_any_operator {M : ℕ → ℕ → R} (h : D.tgt.OK D.P) (hS : D.SubOK M)
    (hX : ∀ r < D.P, D.tgt.size r ≤ X.N r) {l : List (Op R)} (hz : ∀ Z ∈ spaces l, Sized D X Z) {s : St R} (e : run D X St.init l = some s) :
    (spaces l = [] → s.coarse = none ∧ s.size = none ∧ ∀ r, s.nevi r = 0) ∧
    ∀ Z, (spaces l).getLast? = some Z →
      (∀ r, s.nevi r = (Z r).nc) ∧
      (∀ r < D.P, ∀ j < (Z r).nc, ∀ k < X.N r, s.vecs r j k = (Z r).get k j) ∧
      s.size = some (∑ r ∈ range D.P, (Z r).nc) ∧
      ∃ E, s.coarse = some (∑ r ∈ range D.P, (Z r).nc, E) ∧
        ∀ i < D.P, ∀ j < (Z i).nc, ∀ r < D.P, ∀ jj < (Z r).nc,
          E (∑ q ∈ range i, (Z q).nc + j) (∑ q ∈ range r, (Z q).nc + jj) =
            ∑ a ∈ range D.tgt.n, ∑ b ∈ range D.tgt.n, extended D Z r jj a * M a b *
              (if D.sym = .H then star (extended D Z i j b) else extended D Z i j b) := by
  have hi : After D X M [] (St.init : St R) := by
    refine ⟨by simp [St.init], by simp [St.init, spaces], fun _ => ⟨rfl, rfl, fun _ => rfl⟩, ?_, ?_, ?_, ?_⟩ <;>
      exact fun Z hZ => absurd hZ (by simp [spaces])
  have := after_run h hS hX l [] _ _ hi hz e
  rw [List.nil_append] at this
  exact ⟨this.none, fun Z hZ => ⟨this.nevi Z hZ, this.vecs Z hZ, this.size Z hZ, this.coarse Z hZ⟩⟩

/-- **C78.** After any history of calls on a two-level solver for a real symmetric operator, the vectors and the coarse matrix which HPDDM has are those of the last coarse
space: on each process the vectors are the columns of the matrix returned by the builder, `get_nevi` is their number, the coarse matrix has one row and one column for each
vector of each process, and its entries are `zᵀ A z'` where the vectors are extended by zero outside of the unknowns owned by their process. Without any coarse space nothing
is given to HPDDM. -/
theorem C78_two_level {M : ℕ → ℕ → R} (h : D.tgt.OK D.P) (hS : D.SubOK M) (hR : RealType R) (hsym : ∀ a < D.tgt.n, ∀ b < D.tgt.n, M a b = M b a)
    (hX : ∀ r < D.P, D.tgt.size r ≤ X.N r) {l : List (Op R)} (hz : ∀ Z ∈ spaces l, Sized D X Z) {s : St R} (e : run D X St.init l = some s) :
    (spaces l = [] → s.coarse = none ∧ s.size = none ∧ ∀ r, s.nevi r = 0) ∧
    ∀ Z, (spaces l).getLast? = some Z →
      (∀ r, s.nevi r = (Z r).nc) ∧
      (∀ r < D.P, ∀ j < (Z r).nc, ∀ k < X.N r, s.vecs r j k = (Z r).get k j) ∧
      s.size = some (∑ r ∈ range D.P, (Z r).nc) ∧
      ∃ E, s.coarse = some (∑ r ∈ range D.P, (Z r).nc, E) ∧
        ∀ i < D.P, ∀ j < (Z i).nc, ∀ r < D.P, ∀ jj < (Z r).nc,
          E (∑ q ∈ range i, (Z q).nc + j) (∑ q ∈ range r, (Z q).nc + jj) =
            ∑ a ∈ range D.tgt.n, ∑ b ∈ range D.tgt.n, extended D Z i j a * M a b * extended D Z r jj b := by
  refine ⟨(C78_any_operator h hS hX hz e).1, fun Z hZ => ?_⟩
  obtain ⟨h1, h2, h3, E, h4, h5⟩ := (C78_any_operator h hS hX hz e).2 Z hZ
  refine ⟨h1, h2, h3, E, h4, fun i hi j hj r hr jj hjj => ?_⟩
  rw [h5 i hi j hj r hr jj hjj, Finset.sum_comm]
  refine Finset.sum_congr rfl fun a ha => Finset.sum_congr rfl fun b hb => ?_
  have hR' : ∀ x : R, star x = x := hR
  rw [hR', ite_self, hsym b (Finset.mem_range.1 hb) a (Finset.mem_range.1 ha)]
  ring

/-- A call is defined when the operator exists or is not needed. -/
theorem step_defined {M : ℕ → ℕ → R} (h : D.tgt.OK D.P) (hS : D.SubOK M) (hX : ∀ r < D.P, D.tgt.size r ≤ X.N r) (s : St R) (o : Op R)
    (ho : ∀ Z, o = .coarseSpace Z → Sized D X Z) : (∃ s', step D X s o = some s' ∧
      (s'.alive = true ↔ s.alive = true ∧ o.needs = true)) ↔ (o.needs = true → s.alive = true) := by
  cases o with
  | facto => cases hb : s.alive <;> simp [step, Op.needs, hb]
  | solve => cases hb : s.alive <;> simp [step, Op.needs, hb]
  | clean => simp [step, Op.needs]
  | coarseSpace Z =>
    obtain ⟨E, hE, -⟩ := C49_entries h hS (fun r => (Z r).nc) (fun r => pointers (X.N r) (Z r))
    have hb : ∀ r < D.P, InBounds (X.N r) (D.tgt.size r) (Z r) := fun r hr => inBounds_of_sized (ho Z rfl r hr) (hX r hr)
    cases hb' : s.alive
    · simp [step, Op.needs, hb']
    · refine ⟨fun _ _ => rfl, fun _ => ?_⟩
      simp only [step]
      rw [if_pos ⟨hb', hb⟩]
      simp only [hE]
      exact ⟨_, rfl, by simp [Op.needs, hb']⟩

/-- **C78 (defined histories).** With matrices of the right size, a history of calls is defined exactly when nothing but `clean` is called after `clean`. -/
theorem C78_defined {M : ℕ → ℕ → R} (h : D.tgt.OK D.P) (hS : D.SubOK M) (hX : ∀ r < D.P, D.tgt.size r ≤ X.N r) {l : List (Op R)}
    (hz : ∀ Z ∈ spaces l, Sized D X Z) : (∃ s, run D X St.init l = some s) ↔ CleanLast l := by
  have sub : ∀ (o : Op R) (l : List (Op R)), (∀ Z ∈ spaces (o :: l), Sized D X Z) → (∀ Z, o = .coarseSpace Z → Sized D X Z) ∧ ∀ Z ∈ spaces l, Sized D X Z := by
    intro o l hz
    refine ⟨fun Z hZ => hz Z (by subst hZ; simp [spaces]), fun Z hZ => hz Z ?_⟩
    unfold spaces at hZ ⊢
    rw [List.filterMap_cons]
    split
    · exact hZ
    · exact List.mem_cons_of_mem _ hZ
  have dead : ∀ (l : List (Op R)) (s : St R), s.alive = false → (∀ Z ∈ spaces l, Sized D X Z) →
      ((∃ s', run D X s l = some s') ↔ ∀ o ∈ l, o.needs = false) := by
    intro l
    induction l with
    | nil => intro s _ _; simp [run]
    | cons o l ih =>
      intro s hs hz
      obtain ⟨z1, z2⟩ := sub o l hz
      have hd := step_defined h hS hX s o z1
      cases hn : o.needs
      · obtain ⟨s1, e1, a1⟩ := hd.2 (by simp [hn])
        simp only [run, e1, Option.bind_some, List.forall_mem_cons, hn, true_and]
        exact ih s1 (by simpa [hs] using a1) z2
      · have : step D X s o = none := by
          cases o <;> simp_all [step, Op.needs]
        simp [run, this, hn]
  have live : ∀ (l : List (Op R)) (s : St R), s.alive = true → (∀ Z ∈ spaces l, Sized D X Z) → ((∃ s', run D X s l = some s') ↔ CleanLast l) := by
    intro l
    induction l with
    | nil => intro s _ _; simp [run, CleanLast]
    | cons o l ih =>
      intro s hs hz
      obtain ⟨z1, z2⟩ := sub o l hz
      obtain ⟨s1, e1, a1⟩ := (step_defined h hS hX s o z1).2 (fun _ => hs)
      have e2 : (∃ s', run D X s (o :: l) = some s') ↔ ∃ s', run D X s1 l = some s' := by simp only [run, e1, Option.bind_some]
      rw [e2]
      cases hn : o.needs
      · have a2 : s1.alive = false := by simpa [hs, hn] using a1
        have : o = .clean := by cases o <;> simp_all [Op.needs]
        subst this
        rw [dead l s1 a2 z2]
        constructor
        · intro hl
          refine ⟨hl, ?_⟩
          clear * - hl
          induction l with
          | nil => trivial
          | cons o l ih =>
            rw [List.forall_mem_cons] at hl
            have : o = .clean := by cases o <;> simp_all [Op.needs]
            subst this
            exact ⟨hl.2, ih hl.2⟩
        · exact fun hl => hl.1
      · have a2 : s1.alive = true := a1.2 ⟨hs, hn⟩
        rw [ih s1 a2 z2]
        cases o <;> simp_all [Op.needs, CleanLast]
  exact live l _ rfl hz

/-- **C78 (missing factorisation).** The number of errors logged by `solve` is the number of calls made with a coarse space and without factorisation; in particular a call
made without either of them is silent. -/
theorem C78_errors {l : List (Op R)} {s : St R} (e : run D X St.init l = some s) : s.errors = early false false l := by
  have key : ∀ (l : List (Op R)) (s s' : St R), run D X s l = some s' → s'.errors = s.errors + early s.oneLevel s.twoLevel l := by
    intro l
    induction l with
    | nil => intro s s' e; obtain rfl := Option.some.inj e; rfl
    | cons o l ih =>
      intro s s' e
      obtain ⟨s1, e1, e2⟩ := Option.bind_eq_some_iff.1 e
      rw [ih s1 s' e2]
      cases o with
      | facto =>
        simp only [step] at e1
        split at e1
        · obtain rfl := Option.some.inj e1; rfl
        · exact absurd e1 (by simp)
      | solve =>
        simp only [step] at e1
        split at e1
        · obtain rfl := Option.some.inj e1
          simp only [early]
          rw [Nat.add_assoc]
          congr 2
          cases s.oneLevel <;> cases s.twoLevel <;> simp
        · exact absurd e1 (by simp)
      | clean => obtain rfl := Option.some.inj e1; rfl
      | coarseSpace Z =>
        simp only [step] at e1
        split at e1
        case isFalse => exact absurd e1 (by simp)
        obtain ⟨E, hE, e3⟩ := Option.bind_eq_some_iff.1 e1
        obtain rfl := Option.some.inj e3
        rfl
  have := key l _ _ e
  simpa [St.init] using this

/-! ## With the coarse space of GenEO -/

section geneo
open Matrix

/-- The vector `x` on the unknowns of the subdomain of process `r` (those owned by the process first), kept on the owned unknowns and extended by zero to the whole problem. -/
def ownExt (D : DOp ℝ) (X : Subdomains) (r : ℕ) (x : Fin (X.N r) → ℝ) (a : ℕ) : ℝ :=
  if h : D.tgt.off r ≤ a ∧ a < D.tgt.off r + D.tgt.size r ∧ a - D.tgt.off r < X.N r then x ⟨a - D.tgt.off r, h.2.2⟩ else 0

/-- **C78 (GenEO).** Real symmetric operator, GenEO with a given number `nu r` of vectors on each process: on each process the builder selects `B`-orthonormal eigenvectors of the
pencil `(D A D, B)` for the largest eigenvalues in modulus, and after any history whose last coarse space is this one, the coarse matrix is the Galerkin matrix of these
eigenvectors, weighted by the partition of unity and extended by zero. -/
theorem C78_geneo {D : DOp ℝ} {X : Subdomains} {M : ℕ → ℕ → ℝ} (h : D.tgt.OK D.P) (hS : D.SubOK M) (hsym : ∀ a < D.tgt.n, ∀ b < D.tgt.n, M a b = M b a)
    (A B : (r : ℕ) → Matrix (Fin (X.N r)) (Fin (X.N r)) ℝ) (Ai Bi : ℕ → Mat ℝ) (lower : ℕ → Bool) (sym : ℕ → HSym) (nu : ℕ → ℕ) (o : ℕ → GvOut ℝ) (oe : ℕ → GgevOut ℝ)
    (tiny : ℝ) (index : ℕ → List ℕ) (hin : ∀ r < D.P, GeneoInput (D.tgt.size r) (X.N r) (lower r) (A r) (B r) (Ai r) (Bi r)) (hA : ∀ r < D.P, (A r).IsHermitian)
    (hB : ∀ r < D.P, (B r).PosDef) (hs : ∀ r < D.P, sym r = .S ∨ sym r = .H) (hnu : ∀ r < D.P, nu r ≤ X.N r)
    (ho : ∀ r < D.P, let b : GBuilder ℝ ℝ := .withNu (D.tgt.size r) (X.N r) (Ai r) (Bi r) (sym r) (lower r) (nu r); GvSolves (X.N r) (lower r) b.DAD b.Bi (o r))
    (hi : ∀ r < D.P, SortedIndex (X.N r) (gvBefore fun e => |(o r).w e|) (index r)) :
    ∃ (Z : ℕ → ℕ → ℕ → ℝ) (x : (r : ℕ) → Fin (nu r) → Fin (X.N r) → ℝ) (v : (r : ℕ) → Fin (nu r) → ℝ),
      (∀ r < D.P, ∃ b', GBuilder.build tiny (.withNu (D.tgt.size r) (X.N r) (Ai r) (Bi r) (sym r) (lower r) (nu r)) (o r) (oe r) (index r) = some ((nu r, Z r), b')) ∧
      (∀ r < D.P, (∀ j, IsPair (ownD ℝ (D.tgt.size r) (X.N r)) (A r) (B r) (x r j) (v r j)) ∧
        (∀ i j, x r i ⬝ᵥ (B r *ᵥ x r j) = if i = j then 1 else 0) ∧
        ∀ w m, IsPair (ownD ℝ (D.tgt.size r) (X.N r)) (A r) (B r) w m → (∃ j, |v r j| < |m|) → w ∈ Submodule.span ℝ (Set.range (x r))) ∧
      ∀ (l : List (Op ℝ)) (s : St ℝ), (∀ Z ∈ spaces l, Sized D X Z) → (spaces l).getLast? = some (fun r => spaceMat (X.N r) (nu r, Z r)) →
        run D X St.init l = some s → ∃ E, s.coarse = some (∑ r ∈ range D.P, nu r, E) ∧
          ∀ i < D.P, ∀ j : Fin (nu i), ∀ r < D.P, ∀ jj : Fin (nu r), E (∑ q ∈ range i, nu q + j) (∑ q ∈ range r, nu q + jj) =
            ∑ a ∈ range D.tgt.n, ∑ b ∈ range D.tgt.n, ownExt D X i (x i j) a * M a b * ownExt D X r (x r jj) b := by
  have key : ∀ r, ∃ (Z : ℕ → ℕ → ℝ) (x : Fin (nu r) → Fin (X.N r) → ℝ) (v : Fin (nu r) → ℝ), r < D.P →
      (∃ b', GBuilder.build tiny (.withNu (D.tgt.size r) (X.N r) (Ai r) (Bi r) (sym r) (lower r) (nu r)) (o r) (oe r) (index r) = some ((nu r, Z), b')) ∧
      ((∀ j, IsPair (ownD ℝ (D.tgt.size r) (X.N r)) (A r) (B r) (x j) (v j)) ∧ (∀ i j, x i ⬝ᵥ (B r *ᵥ x j) = if i = j then 1 else 0) ∧
        ∀ w m, IsPair (ownD ℝ (D.tgt.size r) (X.N r)) (A r) (B r) w m → (∃ j, |v j| < |m|) → w ∈ Submodule.span ℝ (Set.range x)) ∧
      ∀ (j : Fin (nu r)) (i : Fin (X.N r)), Z i j = (ownD ℝ (D.tgt.size r) (X.N r) *ᵥ x j) i := by
    intro r
    by_cases hr : r < D.P
    · obtain ⟨Z, b', e, x, v, h1, h2, h3, h4⟩ := C70_number_partial (hin r hr) (hA r hr) (hB r hr) (hs r hr) (hnu r hr) (oe r) tiny (ho r hr) (hi r hr)
      refine ⟨Z, x, v, fun _ => ⟨⟨b', e⟩, ⟨fun j => h1 j, fun i j => ?_, fun w m hw hj => h4 w m hw hj⟩, h3⟩⟩
      have := h2 i j
      rwa [star_trivial] at this
    · exact ⟨fun _ _ => 0, fun _ _ => 0, fun _ => 0, fun h => absurd h hr⟩
  choose Z x v hk using key
  refine ⟨Z, x, v, fun r hr => (hk r hr).1, fun r hr => (hk r hr).2.1, fun l s hz hl e => ?_⟩
  have hX : ∀ r < D.P, D.tgt.size r ≤ X.N r := fun r hr => (hin r hr).le
  obtain ⟨-, -, -, E, hE, he⟩ := (C78_two_level h hS (fun _ => rfl) hsym hX hz e).2 _ hl
  refine ⟨E, hE, fun i hi j r hr jj => ?_⟩
  refine (he i hi j j.2 r hr jj jj.2).trans ?_
  have ext : ∀ q < D.P, ∀ (j : Fin (nu q)) (a : ℕ), extended D (fun r => spaceMat (X.N r) (nu r, Z r)) q j a = ownExt D X q (x q j) a := by
    intro q hq j a
    unfold extended ownExt
    by_cases ha : D.tgt.off q ≤ a ∧ a < D.tgt.off q + D.tgt.size q
    · have hlt : a - D.tgt.off q < X.N q := by have := hX q hq; omega
      rw [if_pos ha, dif_pos ⟨ha.1, ha.2, hlt⟩]
      have := (hk q hq).2.2 j ⟨a - D.tgt.off q, hlt⟩
      rw [ownD_mulVec, if_pos (show a - D.tgt.off q < D.tgt.size q by omega)] at this
      rw [← this]
      unfold spaceMat Mat.get
      show Z q ((a - D.tgt.off q + ↑j * X.N q) % X.N q) ((a - D.tgt.off q + ↑j * X.N q) / X.N q) = _
      rw [Nat.add_mul_mod_self_right, Nat.mod_eq_of_lt hlt, Nat.add_mul_div_right _ _ (by omega), Nat.div_eq_of_lt hlt, Nat.zero_add]
    · rw [if_neg ha, dif_neg fun h => ha ⟨h.1, h.2.1⟩]
  refine Finset.sum_congr rfl fun a _ => Finset.sum_congr rfl fun b _ => ?_
  rw [ext i hi, ext r hr]

end geneo

/-! ## Witnesses -/

/-- A real symmetric operator with the partition of `exDdm`. -/
def exTwo : DOp ℤ := { exDdm with ops := fun r => [(denseOp 2 0 4 (fun i j => ((r : ℤ) * 2 + i) * j + 1)).toVLO], sym := .N }

/-- Its matrix. -/
def exTwoMat (i j : ℕ) : ℤ := (i : ℤ) * j + 1

theorem exTwo_subOK : exTwo.SubOK exTwoMat := by
  refine DOp.subOK_of (D := exTwo) exDdm_ok.1.tgt (fun r => denseOp 2 0 4 (fun i j => ((r : ℤ) * 2 + i) * j + 1)) (fun r i j => ((r : ℤ) * 2 + i) * j + 1)
    (fun _ _ => rfl) (fun _ _ => (denseOp_ok (by decide) _).1) (fun _ _ => by simp [denseOp]) ?_ ?_ ?_
  · intro r _ α x β y mu _ c hc k
    refine (congrFun (matRM_col (cplx := false) (fun _ x => by simp) .N α 2 4 (fun i j => ((r : ℤ) * 2 + i) * j + 1) x β y hc) k).trans ?_
    rw [add_comm]
    rfl
  · intro r hr
    have hr : r < 2 := hr
    obtain rfl | rfl : r = 0 ∨ r = 1 := by omega
    all_goals exact ⟨rfl, rfl, rfl, rfl, rfl⟩
  · intro r hr k hk l hl
    have hr : r < 2 := hr
    obtain rfl | rfl : r = 0 ∨ r = 1 := by omega
    · show exTwoMat (0 + k) l = _
      simp [exTwoMat]
    · show exTwoMat (2 + k) l = _
      simp [exTwoMat]

/-- Two vectors on process 0 and one on process 1, for subdomains of three unknowns; the values of the overlap are not zero. -/
def exSpace (r : ℕ) : Mat ℤ := ⟨3, 2 - r, fun p => (p : ℤ) + 1 + 10 * r⟩

/-- The hypotheses hold for a history which builds the coarse space twice and solves. -/
example : exTwo.tgt.OK exTwo.P ∧ exTwo.SubOK exTwoMat ∧ RealType ℤ ∧ (∀ a < exTwo.tgt.n, ∀ b < exTwo.tgt.n, exTwoMat a b = exTwoMat b a) ∧
    (∀ r < exTwo.P, exTwo.tgt.size r ≤ exSub.N r) ∧ Sized exTwo exSub exSpace ∧
    (run exTwo exSub St.init [.facto, .coarseSpace (fun _ => ⟨3, 0, fun _ => 0⟩), .solve, .coarseSpace exSpace, .solve, .clean]).map
      (fun s : St ℤ => ([s.size.getD 0, s.errors, s.nevi 0, s.coarse.elim 0 fun c => c.1], ([s.vecs 0 1 2, s.coarse.elim 0 fun c => c.2 0 2] : List ℤ))) =
      some ([3, 0, 2, 3], [6, 185]) ∧
    extended exTwo exSpace 0 0 1 = 2 ∧ extended exTwo exSpace 1 0 3 = 12 ∧ extended exTwo exSpace 1 0 1 = 0 := by
  refine ⟨exDdm_ok.1.tgt, exTwo_subOK, fun _ => rfl, fun a _ b _ => ?_, by decide +kernel, fun r _ => rfl, by decide +kernel, by decide +kernel, by decide +kernel,
    by decide +kernel⟩
  unfold exTwoMat
  ring

section
open Matrix

/-- A dense local operator with real coefficients. -/
noncomputable def exRealLoc (r : ℕ) : LocalOp ℝ := ⟨[], 0, 2, [], 0, 4, .N, false, false, denseKernel false .N .N 2 4 fun i j => ((r : ℝ) * 2 + i) * j + 1⟩

/-- A real symmetric operator with the partition of `exDdm`. -/
noncomputable def exTwoR : DOp ℝ where
  P := 2
  tgt := ⟨[1, 3, 0, 2], 4, [(0, 2), (2, 2)]⟩
  src := ⟨[1, 3, 0, 2], 4, [(0, 2), (2, 2)]⟩
  ops := fun r => [(exRealLoc r).toVLO]
  usePerm := true
  sym := .N

theorem exTwoR_subOK : exTwoR.SubOK fun i j => (i : ℝ) * j + 1 := by
  refine DOp.subOK_of (D := exTwoR) exDdm_ok.1.tgt exRealLoc (fun r i j => ((r : ℝ) * 2 + i) * j + 1) (fun _ _ => rfl)
    (fun r _ => LocalOp.kernelOK_dense (A := exRealLoc r) (cplx := false) (u := .N) (fun _ x => by simp) rfl ⟨Nat.zero_lt_two, Nat.zero_lt_succ 3⟩ (fun h => absurd rfl h)
      (fun h => by simp [exRealLoc] at h)) (fun _ _ => by simp [exRealLoc]) ?_ ?_ ?_
  · intro r _ α x β y mu _ c hc k
    refine (congrFun (matRM_col (cplx := false) (fun _ x => by simp) .N α 2 4 (fun i j => ((r : ℝ) * 2 + i) * j + 1) x β y hc) k).trans ?_
    rw [add_comm]
    rfl
  · intro r hr
    have hr : r < 2 := hr
    obtain rfl | rfl : r = 0 ∨ r = 1 := by omega
    all_goals exact ⟨rfl, rfl, rfl, rfl, rfl⟩
  · intro r hr k hk l hl
    have hr : r < 2 := hr
    obtain rfl | rfl : r = 0 ∨ r = 1 := by omega
    · show (((0 + k : ℕ) : ℝ)) * l + 1 = _
      simp
    · show (((2 + k : ℕ) : ℝ)) * l + 1 = _
      simp

/-- Sorting by decreasing values is possible. -/
theorem sortedIndex_exists (n : ℕ) (w : ℕ → ℝ) : ∃ index, SortedIndex n (gvBefore w) index := by
  refine ⟨(List.range n).insertionSort fun a b => w b ≤ w a, List.perm_insertionSort _ _, ?_⟩
  have : IsTrans ℕ fun a b => w b ≤ w a := ⟨fun _ _ _ h1 h2 => le_trans h2 h1⟩
  have : Std.Total fun a b : ℕ => w b ≤ w a := ⟨fun a b => le_total _ _⟩
  refine (List.pairwise_insertionSort (fun a b : ℕ => w b ≤ w a) (List.range n)).imp ?_
  intro a b hab
  unfold gvBefore
  exact not_lt.2 hab

/-- The hypotheses of `C78_geneo` hold for the operator `exTwoR`, subdomains of three unknowns, two vectors on process 0 and one on process 1. -/
example : ∃ (o : ℕ → GvOut ℝ) (index : ℕ → List ℕ),
    let A : (r : ℕ) → Matrix (Fin (exSub.N r)) (Fin (exSub.N r)) ℝ := fun r => Matrix.diagonal fun i => (i : ℝ) + 1 + r
    let Ai : ℕ → Mat ℝ := fun r => toMat (A r)
    let Bi : ℕ → Mat ℝ := fun r => toMat (1 : Matrix (Fin (exSub.N r)) (Fin (exSub.N r)) ℝ)
    exTwoR.tgt.OK exTwoR.P ∧ exTwoR.SubOK (fun i j => (i : ℝ) * j + 1) ∧
    (∀ r < exTwoR.P, GeneoInput (exTwoR.tgt.size r) (exSub.N r) true (A r) 1 (Ai r) (Bi r)) ∧ (∀ r, (A r).IsHermitian) ∧
    (∀ r, (1 : Matrix (Fin (exSub.N r)) (Fin (exSub.N r)) ℝ).PosDef) ∧ (∀ r, 2 - r ≤ exSub.N r) ∧
    (∀ r < exTwoR.P, let b : GBuilder ℝ ℝ := .withNu (exTwoR.tgt.size r) (exSub.N r) (Ai r) (Bi r) .S true (2 - r); GvSolves (exSub.N r) true b.DAD b.Bi (o r)) ∧
    ∀ r < exTwoR.P, SortedIndex (exSub.N r) (gvBefore fun e => |(o r).w e|) (index r) := by
  choose o ho using fun r => gv_exists (𝕜 := ℝ) (exSub.N r) true
    (GBuilder.withNu (F := ℝ) (exTwoR.tgt.size r) (exSub.N r) (toMat (Matrix.diagonal fun i : Fin (exSub.N r) => (i : ℝ) + 1 + r))
      (toMat (1 : Matrix (Fin (exSub.N r)) (Fin (exSub.N r)) ℝ)) .S true (2 - r)).DAD
    (GBuilder.withNu (F := ℝ) (exTwoR.tgt.size r) (exSub.N r) (toMat (Matrix.diagonal fun i : Fin (exSub.N r) => (i : ℝ) + 1 + r))
      (toMat (1 : Matrix (Fin (exSub.N r)) (Fin (exSub.N r)) ℝ)) .S true (2 - r)).Bi
  choose index hi using fun r => sortedIndex_exists (exSub.N r) fun e => |(o r).w e|
  refine ⟨o, index, exDdm_ok.1.tgt, exTwoR_subOK, fun r hr => ⟨?_, Or.inl ⟨rfl, rfl⟩, fun i j _ _ _ => toMat_get _ i j, fun i j _ => toMat_get _ i j⟩, fun r => ?_, fun r => ?_,
    fun r => ?_, fun r _ => ho r, fun r _ => hi r⟩
  · have hr : r < 2 := hr
    obtain rfl | rfl : r = 0 ∨ r = 1 := by omega
    all_goals (show 2 ≤ 3; omega)
  · exact Matrix.isHermitian_diagonal _
  · exact Matrix.PosDef.one (R := ℝ)
  · show 2 - r ≤ 3
    omega

end

/-- **C78 (size not checked).** The number of rows of the matrix of the coarse space is not checked: with two vectors given on the unknowns owned by the process only, where the
subdomain has three unknowns, the second vector received by HPDDM is not the second column, and with a subdomain twice as large the memory of the matrix is left. -/
theorem C78_rows_unchecked :
    let Z : ℕ → Mat ℤ := fun _ => ⟨2, 2, fun p => (p : ℤ)⟩
    (∃ s : St ℤ, step exTwo ⟨fun _ => 2, exSub.nb⟩ St.init (.coarseSpace Z) = some s ∧ s.vecs 0 1 0 = (Z 0).get 0 1) ∧
    step exTwo exSub St.init (.coarseSpace Z) = none ∧
    (∃ s : St ℤ, step exTwo exSub St.init (.coarseSpace fun _ => ⟨4, 2, fun p => (p : ℤ)⟩) = some s ∧ s.vecs 0 1 0 ≠ (⟨4, 2, fun p => (p : ℤ)⟩ : Mat ℤ).get 0 1) := by
  refine ⟨?_, by simp only [step]; rw [if_neg (by decide +kernel)], ?_⟩
  · obtain ⟨E, hE, -⟩ := C49_entries (D := exTwo) exDdm_ok.1.tgt exTwo_subOK (fun _ => 2) (fun r => pointers 2 (⟨2, 2, fun p => (p : ℤ)⟩ : Mat ℤ))
    simp only [step]
    rw [if_pos (by decide +kernel)]
    simp only [hE]
    exact ⟨_, rfl, rfl⟩
  · obtain ⟨E, hE, -⟩ := C49_entries (D := exTwo) exDdm_ok.1.tgt exTwo_subOK (fun _ => 2) (fun r => pointers 3 (⟨4, 2, fun p => (p : ℤ)⟩ : Mat ℤ))
    simp only [step]
    rw [if_pos (by decide +kernel)]
    simp only [show ∀ r, exSub.N r = 3 from fun _ => rfl, hE]
    refine ⟨_, rfl, ?_⟩
    show ((3 : ℕ) : ℤ) ≠ ((4 : ℕ) : ℤ)
    decide

end Htool.TwoLevel
