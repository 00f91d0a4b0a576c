import Verif.HMat
import Mathlib.Algebra.Star.BigOperators
import Mathlib.Algebra.BigOperators.Fin
import Mathlib.Algebra.Order.BigOperators.Group.Finset

/-! # Product of a hierarchical matrix and a vector

Model of `include/htool/hmatrix/linalg/add_hmatrix_vector_product.hpp` (`sequential_internal_add_hmatrix_vector_product`,
`openmp_internal_add_hmatrix_vector_product`), with the specification of the operator an H-matrix represents. -/

namespace Htool
variable {R : Type*}

/-- `get_symmetry() != 'N'`. -/
def HNode.isSym (n : HNode R) : Bool := decide (n.sym ≠ .N)
/-- Offset test of hmatrix.hpp 259. -/
def HNode.offDiag (n : HNode R) : Bool := decide (n.toff ≠ n.soff)
/-- `get_leaves_from` (hmatrix.hpp 240-268). -/
def getLeavesH (A : HTree R) : List (HTree R) × List (HTree R) := getLeavesG HNode.isSym HNode.offDiag A

theorem getLeavesH_perm (A : HTree R) : (getLeavesH A).1.Perm A.leaves ∧
    (getLeavesH A).2.Perm (symLeavesG HNode.isSym HNode.offDiag A.label.isSym A) := getLeavesG_perm _ _ A

variable [CommRing R] [StarRing R]
open Finset

/-! ## Specification -/

/-- Matrix stored by a block with data, in indices relative to the block. -/
def HNode.val (n : HNode R) (i j : ℕ) : R :=
  match n.data with
  | .dense M =>
    match n.sym with
    | .S => symE n.uplo M i j
    | .H => herE n.uplo M i j
    | _ => M i j
  | .lowRank r U V => ∑ k ∈ range r, U i k * V k j
  | .hier => 0

/-- The entry `(i,j)` (cluster numbering) belongs to the block. -/
def HNode.Has (n : HNode R) (i j : ℕ) : Prop := InIv i (n.toff, n.tsz) ∧ InIv j (n.soff, n.ssz)

instance (n : HNode R) (i j : ℕ) : Decidable (n.Has i j) := by unfold HNode.Has; infer_instance

/-- What a stored block contributes to the entry `(i,j)` of the operator. -/
def HNode.own (n : HNode R) (i j : ℕ) : R := if n.Has i j then n.val (i - n.toff) (j - n.soff) else 0

/-- What the mirror image of a stored block contributes to the entry `(i,j)`: its transpose for symmetric matrices, its conjugate
transpose for hermitian ones. -/
def HNode.mirror (s : HSym) (n : HNode R) (i j : ℕ) : R := if s = .S then n.own j i else star (n.own j i)

/-- The operator represented by an H-matrix, entry `(i,j)` in cluster numbering: its leaves, and the mirror images of the leaves below
a symmetric block. -/
def HTree.entry (A : HTree R) (i j : ℕ) : R :=
  ((getLeavesH A).1.map (fun l => l.label.own i j)).sum +
    (if A.label.symL ≠ .N then ((getLeavesH A).2.map (fun l => l.label.mirror A.label.symL i j)).sum else 0)

/-- The operator in indices relative to the root block. -/
def HTree.mat (A : HTree R) (i j : ℕ) : R := A.entry (A.label.toff + i) (A.label.soff + j)

/-- Trivial conjugation: real coefficient types. -/
def RealType (R : Type*) [CommRing R] [StarRing R] : Prop := ∀ x : R, star x = x

/-- Combinations of the kind of symmetry and `trans` which the code supports (compare the error message in
add_hmatrix_matrix_product_row_major.hpp 60-63). -/
def Supported (R : Type*) [CommRing R] [StarRing R] (s : HSym) (tr : Trans) : Prop :=
  match s with
  | .N => True
  | .S => tr ≠ .C ∨ RealType R
  | .H => tr ≠ .T ∨ RealType R
  | .nul => False

/-- A leaf fit for products inside an H-matrix whose `symmetry_for_leaves` is `s`. -/
structure HNode.LeafOK (cplx : Bool) (s : HSym) (n : HNode R) : Prop where
  data : n.data ≠ .hier
  sym : n.sym = .N ∨ n.sym = s
  square : n.sym ≠ .N → n.tsz = n.ssz
  uplo : n.sym ≠ .N → n.uplo ≠ .N
  herm : n.sym = .H → cplx = true ∧ ∀ M, n.data = .dense M → ∀ i < n.tsz, star (M i i) = M i i

/-- The interval `a` is inside `b`. -/
def Inside (a b : ℕ × ℕ) : Prop := b.1 ≤ a.1 ∧ a.1 + a.2 ≤ b.1 + b.2

/-- An H-matrix of symmetry `σ` fit for products: leaves inside the root block and, for mirrored leaves, also their mirror images.
`symmetry_for_leaves` of the root may be 'N' although a diagonal leaf is symmetric (tree_builder.hpp 110-126 looks at the direct
children only). Every output of the builder is fit (see `C19_built_fit`). -/
structure HTree.Fit (cplx : Bool) (σ : HSym) (A : HTree R) : Prop where
  lab : A.label.symL = .N ∨ A.label.symL = σ
  leafOK : ∀ l ∈ A.leaves, l.label.LeafOK cplx σ
  inside : ∀ l ∈ A.leaves, Inside (l.label.toff, l.label.tsz) (A.label.toff, A.label.tsz) ∧
    Inside (l.label.soff, l.label.ssz) (A.label.soff, A.label.ssz)
  mirror : ∀ l ∈ (getLeavesH A).2, l.label.sym = .N ∧
    Inside (l.label.soff, l.label.ssz) (A.label.toff, A.label.tsz) ∧
    Inside (l.label.toff, l.label.tsz) (A.label.soff, A.label.ssz)

/-! ## The code -/

section code
variable [DecidableEq R]

/-- Offset of the cluster returned by `get_input_cluster` (add_hmatrix_vector_product.hpp 60-61, 71-72). -/
def HNode.inOff (tr : Trans) (n : HNode R) : ℕ := if tr = .N then n.soff else n.toff
/-- Offset of the cluster returned by `get_output_cluster` (59-60, 71-72). -/
def HNode.outOff (tr : Trans) (n : HNode R) : ℕ := if tr = .N then n.toff else n.soff
/-- `out_size` (58, 70). -/
def HNode.outSize (tr : Trans) (n : HNode R) : ℕ := opRows tr n.tsz n.ssz
/-- Size of the input vector. -/
def HNode.inSize (tr : Trans) (n : HNode R) : ℕ := opCols tr n.tsz n.ssz
/-- `trans_sym` (63, 75). -/
def HNode.transSym (tr : Trans) (n : HNode R) : Trans := if tr = .N then (if n.symL = .S then .T else .C) else .N

/-- Body of the loop on leaves (84-88, 141-145). -/
def leafStep (cplx : Bool) (tr : Trans) (A : HNode R) (x : Buf R) (α : R) (l : HNode R) : Buf R → Buf R :=
  Buf.at' (l.outOff tr - A.outOff tr) (leafVec cplx tr α l (x.from' (l.inOff tr - A.inOff tr)) 1)

/-- Body of the loop on mirrored leaves (92-96, 153-157). -/
def mirrorStep (cplx : Bool) (tr : Trans) (A : HNode R) (x : Buf R) (α : R) (l : HNode R) : Buf R → Buf R :=
  Buf.at' (l.inOff tr - A.outOff tr) (leafVec cplx (A.transSym tr) α l (x.from' (l.outOff tr - A.inOff tr)) 1)

/-- Scaling by `beta` (78-80, 128-131). -/
def betaScale (β : R) (n : ℕ) (y : Buf R) : Buf R :=
  if β ≠ 1 then fun i => if i < n then y i * β else y i else y

/-- `sequential_internal_add_hmatrix_vector_product` (add_hmatrix_vector_product.hpp 56-98). -/
def seqVec (cplx : Bool) (tr : Trans) (α : R) (A : HTree R) (x : Buf R) (β : R) (y : Buf R) : Buf R :=
  let y1 := betaScale β (A.label.outSize tr) y
  let y2 := (getLeavesH A).1.foldl (fun o l => leafStep cplx tr A.label x α l.label o) y1
  if A.label.symL ≠ .N then
    (getLeavesH A).2.foldl (fun o l => mirrorStep cplx tr A.label x α l.label o) y2
  else y2

/-- `Blas::axpy` on `n` entries (contract; add_hmatrix_vector_product.hpp 164). -/
def axpy (n : ℕ) (α : R) (x y : Buf R) : Buf R := fun i => if i < n then y i + α * x i else y i

/-- State of a parallel region "private `temp`, two `nowait` loops, critical `axpy`" with `T` threads (add_hmatrix_vector_product.hpp
134-166 and add_hmatrix_matrix_product_row_major.hpp 139-173): loop iterations nobody has taken yet, the private `temp` of each thread,
the place each thread has reached (0: first loop, 1: second loop, 2: after the critical section), and the shared output. -/
structure OmpState (T : ℕ) (ι R : Type*) where
  todo : List ι
  todoSym : List ι
  temp : Fin T → Buf R
  pc : Fin T → ℕ
  out : Buf R

/-- One step of some thread. `fL` and `fM` are the bodies of the two loops, acting on the private `temp`; `n` is the size of the output.
A thread may take any iteration not yet taken (this includes every `guided` schedule); it leaves a `nowait` loop when no iteration is
left to take; the critical sections happen one after the other in any order. Threads share only `out`, written in the critical
section, so that the body of an iteration can be one step. -/
inductive OmpStep {T : ℕ} {ι : Type*} (fL fM : ι → Buf R → Buf R) (n : ℕ) (α : R) : OmpState T ι R → OmpState T ι R → Prop
  | leaf (s : OmpState T ι R) (th : Fin T) (l : ι) (before after : List ι) (hp : s.pc th = 0)
      (h : s.todo = before ++ l :: after) :
      OmpStep fL fM n α s { s with todo := before ++ after, temp := Function.update s.temp th (fL l (s.temp th)) }
  | next (s : OmpState T ι R) (th : Fin T) (hp : s.pc th = 0) (h : s.todo = []) :
      OmpStep fL fM n α s { s with pc := Function.update s.pc th 1 }
  | mirror (s : OmpState T ι R) (th : Fin T) (l : ι) (before after : List ι) (hp : s.pc th = 1)
      (h : s.todoSym = before ++ l :: after) :
      OmpStep fL fM n α s { s with todoSym := before ++ after, temp := Function.update s.temp th (fM l (s.temp th)) }
  | commit (s : OmpState T ι R) (th : Fin T) (hp : s.pc th = 1) (h : s.todoSym = []) :
      OmpStep fL fM n α s { s with pc := Function.update s.pc th 2, out := axpy n α (s.temp th) s.out }

/-- Executions of the parallel region. -/
inductive OmpRun {T : ℕ} {ι : Type*} (fL fM : ι → Buf R → Buf R) (n : ℕ) (α : R) : OmpState T ι R → OmpState T ι R → Prop
  | refl (s) : OmpRun fL fM n α s s
  | tail {s t u} : OmpRun fL fM n α s t → OmpStep fL fM n α t u → OmpRun fL fM n α s u

/-- Start of the parallel region: `temp(out_size, 0)`; the second loop exists only if `symmetry_for_leaves != 'N'`. -/
def ompInit (T : ℕ) (A : HTree R) (y1 : Buf R) : OmpState T (HTree R) R where
  todo := (getLeavesH A).1
  todoSym := if A.label.symL ≠ .N then (getLeavesH A).2 else []
  temp := fun _ _ => 0
  pc := fun _ => 0
  out := y1

/-- `openmp_internal_add_hmatrix_vector_product` (add_hmatrix_vector_product.hpp 100-167) with `T` threads may reach the state `s`. -/
def OmpVecReach (T : ℕ) (cplx : Bool) (tr : Trans) (α : R) (A : HTree R) (x : Buf R) (β : R) (y : Buf R)
    (s : OmpState T (HTree R) R) : Prop :=
  OmpRun (fun l => leafStep cplx tr A.label x 1 l.label) (fun l => mirrorStep cplx tr A.label x 1 l.label) (A.label.outSize tr) α
    (ompInit T A (betaScale β (A.label.outSize tr) y)) s

/-- `openmp_internal_add_hmatrix_vector_product` with `T` threads may end with output `z`. -/
def OmpVec (T : ℕ) (cplx : Bool) (tr : Trans) (α : R) (A : HTree R) (x : Buf R) (β : R) (y z : Buf R) : Prop :=
  ∃ s : OmpState T (HTree R) R, OmpVecReach T cplx tr α A x β y s ∧ (∀ th, s.pc th = 2) ∧ s.out = z

end code

/-! ## Lemmas on leaves -/

omit [CommRing R] [StarRing R] in
theorem symE_symm {u : UploType} (M : ℕ → ℕ → R) (i j : ℕ) : symE u M i j = symE u M j i := by
  unfold symE
  cases u <;> simp only <;> split_ifs <;> first | rfl | (obtain rfl : i = j := (by omega); rfl)

theorem herE_symm {u : UploType} {M : ℕ → ℕ → R} {n : ℕ} (h : ∀ i < n, star (M i i) = M i i) {i j : ℕ} (hi : i < n) :
    star (herE u M j i) = herE u M i j := by
  unfold herE
  cases u <;> simp only <;> split_ifs <;>
    first | rfl | (simp; done) | (obtain rfl : i = j := (by omega); exact h i hi) | omega

/-- A leaf times a vector, the specification. -/
def HNode.apply (tr : Trans) (n : HNode R) (x : Buf R) (i : ℕ) : R :=
  ∑ j ∈ range (opCols tr n.tsz n.ssz), opE tr n.val i j * x j

theorem gemv_one (tr : Trans) (nr nc : ℕ) (α : R) (M : ℕ → ℕ → R) (x y : Buf R) :
    gemv tr nr nc α M x 1 y = fun i => if i < opRows tr nr nc then
      y i + α * (∑ j ∈ range (opCols tr nr nc), opE tr M i j * x j) else y i := by
  unfold gemv
  split_ifs with h
  · funext i
    split_ifs with hi
    · have : opCols tr nr nc = 0 := by
        unfold opRows at hi; unfold opCols
        split_ifs at hi ⊢ <;> omega
      rw [this]; simp
    · rfl
  · funext i
    split_ifs
    · ring
    · rfl

theorem gemv_zero_get (tr : Trans) (nr nc : ℕ) (M : ℕ → ℕ → R) (x : Buf R) {i : ℕ} (hi : i < opRows tr nr nc) :
    gemv tr nr nc 1 M x 0 (fun _ => 0) i = ∑ j ∈ range (opCols tr nr nc), opE tr M i j * x j := by
  unfold gemv
  split_ifs with h
  · have : opCols tr nr nc = 0 := by
      unfold opRows at hi; unfold opCols
      split_ifs at hi ⊢ <;> omega
    rw [this]; simp
  · simp only; rw [if_pos hi]; ring

theorem opE_sum {ι : Type*} (tr : Trans) (s : Finset ι) (f : ι → ℕ → ℕ → R) (i j : ℕ) :
    opE tr (fun i j => ∑ k ∈ s, f k i j) i j = ∑ k ∈ s, opE tr (f k) i j := by
  cases tr <;> simp [opE, star_sum]

theorem lrmatVec_one (tr : Trans) (α : R) (nr nc r : ℕ) (U V : ℕ → ℕ → R) (x y : Buf R) :
    lrmatVec tr α nr nc r U V x 1 y = fun i => if i < opRows tr nr nc then
      y i + α * (∑ j ∈ range (opCols tr nr nc), opE tr (fun i j => ∑ k ∈ range r, U i k * V k j) i j * x j) else y i := by
  unfold lrmatVec
  split_ifs with h0 h1
  · subst h1
    simp only [gemv_one]
    funext i
    simp only [opRows, opCols, if_true]
    split_ifs with hi
    · congr 2
      simp only [opE]
      rw [Finset.sum_congr rfl (fun k hk => by
        rw [gemv_zero_get .N r nc V x (by simpa [opRows] using hk)])]
      simp only [opCols, if_true, opE]
      simp_rw [Finset.mul_sum, Finset.sum_mul]
      rw [Finset.sum_comm]
      apply Finset.sum_congr rfl; intro j _
      apply Finset.sum_congr rfl; intro k _
      ring
    · rfl
  · simp only [gemv_one]
    funext i
    have e1 : ∀ a b : ℕ, opRows tr a b = b := fun a b => if_neg h1
    have e2 : ∀ a b : ℕ, opCols tr a b = a := fun a b => if_neg h1
    rw [e1, e2, e1, e2]
    split_ifs with hi
    · congr 2
      rw [Finset.sum_congr rfl (fun k hk => by
        rw [gemv_zero_get tr nr r U x (by rw [e1]; simpa using hk)])]
      rw [e2]
      simp_rw [opE_sum, Finset.mul_sum, Finset.sum_mul]
      rw [Finset.sum_comm]
      apply Finset.sum_congr rfl; intro j _
      apply Finset.sum_congr rfl; intro k _
      cases tr
      · exact absurd rfl h1
      · simp only [opE]; ring
      · simp only [opE, star_mul']; ring
    · rfl
  · have : r = 0 := by omega
    subst this
    funext i
    have : ∀ a b, opE tr (fun i j => ∑ k ∈ range 0, U i k * V k j) a b = 0 := by
      intro a b; cases tr <;> simp [opE]
    simp only [this]
    simp

/-- Condition on a leaf for a given `trans`. -/
def HNode.SuppLeaf (tr : Trans) (n : HNode R) : Prop := n.sym = .N ∨ Supported R n.sym tr

theorem leafVec_one {cplx : Bool} {s : HSym} {n : HNode R} (h : n.LeafOK cplx s) {tr : Trans} (hs : n.SuppLeaf tr)
    (α : R) (x y : Buf R) :
    leafVec cplx tr α n x 1 y = fun i => if i < n.outSize tr then y i + α * n.apply tr x i else y i := by
  unfold leafVec HNode.apply HNode.outSize
  cases hd : n.data with
  | hier => exact absurd hd h.data
  | lowRank r U V =>
    simp only [lrmatVec_one]
    have : n.val = fun i j => ∑ k ∈ range r, U i k * V k j := by
      funext i j; unfold HNode.val; rw [hd]
    rw [this]
  | dense M =>
    simp only
    cases hsy : n.sym with
    | nul =>
      rcases hs with hs | hs
      · rw [hsy] at hs; cases hs
      · rw [hsy] at hs; exact hs.elim
    | N =>
      simp only [gemv_one]
      have : n.val = M := by funext i j; unfold HNode.val; rw [hd, hsy]
      rw [this]
    | S =>
      simp only
      have hsq := h.square (by rw [hsy]; decide)
      have hv : ∀ i j, n.val i j = symE n.uplo M i j := by intro i j; unfold HNode.val; rw [hd, hsy]
      have hsup : tr ≠ .C ∨ RealType R := by
        rcases hs with hs | hs
        · rw [hsy] at hs; cases hs
        · rw [hsy] at hs; exact hs
      have e : ∀ i j, opE tr n.val i j = symE n.uplo M i j := by
        intro i j
        cases tr with
        | N => exact hv i j
        | T => simp only [opE]; rw [hv, symE_symm]
        | C =>
          rcases hsup with hsup | hsup
          · exact absurd rfl hsup
          · simp only [opE]; rw [hv, hsup, symE_symm]
      have er : opRows tr n.tsz n.ssz = n.tsz := by unfold opRows; split_ifs <;> omega
      have ec : opCols tr n.tsz n.ssz = n.tsz := by unfold opCols; split_ifs <;> omega
      rw [er, ec]
      funext i
      unfold symv
      split_ifs
      · simp_rw [e]; ring
      · rfl
    | H =>
      simp only
      obtain ⟨hc, hdi⟩ := h.herm hsy
      rw [if_pos hc]
      have hdi := hdi M hd
      have hsq := h.square (by rw [hsy]; decide)
      have hv : ∀ i j, n.val i j = herE n.uplo M i j := by intro i j; unfold HNode.val; rw [hd, hsy]
      have hsup : tr ≠ .T ∨ RealType R := by
        rcases hs with hs | hs
        · rw [hsy] at hs; cases hs
        · rw [hsy] at hs; exact hs
      have e : ∀ i < n.tsz, ∀ j, opE tr n.val i j = herE n.uplo M i j := by
        intro i hi j
        cases tr with
        | N => exact hv i j
        | C => simp only [opE]; rw [hv, herE_symm hdi hi]
        | T =>
          rcases hsup with hsup | hsup
          · exact absurd rfl hsup
          · simp only [opE]; rw [hv, ← hsup (herE _ _ _ _), herE_symm hdi hi]
      have er : opRows tr n.tsz n.ssz = n.tsz := by unfold opRows; split_ifs <;> omega
      have ec : opCols tr n.tsz n.ssz = n.tsz := by unfold opCols; split_ifs <;> omega
      rw [er, ec]
      funext i
      unfold hemv
      split_ifs with hi
      · simp_rw [e i hi]; ring
      · rfl

/-! ## Steps of the loops -/

omit [StarRing R] in
theorem sum_window {n a m : ℕ} (h : a + m ≤ n) (f : ℕ → R) (x : Buf R) :
    (∑ j ∈ range n, (if a ≤ j ∧ j < a + m then f (j - a) else 0) * x j) = ∑ j ∈ range m, f j * x (a + j) := by
  obtain ⟨r, rfl⟩ := Nat.exists_eq_add_of_le h
  rw [Finset.sum_range_add, Finset.sum_range_add]
  have h1 : ∀ j ∈ range a, (if a ≤ j ∧ j < a + m then f (j - a) else 0) * x j = 0 := by
    intro j hj
    have := Finset.mem_range.1 hj
    rw [if_neg (by omega), zero_mul]
  have h2 : ∀ j ∈ range r, (if a ≤ a + m + j ∧ a + m + j < a + m then f (a + m + j - a) else 0) * x (a + m + j) = 0 := by
    intro j _
    rw [if_neg (by omega), zero_mul]
  rw [Finset.sum_eq_zero h1, Finset.sum_eq_zero h2, zero_add, add_zero]
  apply Finset.sum_congr rfl
  intro j hj
  have := Finset.mem_range.1 hj
  rw [if_pos (by omega), Nat.add_sub_cancel_left]

/-- The window of a block in a product. -/
def win (a m i : ℕ) : Prop := a ≤ i ∧ i < a + m

instance (a m i : ℕ) : Decidable (win a m i) := by unfold win; infer_instance

theorem own_op {A l : HNode R} (ht : Inside (l.toff, l.tsz) (A.toff, A.tsz)) (hs : Inside (l.soff, l.ssz) (A.soff, A.ssz))
    (tr : Trans) (i j : ℕ) :
    opE tr (fun i j => l.own (A.toff + i) (A.soff + j)) i j =
      if win (l.outOff tr - A.outOff tr) (l.outSize tr) i ∧ win (l.inOff tr - A.inOff tr) (l.inSize tr) j then
        opE tr l.val (i - (l.outOff tr - A.outOff tr)) (j - (l.inOff tr - A.inOff tr)) else 0 := by
  unfold Inside at ht hs
  simp only at ht hs
  have key : ∀ i j, l.own (A.toff + i) (A.soff + j) =
      if win (l.toff - A.toff) l.tsz i ∧ win (l.soff - A.soff) l.ssz j then
        l.val (i - (l.toff - A.toff)) (j - (l.soff - A.soff)) else 0 := by
    intro i j
    unfold HNode.own
    apply if_ctx_congr
    · unfold HNode.Has InIv win; simp only; omega
    · intro _
      have hw : win (l.toff - A.toff) l.tsz i ∧ win (l.soff - A.soff) l.ssz j := by assumption
      unfold win at hw
      congr 1 <;> omega
    · intro _; rfl
  cases tr with
  | N => simpa [opE, HNode.outOff, HNode.inOff, HNode.outSize, HNode.inSize, opRows, opCols] using key i j
  | T =>
    have := key j i
    simp only [opE, HNode.outOff, HNode.inOff, HNode.outSize, HNode.inSize, opRows, opCols, if_neg (show Trans.T ≠ Trans.N by decide)]
    rw [this]
    exact if_congr and_comm rfl rfl
  | C =>
    have := key j i
    simp only [opE, HNode.outOff, HNode.inOff, HNode.outSize, HNode.inSize, opRows, opCols, if_neg (show Trans.C ≠ Trans.N by decide)]
    rw [this]
    split_ifs with h1 h2 h2
    · rfl
    · exact absurd h1.symm h2
    · exact absurd h2.symm h1
    · simp

theorem mirror_op {A l : HNode R} (ht : Inside (l.soff, l.ssz) (A.toff, A.tsz)) (hs : Inside (l.toff, l.tsz) (A.soff, A.ssz))
    {tr : Trans} (hN : A.symL ≠ .N) (hsup : Supported R A.symL tr) (i j : ℕ) :
    opE tr (fun i j => l.mirror A.symL (A.toff + i) (A.soff + j)) i j =
      if win (l.inOff tr - A.outOff tr) (l.outSize (A.transSym tr)) i ∧ win (l.outOff tr - A.inOff tr) (l.inSize (A.transSym tr)) j then
        opE (A.transSym tr) l.val (i - (l.inOff tr - A.outOff tr)) (j - (l.outOff tr - A.inOff tr)) else 0 := by
  unfold Inside at ht hs
  simp only at ht hs
  have key : ∀ i j, l.own (A.soff + j) (A.toff + i) =
      if win (l.soff - A.toff) l.ssz i ∧ win (l.toff - A.soff) l.tsz j then
        l.val (j - (l.toff - A.soff)) (i - (l.soff - A.toff)) else 0 := by
    intro i j
    unfold HNode.own
    apply if_ctx_congr
    · unfold HNode.Has InIv win; simp only; omega
    · intro _
      have hw : win (l.soff - A.toff) l.ssz i ∧ win (l.toff - A.soff) l.tsz j := by assumption
      unfold win at hw
      congr 1 <;> omega
    · intro _; rfl
  have hcomb : (tr = .N ∧ A.symL = .S) ∨ (tr = .N ∧ A.symL = .H) ∨ (tr = .T ∧ A.symL = .S) ∨ (tr = .C ∧ A.symL = .H) ∨
      (RealType R ∧ tr ≠ .N) := by
    unfold Supported at hsup
    cases hA : A.symL <;> cases tr <;> simp_all
  unfold HNode.transSym
  rcases hcomb with ⟨rfl, h⟩ | ⟨rfl, h⟩ | ⟨rfl, h⟩ | ⟨rfl, h⟩ | ⟨h, hne⟩
  · simp only [opE, HNode.mirror, h, if_true, HNode.outOff, HNode.inOff, HNode.outSize, HNode.inSize, opRows, opCols,
      if_neg (show Trans.T ≠ Trans.N by decide)]
    exact key i j
  · simp only [opE, HNode.mirror, h, if_true, HNode.outOff, HNode.inOff, HNode.outSize, HNode.inSize, opRows, opCols,
      if_neg (show Trans.C ≠ Trans.N by decide), if_neg (show HSym.H ≠ HSym.S by decide)]
    rw [key i j]
    split_ifs <;> simp
  · simp only [opE, HNode.mirror, h, if_true, HNode.outOff, HNode.inOff, HNode.outSize, HNode.inSize, opRows, opCols,
      if_neg (show Trans.T ≠ Trans.N by decide)]
    rw [key j i]
    exact if_congr and_comm rfl rfl
  · simp only [opE, HNode.mirror, h, if_true, HNode.outOff, HNode.inOff, HNode.outSize, HNode.inSize, opRows, opCols,
      if_neg (show Trans.C ≠ Trans.N by decide), if_neg (show HSym.H ≠ HSym.S by decide)]
    rw [key j i, star_star]
    exact if_congr and_comm rfl rfl
  · have e : opE tr (fun i j => l.mirror A.symL (A.toff + i) (A.soff + j)) i j = l.own (A.soff + i) (A.toff + j) := by
      have hm : ∀ a b, l.mirror A.symL a b = l.own b a := by
        intro a b; unfold HNode.mirror; rw [h]; simp
      cases tr with
      | N => exact absurd rfl hne
      | T => simp only [opE]; rw [hm]
      | C => simp only [opE]; rw [hm, h]
    rw [e, key j i]
    simp only [opE, HNode.outOff, HNode.inOff, HNode.outSize, HNode.inSize, opRows, opCols, if_true, if_neg hne]
    exact if_congr and_comm rfl rfl

/-- Common part of both loops: a leaf product at `out + dst` reading `in + src` adds `α` times the block. -/
theorem at_leafVec {cplx : Bool} {s : HSym} {l : HNode R} (hok : l.LeafOK cplx s) {tr : Trans} (hs : l.SuppLeaf tr)
    {n dst src : ℕ} (hsrc : src + l.inSize tr ≤ n) (α : R) (x o : Buf R) :
    Buf.at' dst (leafVec cplx tr α l (x.from' src) 1) o = fun i => o i + α * ∑ j ∈ range n,
      (if win dst (l.outSize tr) i ∧ win src (l.inSize tr) j then opE tr l.val (i - dst) (j - src) else 0) * x j := by
  rw [show leafVec cplx tr α l (x.from' src) 1 = _ from funext (fun y => leafVec_one hok hs α (x.from' src) y)]
  funext i
  unfold Buf.at'
  by_cases hw : win dst (l.outSize tr) i
  · have h1 : dst ≤ i := hw.1
    have h2 : i - dst < l.outSize tr := by have := hw.2; omega
    rw [if_pos h1]
    simp only [h2, if_true, hw, true_and]
    unfold win
    rw [sum_window hsrc (fun j => opE tr l.val (i - dst) j) x]
    unfold HNode.apply Buf.from' HNode.inSize
    rw [show dst + (i - dst) = i by omega]
  · simp only [hw, false_and, if_false, zero_mul, Finset.sum_const_zero, mul_zero, add_zero]
    split_ifs with h1 h2
    · exact absurd ⟨h1, by omega⟩ hw
    · unfold Buf.from'; rw [show dst + (i - dst) = i by omega]
    · rfl

/-- What a leaf adds to the output. -/
def leafG (tr : Trans) (A : HNode R) (x : Buf R) (l : HTree R) (i : ℕ) : R :=
  ∑ j ∈ range (A.inSize tr), opE tr (fun i j => l.label.own (A.toff + i) (A.soff + j)) i j * x j

/-- What the mirror image of a leaf adds to the output. -/
def mirrorG (tr : Trans) (A : HNode R) (x : Buf R) (l : HTree R) (i : ℕ) : R :=
  ∑ j ∈ range (A.inSize tr), opE tr (fun i j => l.label.mirror A.symL (A.toff + i) (A.soff + j)) i j * x j

theorem leafStep_eq {cplx : Bool} {σ : HSym} {A : HTree R} (hA : A.Fit cplx σ) {tr : Trans} (hsup : Supported R σ tr)
    {l : HTree R} (hl : l ∈ A.leaves) (α : R) (x o : Buf R) :
    leafStep cplx tr A.label x α l.label o = fun i => o i + α * leafG tr A.label x l i := by
  have hok := hA.leafOK l hl
  obtain ⟨h1, h2⟩ := hA.inside l hl
  have hs : l.label.SuppLeaf tr := by
    rcases hok.sym with h | h
    · exact Or.inl h
    · exact Or.inr (h ▸ hsup)
  unfold leafStep
  rw [at_leafVec hok hs (n := A.label.inSize tr)]
  · funext i
    unfold leafG
    simp_rw [own_op h1 h2]
  · unfold Inside at h1 h2
    simp only at h1 h2
    unfold HNode.inOff HNode.inSize opCols
    split_ifs <;> omega

theorem mirrorStep_eq {cplx : Bool} {σ : HSym} {A : HTree R} (hA : A.Fit cplx σ) {tr : Trans} (hsup : Supported R σ tr)
    (hN : A.label.symL ≠ .N) {l : HTree R} (hl : l ∈ (getLeavesH A).2) (α : R) (x o : Buf R) :
    mirrorStep cplx tr A.label x α l.label o = fun i => o i + α * mirrorG tr A.label x l i := by
  have hl1 : l ∈ A.leaves := symLeavesG_sub _ _ ((getLeavesG_perm _ _ A).2.mem_iff.1 hl)
  have hok := hA.leafOK l hl1
  obtain ⟨h0, h1, h2⟩ := hA.mirror l hl
  unfold mirrorStep
  rw [at_leafVec hok (Or.inl h0) (n := A.label.inSize tr)]
  · funext i
    unfold mirrorG
    have hsup' : Supported R A.label.symL tr := by rw [hA.lab.resolve_left hN]; exact hsup
    simp_rw [mirror_op h1 h2 hN hsup']
  · unfold Inside at h1 h2
    simp only at h1 h2
    unfold HNode.inOff HNode.outOff HNode.inSize opCols HNode.transSym
    split_ifs <;> first | omega | simp_all

omit [StarRing R] in
theorem foldl_add {ι : Type*} (f : ι → Buf R → Buf R) (g : ι → Buf R) (α : R) (L : List ι)
    (h : ∀ l ∈ L, ∀ o, f l o = fun i => o i + α * g l i) (y : Buf R) :
    L.foldl (fun o l => f l o) y = fun i => y i + α * (L.map (fun l => g l i)).sum := by
  induction L generalizing y with
  | nil => simp
  | cons l L ih =>
    rw [List.foldl_cons, ih (fun m hm => h m (by simp [hm])), h l (by simp)]
    funext i
    simp only [List.map_cons, List.sum_cons]
    ring

omit [StarRing R] in
theorem betaScale_eq [DecidableEq R] (β : R) (n : ℕ) (y : Buf R) (i : ℕ) :
    betaScale β n y i = if i < n then β * y i else y i := by
  unfold betaScale
  by_cases h : β = 1
  · subst h; simp
  · simp only [ne_eq, h, not_false_eq_true, if_true]
    rw [mul_comm]

theorem opE_list_sum {ι : Type*} (tr : Trans) (L : List ι) (f : ι → ℕ → ℕ → R) (i j : ℕ) :
    opE tr (fun i j => (L.map (fun l => f l i j)).sum) i j = (L.map (fun l => opE tr (f l) i j)).sum := by
  cases tr
  · rfl
  · rfl
  · simp only [opE]
    induction L with
    | nil => simp
    | cons l L ih => simp [star_add, ih]

theorem opE_add (tr : Trans) (f g : ℕ → ℕ → R) (i j : ℕ) :
    opE tr (fun i j => f i j + g i j) i j = opE tr f i j + opE tr g i j := by
  cases tr <;> simp [opE]

omit [StarRing R] in
theorem list_sum_comm {ι : Type*} (L : List ι) (n : ℕ) (f : ι → ℕ → R) :
    (L.map (fun l => ∑ j ∈ range n, f l j)).sum = ∑ j ∈ range n, (L.map (fun l => f l j)).sum := by
  induction L with
  | nil => simp
  | cons l L ih => simp [ih, Finset.sum_add_distrib]

omit [StarRing R] in
theorem list_sum_mul {ι : Type*} (L : List ι) (f : ι → R) (c : R) :
    (L.map (fun l => f l * c)).sum = (L.map f).sum * c := by
  induction L with
  | nil => simp
  | cons l L ih => simp [ih, add_mul]

/-- Sum of what leaves and mirror images add: the operator times the vector. -/
theorem total_eq (tr : Trans) (A : HTree R) (x : Buf R) (i : ℕ) :
    ((getLeavesH A).1.map (fun l => leafG tr A.label x l i)).sum +
      ((if A.label.symL ≠ .N then (getLeavesH A).2 else []).map (fun l => mirrorG tr A.label x l i)).sum =
      ∑ j ∈ range (A.label.inSize tr), opE tr A.mat i j * x j := by
  unfold leafG mirrorG
  rw [list_sum_comm, list_sum_comm, ← Finset.sum_add_distrib]
  apply Finset.sum_congr rfl
  intro j _
  rw [list_sum_mul, list_sum_mul, ← add_mul]
  congr 1
  unfold HTree.mat HTree.entry
  rw [opE_add, opE_list_sum]
  congr 1
  split_ifs with h
  · rw [opE_list_sum]
  · cases tr <;> simp [opE]

/-! ## Parallel region -/

section omp
variable {ι : Type*} {T : ℕ}

/-- Invariant of the parallel region: `gL` and `gM` are what the iterations add to `temp`; `y1` is the output at the start. -/
structure OmpInv (gL gM : ι → Buf R) (L M : List ι) (n : ℕ) (α : R) (y1 : Buf R) (s : OmpState T ι R) : Prop where
  sum : ∀ i < n, s.out i + α * ((∑ th : Fin T, if s.pc th = 2 then 0 else s.temp th i) +
      (s.todo.map (fun l => gL l i)).sum + (s.todoSym.map (fun l => gM l i)).sum) =
    y1 i + α * ((L.map (fun l => gL l i)).sum + (M.map (fun l => gM l i)).sum)
  frame : ∀ i, ¬ i < n → s.out i = y1 i
  todo : ∀ l ∈ s.todo, l ∈ L
  todoSym : ∀ l ∈ s.todoSym, l ∈ M
  pc : ∀ th, s.pc th = 0 ∨ s.pc th = 1 ∨ s.pc th = 2
  pc1 : ∀ th, s.pc th ≠ 0 → s.todo = []
  pc2 : ∀ th, s.pc th = 2 → s.todoSym = []

omit [StarRing R] in
theorem sum_update_eq (f g : Fin T → R) (th : Fin T) (h : ∀ u, u ≠ th → f u = g u) :
    ∑ u, f u = ∑ u, g u + (f th - g th) := by
  have : f = fun u => g u + (if u = th then f th - g th else 0) := by
    funext u
    by_cases hu : u = th
    · subst hu; simp
    · rw [if_neg hu, h u hu, add_zero]
  calc ∑ u, f u = ∑ u, (g u + (if u = th then f th - g th else 0)) := by conv_lhs => rw [this]
    _ = _ := by rw [Finset.sum_add_distrib, Finset.sum_ite_eq' Finset.univ th]; simp

omit [StarRing R] in
theorem ompInv_step {fL fM : ι → Buf R → Buf R} {gL gM : ι → Buf R} {L M : List ι} {n : ℕ} {α : R} {y1 : Buf R}
    (hL : ∀ l ∈ L, ∀ o, fL l o = fun i => o i + gL l i) (hM : ∀ l ∈ M, ∀ o, fM l o = fun i => o i + gM l i)
    {s t : OmpState T ι R} (h : OmpInv gL gM L M n α y1 s) (st : OmpStep fL fM n α s t) : OmpInv gL gM L M n α y1 t := by
  cases st with
  | leaf th l before after hp hd =>
    have hl : l ∈ L := h.todo l (by rw [hd]; simp)
    refine ⟨?_, h.frame, ?_, h.todoSym, h.pc, ?_, h.pc2⟩
    · intro i hi
      have := h.sum i hi
      simp only
      rw [← this, hd]
      rw [sum_update_eq (fun u => if s.pc u = 2 then 0 else Function.update s.temp th (fL l (s.temp th)) u i)
        (fun u => if s.pc u = 2 then 0 else s.temp u i) th]
      · simp only [Function.update_self, hp]
        rw [hL l hl]
        simp only [List.map_append, List.map_cons, List.sum_append, List.sum_cons]
        simp
        ring
      · intro u hu; rw [Function.update_of_ne hu]
    · intro m hm
      apply h.todo
      rw [hd]
      simp only [List.mem_append, List.mem_cons] at hm ⊢
      tauto
    · intro u hu
      have := h.pc1 u hu
      rw [hd] at this; simp at this
  | next th hp hd =>
    refine ⟨?_, h.frame, h.todo, h.todoSym, ?_, fun _ _ => hd, ?_⟩
    · intro i hi
      rw [← h.sum i hi]
      simp only
      congr 4
      apply Finset.sum_congr rfl
      intro u _
      by_cases hu : u = th
      · subst hu; simp [hp]
      · rw [Function.update_of_ne hu]
    · intro u
      simp only
      by_cases hu : u = th
      · subst hu; simp
      · rw [Function.update_of_ne hu]; exact h.pc u
    · intro u hu
      simp only at hu
      by_cases hu' : u = th
      · subst hu'; simp at hu
      · rw [Function.update_of_ne hu'] at hu; exact h.pc2 u hu
  | mirror th l before after hp hd =>
    have hl := h.todoSym l (by rw [hd]; simp)
    refine ⟨?_, h.frame, h.todo, ?_, h.pc, h.pc1, ?_⟩
    · intro i hi
      have := h.sum i hi
      simp only
      rw [← this, hd]
      rw [sum_update_eq (fun u => if s.pc u = 2 then 0 else Function.update s.temp th (fM l (s.temp th)) u i)
        (fun u => if s.pc u = 2 then 0 else s.temp u i) th]
      · simp only [Function.update_self, hp]
        rw [hM l hl]
        simp only [List.map_append, List.map_cons, List.sum_append, List.sum_cons]
        simp
        ring
      · intro u hu; rw [Function.update_of_ne hu]
    · intro m hm
      apply h.todoSym
      rw [hd]
      simp only [List.mem_append, List.mem_cons] at hm ⊢
      tauto
    · intro u hu
      have := h.pc2 u hu
      rw [hd] at this; simp at this
  | commit th hp hd =>
    refine ⟨?_, ?_, h.todo, h.todoSym, ?_, ?_, fun _ _ => hd⟩
    · intro i hi
      rw [← h.sum i hi]
      simp only
      rw [sum_update_eq (fun u => if Function.update s.pc th 2 u = 2 then 0 else s.temp u i)
        (fun u => if s.pc u = 2 then 0 else s.temp u i) th]
      · simp only [Function.update_self, hp, axpy, if_pos hi]
        simp
        ring
      · intro u hu; rw [Function.update_of_ne hu]
    · intro i hi
      simp only [axpy]
      rw [if_neg hi, h.frame i hi]
    · intro u
      simp only
      by_cases hu : u = th
      · subst hu; simp
      · rw [Function.update_of_ne hu]; exact h.pc u
    · intro u hu
      exact h.pc1 th (by omega)

omit [StarRing R] in
theorem ompInv_run {fL fM : ι → Buf R → Buf R} {gL gM : ι → Buf R} {L M : List ι} {n : ℕ} {α : R} {y1 : Buf R}
    (hL : ∀ l ∈ L, ∀ o, fL l o = fun i => o i + gL l i) (hM : ∀ l ∈ M, ∀ o, fM l o = fun i => o i + gM l i)
    {s t : OmpState T ι R} (h : OmpInv gL gM L M n α y1 s) (st : OmpRun fL fM n α s t) : OmpInv gL gM L M n α y1 t := by
  induction st with
  | refl => exact h
  | tail _ s2 ih => exact ompInv_step hL hM ih s2

omit [StarRing R] in
theorem ompInv_init (gL gM : HTree R → Buf R) (A : HTree R) (n : ℕ) (α : R) (y1 : Buf R) :
    OmpInv gL gM (getLeavesH A).1 (if A.label.symL ≠ .N then (getLeavesH A).2 else []) n α y1 (ompInit T A y1) where
  sum := by intro i hi; simp [ompInit]
  frame := fun i hi => rfl
  todo := fun l hl => hl
  todoSym := fun l hl => hl
  pc := fun th => Or.inl rfl
  pc1 := fun th h => absurd rfl h
  pc2 := fun th h => by simp [ompInit] at h

omit [StarRing R] in
/-- At the end of the parallel region everything has been added once. -/
theorem ompInv_final {gL gM : ι → Buf R} {L M : List ι} {n : ℕ} {α : R} {y1 : Buf R} (hT : 0 < T) {s : OmpState T ι R}
    (inv : OmpInv gL gM L M n α y1 s) (hpc : ∀ th, s.pc th = 2) (i : ℕ) :
    s.out i = if i < n then y1 i + α * ((L.map (fun l => gL l i)).sum + (M.map (fun l => gM l i)).sum) else y1 i := by
  have h1 : s.todo = [] := inv.pc1 ⟨0, hT⟩ (by rw [hpc]; decide)
  have h2 : s.todoSym = [] := inv.pc2 ⟨0, hT⟩ (hpc _)
  split_ifs with hi
  · have := inv.sum i hi
    rw [h1, h2] at this
    simp only [hpc, if_true, Finset.sum_const_zero, List.map_nil, List.sum_nil, add_zero, mul_zero] at this
    exact this
  · exact inv.frame i hi

/-- Amount of work left. -/
def OmpState.work (s : OmpState T ι R) : ℕ := s.todo.length + s.todoSym.length + ∑ th, (2 - s.pc th)

omit [StarRing R] in
theorem ompStep_work {fL fM : ι → Buf R → Buf R} {n : ℕ} {α : R} {s t : OmpState T ι R} (h : OmpStep fL fM n α s t) :
    t.work < s.work := by
  have key : ∀ (th : Fin T) (k : ℕ), s.pc th < k → k ≤ 2 →
      ∑ u, (2 - Function.update s.pc th k u) < ∑ u, (2 - s.pc u) := by
    intro th k h1 h2
    apply Finset.sum_lt_sum
    · intro u _
      by_cases hu : u = th
      · subst hu; simp; omega
      · rw [Function.update_of_ne hu]
    · exact ⟨th, Finset.mem_univ _, by simp; omega⟩
  cases h with
  | leaf th l before after hp hd => unfold OmpState.work; simp [hd]
  | next th hp hd => unfold OmpState.work; have := key th 1 (by omega) (by omega); simp only; omega
  | mirror th l before after hp hd => unfold OmpState.work; simp [hd]
  | commit th hp hd => unfold OmpState.work; have := key th 2 (by omega) (by omega); simp only; omega

omit [StarRing R] in
theorem ompInv_progress {fL fM : ι → Buf R → Buf R} {gL gM : ι → Buf R} {L M : List ι} {n : ℕ} {α : R} {y1 : Buf R}
    {s : OmpState T ι R} (inv : OmpInv gL gM L M n α y1 s) (hn : ∃ th, s.pc th ≠ 2) : ∃ t, OmpStep fL fM n α s t := by
  obtain ⟨th, hth⟩ := hn
  rcases inv.pc th with h | h | h
  · cases hd : s.todo with
    | nil => exact ⟨_, .next s th h hd⟩
    | cons l L => exact ⟨_, .leaf s th l [] L h hd⟩
  · cases hd : s.todoSym with
    | nil => exact ⟨_, .commit s th h hd⟩
    | cons l L => exact ⟨_, .mirror s th l [] L h hd⟩
  · exact absurd h hth

end omp

end Htool
