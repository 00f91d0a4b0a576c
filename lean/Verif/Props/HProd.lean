import Verif.HProd
import Mathlib.NumberTheory.Zsqrtd.GaussianInt
import Mathlib.Algebra.BigOperators.Fin
import Mathlib.Tactic.FinCases

/-! # Properties C19, C20: products of an H-matrix and a vector -/

namespace Htool
variable {R : Type*} [CommRing R] [StarRing R] [DecidableEq R]
open Finset

/-- **C19.** The sequential product adds `alpha` times `op` of the represented operator times the input to `beta` times the output, and
writes nowhere else. -/
theorem C19_sequential_product {cplx : Bool} {σ : HSym} {A : HTree R} (hA : A.Fit cplx σ) {tr : Trans} (hsup : Supported R σ tr)
    (α β : R) (x y : Buf R) (i : ℕ) :
    seqVec cplx tr α A x β y i =
      if i < opRows tr A.label.tsz A.label.ssz then
        β * y i + α * ∑ j ∈ range (opCols tr A.label.tsz A.label.ssz), opE tr A.mat i j * x j
      else y i := by
  have hp := getLeavesH_perm A
  have key : seqVec cplx tr α A x β y = fun i => betaScale β (A.label.outSize tr) y i +
      α * ((((getLeavesH A).1.map (fun l => leafG tr A.label x l i)).sum +
      ((if A.label.symL ≠ .N then (getLeavesH A).2 else []).map (fun l => mirrorG tr A.label x l i)).sum)) := by
    unfold seqVec
    simp only
    rw [foldl_add (fun l o => leafStep cplx tr A.label x α l.label o) (fun l => leafG tr A.label x l) α _
      (fun l hl o => leafStep_eq hA hsup (hp.1.mem_iff.1 hl) α x o)]
    split_ifs with hN
    · rw [foldl_add (fun l o => mirrorStep cplx tr A.label x α l.label o) (fun l => mirrorG tr A.label x l) α _
        (fun l hl o => mirrorStep_eq hA hsup hN hl α x o)]
      funext i; ring
    · funext i; simp
  rw [key]
  simp only
  rw [total_eq, betaScale_eq]
  by_cases hi : i < A.label.outSize tr
  · rw [if_pos hi, if_pos (show i < opRows tr _ _ from hi)]; rfl
  · rw [if_neg hi, if_neg (show ¬ i < opRows tr _ _ from hi)]
    have : ∀ j ∈ range (A.label.inSize tr), opE tr A.mat i j * x j = 0 := by
      intro j _
      suffices h : opE tr A.mat i j = 0 by rw [h, zero_mul]
      unfold HTree.mat HTree.entry
      rw [opE_add, opE_list_sum]
      have z1 : ((getLeavesH A).1.map (fun l => opE tr (fun i j => l.label.own (A.label.toff + i) (A.label.soff + j)) i j)).sum = 0 := by
        apply List.sum_eq_zero
        intro v hv
        obtain ⟨l, hl, rfl⟩ := List.mem_map.1 hv
        obtain ⟨h1, h2⟩ := hA.inside l (hp.1.mem_iff.1 hl)
        rw [own_op h1 h2, if_neg]
        rintro ⟨hw, -⟩
        apply hi
        unfold win at hw; unfold Inside at h1 h2; simp only at h1 h2
        unfold HNode.outOff HNode.outSize opRows at *
        split_ifs at hw ⊢ <;> omega
      rw [z1, zero_add]
      split_ifs with hN
      · rw [opE_list_sum]
        apply List.sum_eq_zero
        intro v hv
        obtain ⟨l, hl, rfl⟩ := List.mem_map.1 hv
        obtain ⟨-, h1, h2⟩ := hA.mirror l hl
        rw [mirror_op h1 h2 hN (by rw [hA.lab.resolve_left hN]; exact hsup), if_neg]
        rintro ⟨hw, -⟩
        apply hi
        unfold win at hw; unfold Inside at h1 h2; simp only at h1 h2
        unfold HNode.outOff HNode.inOff HNode.outSize opRows HNode.transSym at *
        split_ifs at hw ⊢ <;> first | omega | simp_all
      · cases tr <;> simp [opE]
    rw [Finset.sum_eq_zero this, mul_zero, add_zero]

omit [DecidableEq R] in
/-- An H-matrix represents the matrix `M` (cluster numbering): every stored block agrees with `M`, the mirrored blocks agree with the
(conjugate) transpose of `M`, and stored blocks together with mirror images cover every entry of the root block exactly once. -/
structure HTree.Represents (A : HTree R) (M : ℕ → ℕ → R) : Prop where
  own : ∀ l ∈ (getLeavesH A).1, ∀ i j, l.label.Has i j → l.label.val (i - l.label.toff) (j - l.label.soff) = M i j
  mirror : ∀ l ∈ (getLeavesH A).2, ∀ i j, l.label.Has i j →
    M j i = if A.label.symL = .S then M i j else star (M i j)
  flag : (getLeavesH A).2 ≠ [] → A.label.symL ≠ .N
  cover : ∀ i j, A.label.Has i j →
    (getLeavesH A).1.countP (fun l => decide (l.label.Has i j)) + (getLeavesH A).2.countP (fun l => decide (l.label.Has j i)) = 1

omit [StarRing R] [DecidableEq R] in
theorem sum_countP {ι : Type*} (L : List ι) (p : ι → Prop) [DecidablePred p] (f : ι → R) (c : R)
    (h : ∀ l ∈ L, f l = if p l then c else 0) : (L.map f).sum = (L.countP (fun l => decide (p l)) : ℕ) • c := by
  induction L with
  | nil => simp
  | cons l L ih =>
    rw [List.map_cons, List.sum_cons, h l (by simp), ih (fun m hm => h m (by simp [hm])), List.countP_cons, add_smul]
    split_ifs <;> simp_all [add_comm]

omit [DecidableEq R] in
theorem HTree.Represents.entry_eq {A : HTree R} {M : ℕ → ℕ → R} (h : A.Represents M) {i j : ℕ} (hij : A.label.Has i j) :
    A.entry i j = M i j := by
  have hp := getLeavesH_perm A
  unfold HTree.entry
  rw [sum_countP _ (fun l => l.label.Has i j) _ (M i j)]
  · have : (if A.label.symL ≠ .N then ((getLeavesH A).2.map (fun l => l.label.mirror A.label.symL i j)).sum else 0) =
        ((getLeavesH A).2.countP (fun l => decide (l.label.Has j i)) : ℕ) • M i j := by
      split_ifs with hN
      · apply sum_countP
        intro l hl
        have hl1 : l ∈ (getLeavesH A).1 := hp.1.mem_iff.2 (symLeavesG_sub _ _ (hp.2.mem_iff.1 hl))
        unfold HNode.mirror HNode.own
        by_cases hb : l.label.Has j i
        · rw [if_pos hb, if_pos hb, h.mirror l hl j i hb, h.own l hl1 j i hb]
        · rw [if_neg hb, if_neg hb]; simp
      · have : (getLeavesH A).2 = [] := by
          by_contra hne; exact hN (h.flag hne)
        rw [this]; simp
    rw [this, ← add_smul, h.cover i j hij, one_smul]
  · intro l hl
    unfold HNode.own
    by_cases hb : l.label.Has i j
    · rw [if_pos hb, if_pos hb, h.own l hl i j hb]
    · rw [if_neg hb, if_neg hb]

/-- **C19.** An H-matrix representing `M` multiplies like `M`. -/
theorem C19_product_of_represented_matrix {cplx : Bool} {σ : HSym} {A : HTree R} (hA : A.Fit cplx σ) {M : ℕ → ℕ → R} (hM : A.Represents M)
    {tr : Trans} (hsup : Supported R σ tr) (α β : R) (x y : Buf R) (i : ℕ) :
    seqVec cplx tr α A x β y i =
      if i < opRows tr A.label.tsz A.label.ssz then
        β * y i + α * ∑ j ∈ range (opCols tr A.label.tsz A.label.ssz),
          opE tr (fun a b => M (A.label.toff + a) (A.label.soff + b)) i j * x j
      else y i := by
  rw [C19_sequential_product hA hsup]
  split_ifs with hi
  · congr 2
    apply Finset.sum_congr rfl
    intro j hj
    have hj := Finset.mem_range.1 hj
    congr 1
    have e : ∀ a b, a < A.label.tsz → b < A.label.ssz → A.mat a b = M (A.label.toff + a) (A.label.soff + b) := by
      intro a b ha hb
      apply hM.entry_eq
      unfold HNode.Has InIv
      simp only
      omega
    cases tr with
    | N => exact e _ _ (by simpa [opRows] using hi) (by simpa [opCols] using hj)
    | T => exact e _ _ (by simpa [opCols] using hj) (by simpa [opRows] using hi)
    | C => simp only [opE]; rw [e _ _ (by simpa [opCols] using hj) (by simpa [opRows] using hi)]
  · rfl

/-! ## C20: every schedule -/

theorem ompVec_inv {T : ℕ} {cplx : Bool} {σ : HSym} {A : HTree R} (hA : A.Fit cplx σ) {tr : Trans} (hsup : Supported R σ tr)
    {α β : R} {x y : Buf R} {s : OmpState T (HTree R) R} (h : OmpVecReach T cplx tr α A x β y s) :
    OmpInv (leafG tr A.label x) (mirrorG tr A.label x) (getLeavesH A).1 (if A.label.symL ≠ .N then (getLeavesH A).2 else [])
      (A.label.outSize tr) α (betaScale β (A.label.outSize tr) y) s := by
  refine ompInv_run ?_ ?_ (ompInv_init _ _ A _ α _) h
  · intro l hl o
    rw [leafStep_eq hA hsup ((getLeavesH_perm A).1.mem_iff.1 hl)]
    simp
  · intro l hl o
    split_ifs at hl with hN
    · rw [mirrorStep_eq hA hsup hN hl]; simp
    · simp at hl

/-- **C20.** Whatever the number of threads, the assignment of leaves to threads, the interleaving and the order of the critical
sections, the parallel product ends with the output of the sequential one. -/
theorem C20_parallel_product_is_sequential {T : ℕ} (hT : 0 < T) {cplx : Bool} {σ : HSym} {A : HTree R} (hA : A.Fit cplx σ) {tr : Trans}
    (hsup : Supported R σ tr) {α β : R} {x y z : Buf R} (h : OmpVec T cplx tr α A x β y z) :
    z = seqVec cplx tr α A x β y := by
  obtain ⟨s, hr, hpc, rfl⟩ := h
  have inv := ompVec_inv hA hsup hr
  funext i
  rw [C19_sequential_product hA hsup, ompInv_final hT inv hpc, total_eq, betaScale_eq]
  unfold HNode.outSize HNode.inSize
  split_ifs <;> rfl

omit [DecidableEq R] in
/-- **C20.** The parallel product cannot run forever: every step decreases the work left. -/
theorem C20_parallel_product_terminates {T : ℕ} {cplx : Bool} {tr : Trans} {α : R} {A : HTree R} {x : Buf R}
    {s t : OmpState T (HTree R) R}
    (h : OmpStep (fun l => leafStep cplx tr A.label x 1 l.label) (fun l => mirrorStep cplx tr A.label x 1 l.label)
      (A.label.outSize tr) α s t) : t.work < s.work := ompStep_work h

/-- **C20.** The parallel product cannot get stuck: as long as a thread has not finished, some step is possible. -/
theorem C20_parallel_product_progresses {T : ℕ} {cplx : Bool} {tr : Trans} {α β : R} {A : HTree R} {x y : Buf R}
    {σ : HSym} {s : OmpState T (HTree R) R} (hA : A.Fit cplx σ) (hsup : Supported R σ tr)
    (hr : OmpVecReach T cplx tr α A x β y s) (hn : ∃ th, s.pc th ≠ 2) :
    ∃ t, OmpStep (fun l => leafStep cplx tr A.label x 1 l.label) (fun l => mirrorStep cplx tr A.label x 1 l.label)
      (A.label.outSize tr) α s t := ompInv_progress (ompVec_inv hA hsup hr) hn

/-- **C20.** Every state the parallel product can reach leads to a complete execution; in particular complete executions exist. -/
theorem C20_parallel_product_completes {T : ℕ} {cplx : Bool} {tr : Trans} {α β : R} {A : HTree R} {x y : Buf R}
    {σ : HSym} {s : OmpState T (HTree R) R} (hA : A.Fit cplx σ) (hsup : Supported R σ tr)
    (hr : OmpVecReach T cplx tr α A x β y s) : ∃ z, OmpVec T cplx tr α A x β y z := by
  induction hn : s.work using Nat.strong_induction_on generalizing s with
  | _ n ih =>
    by_cases h : ∃ th, s.pc th ≠ 2
    · obtain ⟨t, ht⟩ := C20_parallel_product_progresses hA hsup hr h
      exact ih _ (hn ▸ ompStep_work ht) (.tail hr ht) rfl
    · exact ⟨s.out, s, hr, fun th => not_not.1 (fun hth => h ⟨th, hth⟩), rfl⟩

/-! ## Unsupported combinations and concrete cases -/

/-- Dense leaf with a given symmetry; used in examples. -/
def exLeaf (t : ℕ × ℕ) (s : ℕ × ℕ) (sym : HSym) (uplo : UploType) (M : ℕ → ℕ → GaussianInt) : HTree GaussianInt :=
  .node ⟨t.1, t.2, s.1, s.2, sym, uplo, sym, uplo, .dense M⟩ []

/-- A 4 × 4 hermitian H-matrix: two diagonal leaves (lower triangle stored), one low-rank leaf below the diagonal. -/
def exHerm : HTree GaussianInt :=
  .node ⟨0, 4, 0, 4, .H, .L, .H, .L, .hier⟩
    [exLeaf (0, 2) (0, 2) .H .L (fun i j => if i = j then 3 else ⟨1, 1⟩),
     .node ⟨2, 2, 0, 2, .N, .N, .N, .N, .lowRank 1 (fun i _ => ⟨i, 1⟩) (fun _ j => ⟨1, j⟩)⟩ [],
     exLeaf (2, 2) (2, 2) .H .L (fun i j => if i = j then 5 else ⟨0, 2⟩)]

/-- A sequential product with the hermitian example, `trans = 'C'`. -/
example : (List.range 5).map (seqVec true .C (⟨2, 0⟩ : GaussianInt) exHerm (fun i => ⟨i, 1⟩) ⟨0, 1⟩ (fun _ => 1)) =
    (List.range 5).map (fun i => if i < 4 then ⟨0, 1⟩ * 1 + ⟨2, 0⟩ * ∑ j ∈ range 4, opE .C exHerm.mat i j * (⟨j, 1⟩ : GaussianInt) else 1) := by
  decide +kernel

theorem exHerm_fit : exHerm.Fit true .H where
  lab := Or.inr rfl
  leafOK := by
    intro l hl
    simp only [exHerm, exLeaf, Tree.leaves, Tree.leavesL, List.mem_append, List.mem_singleton, List.append_nil] at hl
    rcases hl with rfl | rfl | rfl
    · constructor <;> simp
    · constructor <;> simp
    · constructor <;> simp
  inside := by
    intro l hl
    simp only [exHerm, exLeaf, Tree.leaves, Tree.leavesL, List.mem_append, List.mem_singleton, List.append_nil] at hl
    rcases hl with rfl | rfl | rfl <;> simp [exHerm, Inside]
  mirror := by
    intro l hl
    have hl := (getLeavesH_perm exHerm).2.mem_iff.1 hl
    simp [exHerm, exLeaf, symLeavesG, symLeavesGL, HNode.isSym, HNode.offDiag] at hl
    subst hl
    simp [exHerm, Inside]

/-- The hypotheses of C19 and C20 are met by `exHerm` with `trans = 'N'` and `'C'`. -/
example : Supported GaussianInt exHerm.label.symL .N ∧ Supported GaussianInt exHerm.label.symL .C :=
  ⟨Or.inl (by decide), Or.inl (by decide)⟩

/-- A run of the parallel product with two threads can start (and, by progress and termination, finish). -/
example : ∃ t, OmpStep (T := 2) (fun l : HTree GaussianInt => leafStep true .N exHerm.label (fun _ => 1) 1 l.label)
    (fun l => mirrorStep true .N exHerm.label (fun _ => 1) 1 l.label) (exHerm.label.outSize .N) 1
    (ompInit 2 exHerm (betaScale 0 4 (fun _ => 0))) t :=
  C20_parallel_product_progresses (x := fun _ => 1) (β := 0) (y := fun _ => 0) exHerm_fit (Or.inl (by decide)) (.refl _)
    ⟨0, by decide⟩

/-- A 1 × 1 complex symmetric matrix `(i)`. -/
def exSym1 : HTree GaussianInt := exLeaf (0, 1) (0, 1) .S .L (fun _ _ => ⟨0, 1⟩)

/-- A 2 × 2 hermitian matrix with rows `(0, -i)`, `(i, 0)`. -/
def exHerm2 : HTree GaussianInt := exLeaf (0, 2) (0, 2) .H .L (fun i j => if i = j then 0 else ⟨0, 1⟩)

/-- **C19, disagreement.** Outside the supported combinations the vector product silently returns a wrong result: conjugate transpose
with a complex symmetric matrix, transpose with a hermitian one. The row-major product logs an error in these cases, the vector
product does not. -/
theorem C19_unsupported_combinations_wrong :
    seqVec true .C (1 : GaussianInt) exSym1 (fun _ => 1) 0 (fun _ => 0) 0 ≠ ∑ j ∈ range 1, opE .C exSym1.mat 0 j * 1 ∧
    seqVec true .T (1 : GaussianInt) exHerm2 (fun _ => 1) 0 (fun _ => 0) 0 ≠ ∑ j ∈ range 2, opE .T exHerm2.mat 0 j * 1 := by
  constructor <;> decide +kernel

end Htool
