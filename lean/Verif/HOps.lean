import Verif.HProd
import Verif.Numbering

/-! # Other operations on hierarchical matrices

Model of `copy_to_dense`, `copy_to_dense_in_user_numbering`, `copy_diagonal`, `copy_diagonal_in_user_numbering`, `get_sub_hmatrix`,
`get_child_or_this`, the copy constructor (`include/htool/hmatrix/hmatrix.hpp`) and `scale` (`include/htool/hmatrix/linalg/scale.hpp`). -/

namespace Htool
variable {R : Type*}

/-! ## Sequences of assignments -/

/-- One assignment `ptr[pos] = value`, where the value may read the buffer. -/
abbrev Assign (R : Type*) := ℕ × (Buf R → R)

/-- A sequence of assignments. -/
def runAssigns (L : List (Assign R)) (p : Buf R) : Buf R := L.foldl (fun p w => Function.update p w.1 (w.2 p)) p

/-- If every assignment writes the value `tv` wants at its place, as soon as the places in `S` hold what `tv` wants, then at the end all
places written hold it, and the others are unchanged. -/
theorem runAssigns_good (L : List (Assign R)) (S : ℕ → Prop) (tv : ℕ → R) (p0 : Buf R) (h0 : ∀ d, S d → p0 d = tv d)
    (h : ∀ w ∈ L, ∀ p : Buf R, (∀ d, S d → p d = tv d) → w.2 p = tv w.1) :
    (∀ d, S d ∨ d ∈ L.map Prod.fst → runAssigns L p0 d = tv d) ∧ (∀ d, d ∉ L.map Prod.fst → runAssigns L p0 d = p0 d) := by
  induction L generalizing S p0 with
  | nil => simp [runAssigns]; exact h0
  | cons w L ih =>
    have e : runAssigns (w :: L) p0 = runAssigns L (Function.update p0 w.1 (w.2 p0)) := rfl
    have hw : w.2 p0 = tv w.1 := h w (by simp) p0 h0
    have hS : ∀ d, (S d ∨ d = w.1) → Function.update p0 w.1 (w.2 p0) d = tv d := by
      rintro d hd
      by_cases hdw : d = w.1
      · subst hdw; simp [hw]
      · rw [Function.update_of_ne hdw]
        exact h0 d (hd.resolve_right hdw)
    obtain ⟨h1, h2⟩ := ih (fun d => S d ∨ d = w.1) _ hS
      (fun v hv p hp => h v (by simp [hv]) p (fun d hd => hp d (Or.inl hd)))
    rw [e]
    constructor
    · intro d hd
      apply h1
      simp only [List.map_cons, List.mem_cons] at hd
      tauto
    · intro d hd
      simp only [List.map_cons, List.mem_cons, not_or] at hd
      rw [h2 d hd.2, Function.update_of_ne hd.1]

theorem runAssigns_append (L M : List (Assign R)) (p : Buf R) : runAssigns (L ++ M) p = runAssigns M (runAssigns L p) := by
  unfold runAssigns; rw [List.foldl_append]

theorem runAssigns_flatMap {ι : Type*} (L : List ι) (f : ι → List (Assign R)) (p : Buf R) :
    runAssigns (L.flatMap f) p = L.foldl (fun p l => runAssigns (f l) p) p := by
  unfold runAssigns; rw [List.foldl_flatMap]

/-- The double loop `for k < nc, for j < nr`, with `k` outside. -/
def colLoop (nr nc : ℕ) : List (ℕ × ℕ) := (List.range nc).flatMap (fun k => (List.range nr).map (fun j => (j, k)))

theorem mem_colLoop {nr nc : ℕ} {x : ℕ × ℕ} : x ∈ colLoop nr nc ↔ x.1 < nr ∧ x.2 < nc := by
  obtain ⟨a, b⟩ := x
  simp only [colLoop, List.mem_flatMap, List.mem_range, List.mem_map, Prod.mk.injEq]
  constructor
  · rintro ⟨k, hk, j, hj, rfl, rfl⟩; exact ⟨hj, hk⟩
  · rintro ⟨h1, h2⟩; exact ⟨b, h2, a, h1, rfl, rfl⟩

section ops
variable [CommRing R] [StarRing R]
open Finset

/-! ## Conversion to a dense matrix -/

/-- The stored entries of a block: the dense data, or the product of the low-rank factors computed by `LowRankMatrix::copy_to_dense`
(lrmat.hpp 121-135; BLAS `gemm` with `beta = 0`). -/
def HNode.raw (n : HNode R) (i j : ℕ) : R :=
  match n.data with
  | .dense M => M i j
  | .lowRank r U V => ∑ k ∈ range r, U i k * V k j
  | .hier => 0

/-- Loop on leaves of `copy_to_dense` (hmatrix.hpp 281-302), as a sequence of assignments. -/
def copyDenseWrites (A : HNode R) (l : HNode R) : List (Assign R) :=
  (colLoop l.tsz l.ssz).map (fun x =>
    (x.1 + (l.toff - A.toff) + (x.2 + (l.soff - A.soff)) * A.tsz, fun _ => l.raw x.1 x.2))

/-- `copy_to_dense` (hmatrix.hpp 270-303). -/
def copyToDense (A : HTree R) (p : Buf R) : Buf R :=
  runAssigns ((getLeavesH A).1.flatMap (fun l => copyDenseWrites A.label l.label)) p

/-- Position of the entry `(i,j)` (cluster numbering) in the dense matrix in user numbering (hmatrix.hpp 342). -/
def userPos (pt ps : List ℕ) (A : HNode R) (i j : ℕ) : ℕ :=
  (pt.getD i 0 - A.toff) + (ps.getD j 0 - A.soff) * A.tsz

/-- First loop of `copy_to_dense_in_user_numbering` (hmatrix.hpp 332-357). -/
def copyUserWrites (pt ps : List ℕ) (A l : HNode R) : List (Assign R) :=
  (colLoop l.tsz l.ssz).map (fun x => (userPos pt ps A (x.1 + l.toff) (x.2 + l.soff), fun _ => l.raw x.1 x.2))

/-- Second loop of `copy_to_dense_in_user_numbering` (hmatrix.hpp 358-371): reads the entries written before. -/
def copyUserMirror (pt ps : List ℕ) (A l : HNode R) : List (Assign R) :=
  (colLoop l.tsz l.ssz).map (fun x =>
    (ps.getD (x.2 + l.soff) 0 - A.toff + (pt.getD (x.1 + l.toff) 0 - A.soff) * A.tsz,
      fun p => if A.symL = .S then p (userPos pt ps A (x.1 + l.toff) (x.2 + l.soff))
        else star (p (userPos pt ps A (x.1 + l.toff) (x.2 + l.soff)))))

/-- `copy_to_dense_in_user_numbering` (hmatrix.hpp 305-372); `pt`, `ps` are the permutations of the two cluster trees. -/
def copyToDenseUser (pt ps : List ℕ) (A : HTree R) (p : Buf R) : Buf R :=
  let p1 := runAssigns ((getLeavesH A).1.flatMap (fun l => copyUserWrites pt ps A.label l.label)) p
  if A.label.symL ≠ .N then runAssigns ((getLeavesH A).2.flatMap (fun l => copyUserMirror pt ps A.label l.label)) p1
  else p1

/-! ## Diagonal -/

/-- `copy_to_dense` of the low-rank data of a leaf into a `Matrix(nc, nr)` read at `(k,k)` (hmatrix.hpp 396-400): the data has leading
dimension `nr`, the matrix `nc`. Reading past the `nr * nc` entries is undefined behaviour; here it gives 0. -/
def HNode.lrDiag (n : HNode R) (k : ℕ) : R :=
  let pos := k + k * n.ssz
  if pos < n.tsz * n.ssz then n.raw (pos % n.tsz) (pos / n.tsz) else 0

/-- Value written for the `k`-th diagonal entry of a leaf (hmatrix.hpp 392-400). -/
def HNode.diagVal (n : HNode R) (k : ℕ) : R :=
  match n.data with
  | .dense M => M k k
  | .lowRank _ _ _ => n.lrDiag k
  | .hier => 0

/-- Body of the loop of `copy_diagonal` (hmatrix.hpp 387-401). -/
def copyDiagWrites (A l : HNode R) : List (Assign R) :=
  match l.data with
  | .hier => []
  | _ => if l.toff - A.toff = l.soff - A.soff then
      (List.range (min l.tsz l.ssz)).map (fun k => (k + (l.toff - A.toff), fun _ => l.diagVal k)) else []

/-- `copy_diagonal` (hmatrix.hpp 374-403). -/
def copyDiag (A : HTree R) (p : Buf R) : Buf R :=
  runAssigns ((getLeavesH A).1.flatMap (fun l => copyDiagWrites A.label l.label)) p

/-- Body of the loop of `copy_diagonal_in_user_numbering` (hmatrix.hpp 428-443). -/
def copyDiagUserWrites (pt : List ℕ) (A l : HNode R) : List (Assign R) :=
  match l.data with
  | .hier => []
  | _ => if l.toff = l.soff then
      (List.range (min l.tsz l.ssz)).map (fun k => (pt.getD (k + l.toff) 0 - A.toff, fun _ => l.diagVal k)) else []

/-- `copy_diagonal_in_user_numbering` (hmatrix.hpp 405-445). -/
def copyDiagUser (pt : List ℕ) (A : HTree R) (p : Buf R) : Buf R :=
  runAssigns ((getLeavesH A).1.flatMap (fun l => copyDiagUserWrites pt A.label l.label)) p

/-! ## Scaling -/

/-- `scale` on the data of one block (hmatrix/linalg/scale.hpp 47-51, lrmat/linalg/scale.hpp 8-14: `U` is scaled if it has more rows
than columns, `V` otherwise; matrix/linalg/scale.hpp 10-15). -/
def HNode.scaled (da : R) (n : HNode R) : HNode R :=
  { n with data := match n.data with
    | .dense M => .dense (fun i j => da * M i j)
    | .lowRank r U V => if n.tsz > r then .lowRank r (fun i k => da * U i k) V else .lowRank r U (fun k j => da * V k j)
    | .hier => .hier }

/-- `sequential_scale` (scale.hpp 38-53): every block with data, in preorder; blocks are distinct objects, so the loop is a map. -/
def hscale (da : R) (A : HTree R) : HTree R := A.map (HNode.scaled da)

/-! ## Copy -/

/-- `HMatrix(const HMatrix &)` on the data members (hmatrix.hpp 60-76): `m_symmetry_type_for_leaves()` is value-initialised,
`m_UPLO_for_leaves` keeps its default `'N'`. -/
def HNode.copied (n : HNode R) : HNode R := { n with symL := .nul, uploL := .N }

/-- The copy constructor (hmatrix.hpp 60-76), children copied recursively. -/
def hcopy (A : HTree R) : HTree R := A.map HNode.copied

/-- The copy assignment (hmatrix.hpp 77-106): the root keeps `symmetry_for_leaves`, the children are copy constructed. -/
def hassign (A : HTree R) : HTree R := .node A.label (A.children.map hcopy)

end ops

/-! ## Sub-block lookup -/

/-- Loop of `get_sub_hmatrix` (hmatrix.hpp 149-166): breadth-first search with a queue. -/
def bfsLoop {α : Type*} (p : α → Bool) (q : List (Tree α)) : Option (Tree α) :=
  match q with
  | [] => none
  | b :: q => if p b.label then some b else bfsLoop p (q ++ b.children)
  termination_by Tree.countL q
  decreasing_by
    rw [Tree.countL_append, Tree.countL_cons]
    cases b with
    | node a cs => simp only [Tree.children_node]; rw [Tree.count_node]; omega

/-- `get_sub_hmatrix` (hmatrix.hpp 149-184). `p` is "clusters equal to the required ones". -/
def getSub {α : Type*} (p : α → Bool) (b : Tree α) : Option (Tree α) := bfsLoop p [b]

/-- `get_child_or_this` (hmatrix.hpp 118-140). -/
def getChildOrThis {α : Type*} (p : α → Bool) (b : Tree α) : Option (Tree α) :=
  if p b.label then some b else b.children.find? (fun c => p c.label)

theorem bfsLoop_spec {α : Type*} (p : α → Bool) (q : List (Tree α)) :
    (∀ c, bfsLoop p q = some c → p c.label = true ∧ ∃ b ∈ q, c ∈ b.pre) ∧
    (bfsLoop p q = none → ∀ b ∈ q, ∀ c ∈ b.pre, p c.label = false) := by
  induction h : Tree.countL q using Nat.strong_induction_on generalizing q with
  | _ n ih =>
    match q with
    | [] => simp [bfsLoop]
    | b :: q =>
      rw [bfsLoop]
      by_cases hp : p b.label = true
      · simp only [hp, if_true]
        refine ⟨?_, by simp⟩
        intro c hc
        cases hc
        exact ⟨hp, b, by simp, Tree.mem_pre_self b⟩
      · simp only [hp]
        have hlt : Tree.countL (q ++ b.children) < n := by
          subst h
          rw [Tree.countL_append, Tree.countL_cons]
          cases b with
          | node a cs => simp only [Tree.children_node]; rw [Tree.count_node]; omega
        obtain ⟨h1, h2⟩ := ih _ hlt (q ++ b.children) rfl
        constructor
        · intro c hc
          obtain ⟨hc1, d, hd, hcd⟩ := h1 c hc
          refine ⟨hc1, ?_⟩
          rcases List.mem_append.1 hd with hd | hd
          · exact ⟨d, by simp [hd], hcd⟩
          · exact ⟨b, by simp, Tree.mem_pre_trans (child_mem_pre hd) hcd⟩
        · intro hn d hd c hc
          have := h2 hn
          rcases List.mem_cons.1 hd with rfl | hd
          · cases d with
            | node a cs =>
              rw [Tree.mem_pre] at hc
              rcases hc with rfl | ⟨e, he, hce⟩
              · simpa using hp
              · exact this e (List.mem_append.2 (Or.inr he)) c hce
          · exact this d (by simp [hd]) c hc

end Htool
