import Verif.BlockSym
import Mathlib.Algebra.Star.Basic
import Mathlib.Algebra.BigOperators.Group.Finset.Basic
import Mathlib.Algebra.BigOperators.Ring.Finset

/-! # Hierarchical matrices and their leaves

Model of the data of `HMatrix` (`include/htool/hmatrix/hmatrix.hpp`), of `get_leaves_from` on it, and of the matrix kernels called on
the leaves: the BLAS routines `gemv`, `symv`, `hemv` (contracts, trusted), `matrix/linalg/add_matrix_vector_product.hpp` and
`hmatrix/lrmat/linalg/add_lrmat_vector_product.hpp`.

Coefficients: a commutative ring with a conjugation `star`; for a real type `star` is the identity. Arithmetic is exact. A buffer is
a function `ℕ → R`; every operation states which indices it leaves untouched. -/

namespace Htool
variable {R : Type*}

/-- A memory buffer. -/
abbrev Buf (R : Type*) := ℕ → R

/-- Pointer arithmetic for reading, `in + k`. -/
def Buf.from' (b : Buf R) (k : ℕ) : Buf R := fun i => b (k + i)

/-- Pointer arithmetic for writing: run `f` on `out + k`. -/
def Buf.at' (k : ℕ) (f : Buf R → Buf R) (out : Buf R) : Buf R :=
  fun i => if k ≤ i then f (out.from' k) (i - k) else out i

/-- The `trans` argument of BLAS-like routines. -/
inductive Trans where
  | N | T | C
deriving DecidableEq, Repr

/-- Values of the `char` members `m_symmetry` and `m_symmetry_type_for_leaves` (hmatrix.hpp 44-47). `nul` is the value-initialised
`char` produced by the copy constructor (hmatrix.hpp 60). -/
inductive HSym where
  | N | S | H | nul
deriving DecidableEq, Repr

/-- Data of a block (hmatrix.hpp 34-42): `m_dense_data`, or `m_low_rank_data` (`U` is `rows × rank`, `V` is `rank × cols`), or
neither. -/
inductive HData (R : Type*) where
  | dense (M : ℕ → ℕ → R)
  | lowRank (rank : ℕ) (U V : ℕ → ℕ → R)
  | hier

/-- One node of an `HMatrix` (hmatrix.hpp 30-50). The clusters are replaced by their offsets and sizes, the only cluster data the
operations of this file use. -/
structure HNode (R : Type*) where
  toff : ℕ
  tsz : ℕ
  soff : ℕ
  ssz : ℕ
  sym : HSym
  uplo : UploType
  symL : HSym
  uploL : UploType
  data : HData R

/-- An `HMatrix` with its descendants. -/
abbrev HTree (R : Type*) := Tree (HNode R)

/-! ## `get_leaves_from` for any kind of block -/

section leaves
variable {α β : Type*} (sy od : α → Bool)

/-- The loop of `get_leaves_from` (hmatrix.hpp 240-268), `sy` is `get_symmetry() != 'N'`, `od` the offset test of line 259. -/
def leavesLoopG (st : List (Tree α × Bool)) : List (Tree α) × List (Tree α) :=
  match st with
  | [] => ([], [])
  | (b, fl) :: stack =>
    let r := leavesLoopG (Tree.pushAll (b.children.map (fun c => (c, sy b.label || fl))) stack)
    if b.isLeaf then
      (b :: r.1, if fl && od b.label then b :: r.2 else r.2)
    else r
  termination_by Tree.countL (st.map Prod.fst)
  decreasing_by
    simp only [Tree.pushAll_eq, List.map_append, List.map_reverse, List.map_map, Tree.countL_append,
      Tree.countL_reverse, List.map_cons, Tree.countL_cons]
    have e : ((Prod.fst : Tree α × Bool → Tree α) ∘ fun c => (c, sy b.label || fl)) = id := rfl
    rw [e, List.map_id]
    cases b with
    | node a cs => simp only [Tree.children_node]; rw [Tree.count_node]; omega

/-- `get_leaves_from` (hmatrix.hpp 240-268). -/
def getLeavesG (b : Tree α) : List (Tree α) × List (Tree α) := leavesLoopG sy od [(b, sy b.label)]

mutual
/-- Mirrored leaves of a block, by recursion on the tree. -/
def symLeavesG (fl : Bool) : Tree α → List (Tree α)
  | .node a cs => if cs.isEmpty then (if fl && od a then [.node a cs] else []) else symLeavesGL (sy a || fl) cs
/-- Mirrored leaves of several blocks. -/
def symLeavesGL (fl : Bool) : List (Tree α) → List (Tree α)
  | [] => []
  | c :: cs => symLeavesG fl c ++ symLeavesGL fl cs
end

theorem symLeavesGL_eq (fl : Bool) (cs : List (Tree α)) :
    symLeavesGL sy od fl cs = cs.flatMap (symLeavesG sy od fl) := by
  induction cs with
  | nil => rfl
  | cons c cs ih => simp [symLeavesGL, ih]

theorem symLeavesG_leaf (fl : Bool) (a : α) :
    symLeavesG sy od fl (.node a []) = if fl && od a then [.node a []] else [] := by
  rw [symLeavesG]; simp

theorem symLeavesG_node (fl : Bool) (a : α) {cs : List (Tree α)} (h : cs ≠ []) :
    symLeavesG sy od fl (.node a cs) = cs.flatMap (symLeavesG sy od (sy a || fl)) := by
  rw [symLeavesG, if_neg (by simpa using h), symLeavesGL_eq]

theorem leavesLoopG_perm (st : List (Tree α × Bool)) :
    (leavesLoopG sy od st).1.Perm (st.flatMap (fun x => x.1.leaves)) ∧
    (leavesLoopG sy od st).2.Perm (st.flatMap (fun x => symLeavesG sy od x.2 x.1)) := by
  induction h : Tree.countL (st.map Prod.fst) using Nat.strong_induction_on generalizing st with
  | _ n ih =>
    match st with
    | [] => simp [leavesLoopG]
    | (.node a cs, fl) :: rest =>
      rw [leavesLoopG, Tree.pushAll_eq]
      have hlt : Tree.countL ((((Tree.node a cs).children.map
          (fun c => (c, sy (Tree.node a cs).label || fl))).reverse ++ rest).map Prod.fst) < n := by
        subst h
        simp only [List.map_append, List.map_reverse, List.map_map, Tree.countL_append,
          Tree.countL_reverse, List.map_cons, Tree.countL_cons, Tree.children_node]
        have e : ((Prod.fst : Tree α × Bool → Tree α) ∘
          fun c => (c, sy (Tree.node a cs).label || fl)) = id := rfl
        rw [e, List.map_id, Tree.count_node]; omega
      obtain ⟨h1, h2⟩ := ih _ hlt _ rfl
      simp only [Tree.children_node, Tree.label_node] at h1 h2 ⊢
      by_cases hc : cs = []
      · subst hc
        have hl : (Tree.node a ([] : List (Tree α))).isLeaf = true := isLeaf_iff.2 rfl
        simp only [hl, if_true]
        simp only [List.map_nil, List.reverse_nil, List.nil_append] at h1 h2
        simp only [List.map_nil, List.reverse_nil, List.nil_append, List.flatMap_cons]
        refine ⟨?_, ?_⟩
        · have : (Tree.node a ([] : List (Tree α))).leaves = [Tree.node a []] := by
            simp [Tree.leaves]
          rw [this]
          exact List.Perm.cons _ h1
        · rw [symLeavesG_leaf]
          by_cases hf : (fl && od a) = true
          · rw [if_pos hf, if_pos hf]; exact List.Perm.cons _ h2
          · rw [if_neg hf, if_neg hf]; exact h2
      · have hl : (Tree.node a cs).isLeaf = false := isLeaf_false.2 hc
        simp only [hl, Bool.false_eq_true, if_false]
        rw [List.flatMap_append] at h1 h2
        simp only [List.flatMap_cons]
        refine ⟨?_, ?_⟩
        · rw [Tree.leaves_node_ne hc, Tree.leavesL_eq]
          refine h1.trans (List.Perm.append_right _ ?_)
          refine (flatMap_reverse_perm _ _).trans ?_
          rw [List.flatMap_map]
        · rw [symLeavesG_node _ _ _ _ hc]
          refine h2.trans (List.Perm.append_right _ ?_)
          refine (flatMap_reverse_perm _ _).trans ?_
          rw [List.flatMap_map]

theorem getLeavesG_perm (b : Tree α) :
    (getLeavesG sy od b).1.Perm b.leaves ∧ (getLeavesG sy od b).2.Perm (symLeavesG sy od (sy b.label) b) := by
  have := leavesLoopG_perm sy od [(b, sy b.label)]
  simpa [getLeavesG] using this

theorem symLeavesG_sub {fl : Bool} {b c : Tree α} (h : c ∈ symLeavesG sy od fl b) : c ∈ b.leaves := by
  induction b using Tree.ind generalizing fl with
  | h a cs ih =>
    by_cases hc : cs = []
    · subst hc
      rw [symLeavesG_leaf] at h
      split_ifs at h
      · simpa [Tree.leaves] using h
      · simp at h
    · rw [symLeavesG_node _ _ _ _ hc, List.mem_flatMap] at h
      obtain ⟨d, hd, hcd⟩ := h
      rw [Tree.leaves_node_ne hc, Tree.mem_leavesL]
      exact ⟨d, hd, ih d hd hcd⟩

end leaves

/-! ## Trees of the same shape -/

namespace Tree
variable {α β : Type*}

mutual
/-- Same shape, related labels. -/
def Rel (r : α → β → Prop) : Tree α → Tree β → Prop
  | .node a cs, .node b ds => r a b ∧ RelL r cs ds
/-- Same shape for forests. -/
def RelL (r : α → β → Prop) : List (Tree α) → List (Tree β) → Prop
  | [], [] => True
  | c :: cs, d :: ds => Rel r c d ∧ RelL r cs ds
  | _, _ => False
end

theorem RelL_iff {r : α → β → Prop} : ∀ {cs : List (Tree α)} {ds : List (Tree β)},
    RelL r cs ds ↔ List.Forall₂ (Rel r) cs ds
  | [], [] => by simp [RelL]
  | [], _ :: _ => by simp [RelL]
  | _ :: _, [] => by simp [RelL]
  | c :: cs, d :: ds => by simp [RelL, RelL_iff]

theorem Rel_node {r : α → β → Prop} {a : α} {b : β} {cs ds} :
    Rel r (.node a cs) (.node b ds) ↔ r a b ∧ List.Forall₂ (Rel r) cs ds := by
  rw [Rel, RelL_iff]

theorem Rel.label {r : α → β → Prop} {t : Tree α} {u : Tree β} (h : Rel r t u) : r t.label u.label := by
  cases t; cases u; exact (Rel_node.1 h).1

theorem forall₂_flatMap {γ δ : Type*} {p : α → β → Prop} {q : γ → δ → Prop} {f : α → List γ} {g : β → List δ}
    {l : List α} {m : List β} (h : List.Forall₂ p l m) (hf : ∀ a ∈ l, ∀ b, p a b → List.Forall₂ q (f a) (g b)) :
    List.Forall₂ q (l.flatMap f) (m.flatMap g) := by
  induction h with
  | nil => simp
  | cons h1 h2 ih =>
    simp only [List.flatMap_cons]
    exact List.rel_append (hf _ (by simp) _ h1) (ih (fun a ha b hab => hf a (by simp [ha]) b hab))

theorem Rel.leaves {r : α → β → Prop} {t : Tree α} : ∀ {u : Tree β}, Rel r t u →
    List.Forall₂ (Rel r) t.leaves u.leaves := by
  induction t using Tree.ind with
  | h a cs ih =>
    intro u h
    cases u with
    | node b ds =>
      have h' := Rel_node.1 h
      by_cases hc : cs = []
      · subst hc
        have hd : ds = [] := by simpa using h'.2
        subst hd
        simp only [Tree.leaves, List.isEmpty_nil, if_true]
        exact .cons h .nil
      · have hd : ds ≠ [] := by rintro rfl; exact hc (by simpa using h'.2)
        rw [leaves_node_ne hc, leaves_node_ne hd, leavesL_eq, leavesL_eq]
        exact forall₂_flatMap h'.2 (fun a ha b hab => ih a ha hab)

theorem Rel.symLeaves {r : α → β → Prop} {sy od : α → Bool} {sy' od' : β → Bool}
    (hr : ∀ a b, r a b → sy a = sy' b ∧ od a = od' b) {t : Tree α} : ∀ {u : Tree β} {fl : Bool}, Rel r t u →
    List.Forall₂ (Rel r) (symLeavesG sy od fl t) (symLeavesG sy' od' fl u) := by
  induction t using Tree.ind with
  | h a cs ih =>
    intro u fl h
    cases u with
    | node b ds =>
      have h' := Rel_node.1 h
      obtain ⟨e1, e2⟩ := hr a b h'.1
      by_cases hc : cs = []
      · subst hc
        have hd : ds = [] := by simpa using h'.2
        subst hd
        rw [symLeavesG_leaf, symLeavesG_leaf, e2]
        split_ifs
        · exact .cons h .nil
        · exact .nil
      · have hd : ds ≠ [] := by rintro rfl; exact hc (by simpa using h'.2)
        rw [symLeavesG_node _ _ _ _ hc, symLeavesG_node _ _ _ _ hd, e1]
        exact forall₂_flatMap h'.2 (fun a ha b hab => ih a ha hab)

theorem Rel.mono {r s : α → β → Prop} (hrs : ∀ a b, r a b → s a b) {t : Tree α} : ∀ {u : Tree β}, Rel r t u → Rel s t u := by
  induction t using Tree.ind with
  | h a cs ih =>
    intro u h
    cases u with
    | node b ds =>
      rw [Rel_node] at h ⊢
      refine ⟨hrs _ _ h.1, ?_⟩
      have h2 := h.2
      clear h
      induction h2 with
      | nil => exact .nil
      | cons h1 h2 ih2 => exact .cons (ih _ (by simp) h1) (ih2 (fun c hc => ih c (by simp [hc])))

theorem Rel.trans {γ : Type*} {r : α → β → Prop} {s : β → γ → Prop} {q : α → γ → Prop} (hq : ∀ a b c, r a b → s b c → q a c)
    {t : Tree α} : ∀ {u : Tree β} {v : Tree γ}, Rel r t u → Rel s u v → Rel q t v := by
  induction t using Tree.ind with
  | h a cs ih =>
    intro u v h1 h2
    cases u with
    | node b ds =>
      cases v with
      | node c es =>
        rw [Rel_node] at h1 h2 ⊢
        refine ⟨hq _ _ _ h1.1 h2.1, ?_⟩
        have k1 := h1.2
        have k2 := h2.2
        clear h1 h2
        induction k1 generalizing es with
        | nil => cases k2; exact .nil
        | cons x1 x2 ih2 =>
          cases k2 with
          | cons y1 y2 => exact .cons (ih _ (by simp) x1 y1) (ih2 (fun c hc => ih c (by simp [hc])) _ y2)

mutual
/-- Apply a function to every label. -/
def map (f : α → β) : Tree α → Tree β
  | .node a cs => .node (f a) (mapL f cs)
/-- Apply a function to every label of a forest. -/
def mapL (f : α → β) : List (Tree α) → List (Tree β)
  | [] => []
  | c :: cs => map f c :: mapL f cs
end

theorem mapL_eq (f : α → β) (cs : List (Tree α)) : mapL f cs = cs.map (map f) := by
  induction cs with
  | nil => rfl
  | cons c cs ih => simp [mapL, ih]

theorem map_node (f : α → β) (a : α) (cs) : map f (.node a cs) = .node (f a) (cs.map (map f)) := by
  rw [map, mapL_eq]

theorem Rel_map (f : α → β) (t : Tree α) : Rel (fun a b => b = f a) t (map f t) := by
  induction t using Tree.ind with
  | h a cs ih =>
    rw [map_node, Rel_node]
    refine ⟨rfl, ?_⟩
    rw [List.forall₂_map_right_iff, List.forall₂_same]
    exact ih

end Tree

/-! ## Matrix kernels -/

section kernels
variable [CommRing R] [StarRing R]
open Finset

/-- `op(M)` entrywise. -/
def opE (tr : Trans) (M : ℕ → ℕ → R) (i j : ℕ) : R :=
  match tr with
  | .N => M i j
  | .T => M j i
  | .C => star (M j i)

/-- Number of rows of `op(M)` when `M` is `nr × nc`. -/
def opRows (tr : Trans) (nr nc : ℕ) : ℕ := if tr = .N then nr else nc
/-- Number of columns of `op(M)` when `M` is `nr × nc`. -/
def opCols (tr : Trans) (nr nc : ℕ) : ℕ := if tr = .N then nc else nr

/-- BLAS `gemv` (contract): `y := alpha op(A) x + beta y`, returning at once for an empty matrix. Called by
`add_matrix_vector_product` (add_matrix_vector_product.hpp 9-17). -/
def gemv (tr : Trans) (nr nc : ℕ) (α : R) (M : ℕ → ℕ → R) (x : Buf R) (β : R) (y : Buf R) : Buf R :=
  if nr = 0 ∨ nc = 0 then y
  else fun i => if i < opRows tr nr nc then
      α * (∑ j ∈ range (opCols tr nr nc), opE tr M i j * x j) + β * y i else y i

/-- Entry of the symmetric matrix of which only one triangle is referenced. An invalid `UPLO` makes BLAS stop; the theorems exclude
it. -/
def symE (u : UploType) (M : ℕ → ℕ → R) (i j : ℕ) : R :=
  match u with
  | .U => if i ≤ j then M i j else M j i
  | _ => if j ≤ i then M i j else M j i

/-- Entry of the hermitian matrix of which only one triangle is referenced. BLAS takes the diagonal to be real; the theorems assume
it is. -/
def herE (u : UploType) (M : ℕ → ℕ → R) (i j : ℕ) : R :=
  match u with
  | .U => if i ≤ j then M i j else star (M j i)
  | _ => if j ≤ i then M i j else star (M j i)

/-- BLAS `symv` (contract) called by `add_symmetric_matrix_vector_product` (add_matrix_vector_product.hpp 19-29). -/
def symv (u : UploType) (n : ℕ) (α : R) (M : ℕ → ℕ → R) (x : Buf R) (β : R) (y : Buf R) : Buf R :=
  fun i => if i < n then α * (∑ j ∈ range n, symE u M i j * x j) + β * y i else y i

/-- BLAS `hemv` (contract) called by `add_hermitian_matrix_vector_product` (add_matrix_vector_product.hpp 36-46). -/
def hemv (u : UploType) (n : ℕ) (α : R) (M : ℕ → ℕ → R) (x : Buf R) (β : R) (y : Buf R) : Buf R :=
  fun i => if i < n then α * (∑ j ∈ range n, herE u M i j * x j) + β * y i else y i

/-- `add_lrmat_vector_product` (add_lrmat_vector_product.hpp 9-26). -/
def lrmatVec (tr : Trans) (α : R) (nr nc rank : ℕ) (U V : ℕ → ℕ → R) (x : Buf R) (β : R) (y : Buf R) : Buf R :=
  if rank ≠ 0 then
    if tr = .N then
      let a := gemv tr rank nc 1 V x 0 (fun _ => 0)
      gemv tr nr rank α U a β y
    else
      let a := gemv tr nr rank 1 U x 0 (fun _ => 0)
      gemv tr rank nc α V a β y
  else y

/-- `internal_add_hmatrix_vector_product` on a block without children (add_hmatrix_vector_product.hpp 16-54). `cplx`: the coefficient
type is complex, so the second overload is chosen. A childless block without data would make the code recurse forever; the theorems
exclude it, here it does nothing. -/
def leafVec (cplx : Bool) (tr : Trans) (α : R) (n : HNode R) (x : Buf R) (β : R) (y : Buf R) : Buf R :=
  match n.data with
  | .dense M =>
    match n.sym with
    | .N => gemv tr n.tsz n.ssz α M x β y
    | .S => symv n.uplo n.tsz α M x β y
    | .H => if cplx then hemv n.uplo n.tsz α M x β y else y
    | .nul => y
  | .lowRank r U V => lrmatVec tr α n.tsz n.ssz r U V x β y
  | .hier => y

end kernels

end Htool
