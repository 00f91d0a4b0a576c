import Verif.Ddm
import Verif.Dense
import Mathlib.Algebra.Order.Field.Basic

/-! # GenEO coarse space and coarse operator

Model of `solvers/geneo/coarse_space_builder.hpp` and `solvers/geneo/coarse_operator_builder.hpp`. The generalised eigenvalue solvers of
LAPACK (`gv`, `ggev`) are arbitrary results: eigenvalues and eigenvectors. `std::sort` is any permutation sorted for the comparator. -/

namespace Htool
variable {R : Type*}

/-! ## Coarse space -/

section space
variable {F : Type*} [Field F] [LinearOrder F] [IsStrictOrderedRing F]

/-- Comparator of the symmetric branch (coarse_space_builder.hpp 95-97); `w` are the moduli of the eigenvalues. -/
def gvBefore (w : ℕ → F) (a b : ℕ) : Prop := w b < w a

/-- Comparator of the general branch (coarse_space_builder.hpp 143-145); `al`, `be` are the moduli of `alphar`, `beta` and `tiny` is 1e-15. -/
def ggevBefore (tiny : F) (al be : ℕ → F) (a b : ℕ) : Prop := (be a < tiny ∨ al b / be b < al a / be a) ∧ ¬ be b < tiny

/-- `std::sort(index)` of `0, …, n - 1` for a comparator: any result it may give. -/
def SortedIndex (n : ℕ) (before : ℕ → ℕ → Prop) (index : List ℕ) : Prop :=
  index.Perm (List.range n) ∧ index.Pairwise (fun a b => ¬ before b a)

/-- Threshold loop of the symmetric branch (coarse_space_builder.hpp 100-102): `nevi` when it stops, `none` for a read of `index` outside of
its bounds. The condition reads `index[nevi]` before it compares `nevi` with the size. The first argument bounds the number of iterations. -/
def gvLoop (w : ℕ → F) (thr : F) (index : List ℕ) : ℕ → ℕ → Option ℕ
  | 0, _ => none
  | f + 1, nevi =>
    match index[nevi]? with
    | none => none
    | some i => if thr < w i ∧ nevi < index.length then gvLoop w thr index f (nevi + 1) else some nevi

/-- Threshold loop of the general branch (coarse_space_builder.hpp 148-150). -/
def ggevLoop (tiny : F) (al be : ℕ → F) (thr : F) (index : List ℕ) : ℕ → ℕ → Option ℕ
  | 0, _ => none
  | f + 1, nevi =>
    match index[nevi]? with
    | none => none
    | some i =>
      if be i < tiny ∨ (thr < al i / be i ∧ nevi < index.length) then ggevLoop tiny al be thr index f (nevi + 1) else some nevi

/-- `nevi` in the symmetric branch (coarse_space_builder.hpp 74, 98-103). -/
def gvNevi (w : ℕ → F) (nu : ℕ) (thr : F) (index : List ℕ) : Option ℕ :=
  if 0 < thr then gvLoop w thr index (index.length + 1) 0 else some nu

/-- `nevi` in the general branch (coarse_space_builder.hpp 74, 146-151). -/
def ggevNevi (tiny : F) (al be : ℕ → F) (nu : ℕ) (thr : F) (index : List ℕ) : Option ℕ :=
  if 0 < thr then ggevLoop tiny al be thr index (index.length + 1) 0 else some nu

/-- The matrix `Z` of the coarse space (coarse_space_builder.hpp 123-129, 173-179): `vec i j` is entry `i` of eigenvector `j`. Rows of the
overlap keep the zeros of the constructor. `none` for a read of `index` outside of its bounds. -/
def geneoZ [Zero R] (nInside : ℕ) (nevi : Option ℕ) (vec : ℕ → ℕ → R) (index : List ℕ) : Option (ℕ × (ℕ → ℕ → R)) :=
  nevi.bind fun k =>
    if 0 < nInside ∧ index.length < k then none
    else some (k, fun i j => if i < nInside ∧ j < k then vec i (index.getD j 0) else 0)

end space

/-! ## Coarse operator -/

section operator
variable [CommRing R] [StarRing R]
open Finset

/-- The buffer sent by rank `i` (coarse_operator_builder.hpp 41-45, 82-100): transposed vectors, conjugated for a hermitian operator. `Z i j` is
vector `j` of rank `i`. The code zeroes the rest of `evi` and copies `n_inside` values into it. -/
def geneoBuffer (D : DOp R) (nevi : ℕ → ℕ) (Z : ℕ → ℕ → Buf R) (i : ℕ) : Buf R :=
  let b := toRM (nevi i) (D.tgt.size i) (Z i) (fun _ => 0)
  if D.sym = .H then conjBuf (D.tgt.size i * nevi i) b else b

/-- Iteration `i` of the main loop on rank `r` (coarse_operator_builder.hpp 79-125); the pair holds `AZ` and `E`. -/
def geneoStep (D : DOp R) (nevi : ℕ → ℕ) (Z : ℕ → ℕ → Buf R) (r : ℕ) (st : Buf R × (ℕ → ℕ → R)) (i : ℕ) : Option (Buf R × (ℕ → ℕ → R)) :=
  if nevi i = 0 then some st
  else do
    let az ← D.subMat r (geneoBuffer D nevi Z i) (fill0 (nevi i * D.tgt.size r) st.1) (nevi i) (D.tgt.off i) (D.tgt.size i)
    return (az, (List.range (nevi i)).foldl (fun E j => (List.range (nevi r)).foldl (fun E jj =>
      Function.update E (displs nevi i + j) (Function.update (E (displs nevi i + j)) (displs nevi r + jj)
        (∑ k ∈ range (D.tgt.size r), Z r jj k * az (j + nevi i * k)))) E) st.2)

/-- `E` of rank `r` before the reduction (coarse_operator_builder.hpp 18-125). -/
def geneoLocal (D : DOp R) (nevi : ℕ → ℕ) (Z : ℕ → ℕ → Buf R) (r : ℕ) : Option (ℕ → ℕ → R) :=
  ((List.range D.P).foldlM (geneoStep D nevi Z r) ((fun _ => 0), fun _ _ => 0)).map Prod.snd

/-- `build_geneo_coarse_operator` on rank 0, after `MPI_Reduce` (coarse_operator_builder.hpp 127-130). -/
def geneoCoarse (D : DOp R) (nevi : ℕ → ℕ) (Z : ℕ → ℕ → Buf R) : Option (ℕ → ℕ → R) :=
  (List.range D.P).foldlM (fun E r => (geneoLocal D nevi Z r).map (fun Er p q => E p q + Er p q)) (fun _ _ => 0)

end operator
end Htool
