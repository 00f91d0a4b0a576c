import Verif.Dense

/-! # Low-rank matrices

Model of `include/htool/hmatrix/lrmat/lrmat.hpp` (products), of `lrmat/linalg/add_lrmat_matrix_product.hpp`, `add_matrix_lrmat_product.hpp`,
`add_lrmat_lrmat_product.hpp`, `add_lrmat_lrmat.hpp` and `scale.hpp`. Products with vectors and row-major products are `lrmatVec`
(`Verif/HMat.lean`) and `lrmatRM` (`Verif/HProdRM.lean`). Recompression is an argument `rc` of the operations with a low-rank result; it is
modelled in `Verif/Recompression.lean`. The member products of `LowRankMatrix` (lrmat.hpp 57-119) call members of `Matrix` which are
commented out (matrix.hpp 315-398) and cannot be instantiated: they are not modelled. -/

namespace Htool
variable {R : Type*}

/-- `LowRankMatrix` (lrmat.hpp 16-21). -/
structure LR (R : Type*) where
  U : Mat R
  V : Mat R

/-- `rank_of` (lrmat.hpp 44). -/
def LR.rank (A : LR R) : ℕ := A.U.nc

/-- `std::copy_n(src + so, n, dst + d)`. -/
def copyTo (n : ℕ) (src : Buf R) (so : ℕ) (dst : Buf R) (d : ℕ) : Buf R :=
  fun p => if d ≤ p ∧ p < d + n then src (so + (p - d)) else dst p

variable [CommRing R]

/-- Columns of `A` followed by the columns of `B` (add_lrmat_matrix_product.hpp 67-69, add_matrix_lrmat_product.hpp 105-107). -/
def Mat.hcat (A B : Mat R) : Mat R :=
  let N : Mat R := Mat.mk' A.nr (A.nc + B.nc) 0
  { N with data := copyTo (B.nr * B.nc) B.data 0 (copyTo (A.nr * A.nc) A.data 0 N.data 0) (A.nr * A.nc) }

/-- Rows of `A` followed by the rows of `B` (add_lrmat_matrix_product.hpp 97-101, add_matrix_lrmat_product.hpp 69-73 and 80-84,
add_lrmat_lrmat_product.hpp 79-83 and 90-94); the number of columns is the one of `B`. -/
def Mat.vcat (A B : Mat R) : Mat R :=
  let N : Mat R := Mat.mk' (A.nr + B.nr) B.nc 0
  { N with data := (List.range N.nc).foldl (fun d j =>
      copyTo B.nr B.data (j * B.nr) (copyTo A.nr A.data (j * A.nr) d (j * N.nr)) (j * N.nr + A.nr)) N.data }

variable [StarRing R]

/-- `transpose` followed, for `'C'`, by a conjugation of all entries (add_lrmat_matrix_product.hpp 52-56, add_matrix_lrmat_product.hpp 56-60). For a real
type `conj_if_complex` is the identity, as `star` is. -/
def Mat.opT (tr : Trans) (A : Mat R) : Mat R :=
  let B := Mat.transpose A (Mat.mk' A.nc A.nr 0)
  if tr = .C then { B with data := conjBuf (B.nr * B.nc) B.data } else B

/-- `add_lrmat_matrix_product` with a dense result (add_lrmat_matrix_product.hpp 16-34). -/
def LR.mulMat (ta tb : Trans) (α : R) (A : LR R) (B : Mat R) (β : R) (C : Mat R) : Mat R :=
  if A.rank ≠ 0 then
    if ta = .N then
      let VB := Mat.addMM ta tb 1 A.V B 0 (Mat.mk' A.V.nr (if tb = .N then B.nc else B.nr) 0)
      Mat.addMM ta .N α A.U VB β C
    else
      let UtB := Mat.addMM ta tb 1 A.U B 0 (Mat.mk' A.V.nr (if tb = .N then B.nc else B.nr) 0)
      Mat.addMM ta .N α A.V UtB β C
  else C

/-- `add_matrix_lrmat_product` with a dense result (add_matrix_lrmat_product.hpp 16-38). -/
def LR.matMul (ta tb : Trans) (α : R) (A : Mat R) (B : LR R) (β : R) (C : Mat R) : Mat R :=
  if B.rank ≠ 0 then
    let AU : Mat R := Mat.mk' (if ta = .N then A.nr else A.nc) (if tb = .N then B.U.nc else B.V.nr) 0
    if tb = .N then Mat.addMM .N .N α (Mat.addMM ta .N 1 A B.U 0 AU) B.V β C
    else Mat.addMM .N tb α (Mat.addMM ta tb 1 A B.V 0 AU) B.U β C
  else C

/-- `add_lrmat_lrmat_product` with a dense result (add_lrmat_lrmat_product.hpp 16-34). -/
def LR.mulLR (ta tb : Trans) (α : R) (A B : LR R) (β : R) (C : Mat R) : Mat R :=
  if A.rank ≠ 0 ∧ B.rank ≠ 0 then
    if tb = .N then Mat.addMM .N .N α (A.mulMat ta .N 1 B.U 0 (Mat.mk' C.nr B.rank 0)) B.V β C
    else Mat.addMM .N tb α (A.mulMat ta tb 1 B.V 0 (Mat.mk' C.nr B.V.nr 0)) B.U β C
  else C

section lowRankResult
variable [DecidableEq R] (rc : LR R → LR R)

/-- `add_lrmat_matrix_product` with a low-rank result (add_lrmat_matrix_product.hpp 36-107). -/
def LR.mulMatLR (ta tb : Trans) (α : R) (A : LR R) (B : Mat R) (β : R) (C : LR R) : LR R :=
  if A.rank ≠ 0 then
    let n := if tb = .N then B.nc else B.nr
    if β = 0 ∨ C.rank = 0 then
      let C' : LR R := if ta = .N then ⟨A.U, Mat.addMM ta tb α A.V B 0 (C.V.resize A.V.nr n 0)⟩
        else ⟨Mat.opT ta A.V, Mat.addMM ta tb α A.U B 0 (C.V.resize A.U.nc n 0)⟩
      if C'.U.nr * C'.V.nc < C'.rank * (C'.U.nr + C'.V.nc) then rc C' else C'
    else
      let VB := Mat.addMM ta tb α (if ta = .N then A.V else A.U) B 0 (Mat.mk' A.V.nr n 0)
      let newU := if ta = .N then A.U.hcat C.U else (Mat.opT ta A.V).hcat C.U
      rc ⟨newU, VB.vcat (Mat.scale β C.V)⟩
  else C

/-- `add_matrix_lrmat_product` with a low-rank result (add_matrix_lrmat_product.hpp 40-114). -/
def LR.matMulLR (ta tb : Trans) (α : R) (A : Mat R) (B : LR R) (β : R) (C : LR R) : LR R :=
  if B.rank ≠ 0 then
    let m := if ta = .N then A.nr else A.nc
    let k := if tb = .N then B.U.nc else B.V.nr
    if β = 0 ∨ C.rank = 0 then
      if tb = .N then ⟨Mat.addMM ta tb α A B.U 0 (C.U.resize m k 0), B.V⟩
      else ⟨Mat.addMM ta tb α A B.V 0 (C.U.resize m k 0), Mat.opT tb B.U⟩
    else
      let V1 := if tb = .N then B.V else Mat.opT tb B.U
      let AU := if tb = .N then Mat.addMM ta .N α A B.U 0 (Mat.mk' m k 0) else Mat.addMM ta tb α A B.V 0 (Mat.mk' m k 0)
      rc ⟨AU.hcat C.U, V1.vcat (Mat.scale β C.V)⟩
  else C

/-- `add_lrmat_lrmat_product` with a low-rank result (add_lrmat_lrmat_product.hpp 36-103). `sub_new_U` is a view of the first columns of `new_U`:
the product is written there, then the columns of `U_C` are copied after it. -/
def LR.mulLRLR (ta tb : Trans) (α : R) (A B : LR R) (β : R) (C : LR R) : LR R :=
  if A.rank ≠ 0 ∧ B.rank ≠ 0 then
    if β = 0 ∨ C.rank = 0 then
      let U0 := C.U.resize (if ta = .N then A.U.nr else A.V.nc) (if tb = .N then B.U.nc else B.V.nr) 0
      if tb = .N then ⟨A.mulMat ta .N α B.U 0 U0, B.V⟩
      else ⟨A.mulMat ta tb α B.V 0 U0, Mat.opT tb B.U⟩
    else
      let N : Mat R := Mat.mk' C.U.nr ((if tb = .N then B.U.nc else B.V.nr) + C.U.nc) 0
      let sub : Mat R := ⟨C.U.nr, B.U.nc, N.data⟩
      let sub1 := if tb = .N then A.mulMat ta .N α B.U 0 sub else A.mulMat ta tb α B.V 0 sub
      let newU : Mat R := { N with data := copyTo (C.U.nc * C.U.nr) C.U.data 0 sub1.data (C.U.nr * B.U.nc) }
      let V1 := if tb = .N then B.V else Mat.opT tb B.U
      rc ⟨newU, V1.vcat (Mat.scale β C.V)⟩
  else C

omit [StarRing R] [DecidableEq R] in
/-- `left_cluster_contains_right_cluster` (cluster_node.hpp 90-97), clusters being given by offset and size. -/
def containsIv (a b : ℕ × ℕ) : Bool := a.1 ≤ b.1 && b.2 + b.1 ≤ a.2 + a.1

omit [StarRing R] [DecidableEq R] in
/-- `add_lrmat_lrmat` (add_lrmat_lrmat.hpp 14-100); `xt`, `xs`, `yt`, `ys`: offset and size of the clusters. The last case logs an error. -/
def LR.addLR (X : LR R) (xt xs : ℕ × ℕ) (Y : LR R) (yt ys : ℕ × ℕ) : LR R :=
  if containsIv yt xt && containsIv ys xs then
    let ro := xt.1 - yt.1
    let co := xs.1 - ys.1
    if Y.rank = 0 then
      let U0 := Y.U.resize Y.U.nr X.rank 0
      let V0 := Y.V.resize X.rank Y.V.nc 0
      ⟨{ U0 with data := loop2 X.U.nc X.U.nr (fun i k => i * U0.nr + ro + k) (fun i k => X.U.data (X.U.nr * i + k)) U0.data },
       { V0 with data := loop2 X.V.nc X.V.nr (fun j k => (j + co) * V0.nr + k) (fun j k => X.V.data (j * X.V.nr + k)) V0.data }⟩
    else
      let N : Mat R := Mat.mk' Y.U.nr (X.U.nc + Y.U.nc) 0
      let d1 := copyTo (Y.U.nc * Y.U.nr) Y.U.data 0 N.data 0
      let M : Mat R := Mat.mk' (Y.V.nr + X.V.nr) Y.V.nc 0
      let e1 := loop2 M.nc Y.V.nr (fun j k => j * M.nr + k) (fun j k => Y.V.data (j * Y.V.nr + k)) M.data
      rc ⟨{ N with data := loop2 X.U.nc X.U.nr (fun i k => Y.U.nc * Y.U.nr + i * N.nr + ro + k) (fun i k => X.U.data (X.U.nr * i + k)) d1 },
        { M with data := loop2 X.V.nc X.V.nr (fun j k => (j + co) * M.nr + Y.V.nr + k) (fun j k => X.V.data (j * X.V.nr + k)) e1 }⟩
  else if containsIv xt yt && containsIv xs ys then
    let ro := yt.1 - xt.1
    let co := ys.1 - xs.1
    if Y.rank = 0 then
      let U0 := Y.U.resize Y.U.nr X.rank 0
      let V0 := Y.V.resize X.rank Y.V.nc 0
      ⟨{ U0 with data := loop2 X.U.nc U0.nr (fun i k => i * U0.nr + k) (fun i k => X.U.data (X.U.nr * i + ro + k)) U0.data },
       { V0 with data := loop2 V0.nc X.V.nr (fun j k => j * V0.nr + k) (fun j k => X.V.data ((j + co) * X.V.nr + k)) V0.data }⟩
    else
      let N : Mat R := Mat.mk' Y.U.nr (X.U.nc + Y.U.nc) 0
      let d1 := copyTo (Y.U.nc * Y.U.nr) Y.U.data 0 N.data 0
      let M : Mat R := Mat.mk' (Y.V.nr + X.V.nr) Y.V.nc 0
      let e1 := loop2 M.nc Y.V.nr (fun j k => j * M.nr + k) (fun j k => Y.V.data (j * Y.V.nr + k)) M.data
      rc ⟨{ N with data := loop2 X.U.nc Y.U.nr (fun i k => Y.U.nc * Y.U.nr + i * N.nr + k) (fun i k => X.U.data (X.U.nr * i + ro + k)) d1 },
        { M with data := loop2 Y.V.nc X.V.nr (fun j k => j * M.nr + Y.V.nr + k) (fun j k => X.V.data ((j + co) * X.V.nr + k)) e1 }⟩
  else Y

end lowRankResult

omit [StarRing R] in
/-- `scale(da, lrmat)` (lrmat/linalg/scale.hpp 9-16). -/
def LR.scale (a : R) (A : LR R) : LR R := if A.U.nc < A.U.nr then ⟨Mat.scale a A.U, A.V⟩ else ⟨A.U, Mat.scale a A.V⟩

/-- `LowRankMatrix::copy_to_dense` (lrmat.hpp 121-134). -/
def LR.toDense (A : LR R) (out : Buf R) : Buf R :=
  gemm .N .N A.U.nr A.V.nc A.U.nc 1 A.U.data A.U.nr A.V.data A.V.nr 0 out A.U.nr

end Htool
