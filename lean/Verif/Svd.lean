import Verif.Aca
import Mathlib.Analysis.RCLike.Basic

/-! # Truncated singular value decomposition and recompression

Model of `include/htool/matrix/utils/SVD_truncation.hpp`, `include/htool/hmatrix/lrmat/SVD.hpp`,
`include/htool/hmatrix/lrmat/utils/recompression.hpp` and `include/htool/hmatrix/lrmat/linalg/add_matrix_matrix_product.hpp`.

Coefficients are real or complex numbers (`𝕜`), arithmetic is exact. LAPACK is not modelled: `gesvd`, `geqrf`/`mqr` and `gelqf`/`mlq` are arguments
of the functions, and their contracts (`IsSVD`, `IsQR`, `IsLQ` in `Verif/Props/Svd.lean`) are hypotheses of the theorems. -/

namespace Htool

variable {𝕜 : Type*} [RCLike 𝕜]

/-- Output of `gesvd`: `u`, `vt` and the singular values (SVD_truncation.hpp 32-36). -/
structure SVDOut (𝕜 : Type*) where
  u : Mat 𝕜
  vt : Mat 𝕜
  s : ℕ → ℝ

open Classical in
/-- Loop of SVD_truncation.hpp 48-51, seen just after `error` has been updated with `s[j]`. When the norm is zero the quotient is NaN and the
comparison false. -/
noncomputable def truncLoop (s : ℕ → ℝ) (norm eps : ℝ) : ℕ → ℝ → ℕ
  | 0, _ => 0
  | j + 1, error => if norm ≠ 0 ∧ √error / norm < eps then truncLoop s norm eps j (error + |s j| ^ 2) else j + 1

/-- `truncated_rank` for `n > 0` singular values (SVD_truncation.hpp 39-54). With no singular value the code reads `singular_values[-1]`. -/
noncomputable def truncRank (s : ℕ → ℝ) (n : ℕ) (eps : ℝ) : ℕ :=
  truncLoop s √(∑ l ∈ Finset.range n, s l * s l) eps (n - 1) (0 + |s (n - 1)| ^ 2) + 1

/-- `SVD_truncation` (SVD_truncation.hpp 14-57); the sizes of `u`, `vt` and the number of singular values are in the contract of `gesvd`. -/
noncomputable def svdTruncation (gesvd : Mat 𝕜 → SVDOut 𝕜) (A : Mat 𝕜) (eps : ℝ) : ℕ × SVDOut 𝕜 :=
  (truncRank (gesvd A).s (min A.nr A.nc) eps, gesvd A)

/-- `SVD::copy_low_rank_approximation` (SVD.hpp 22-61): rank, `U` and `V`. -/
noncomputable def svdGen (gesvd : Mat 𝕜 → SVDOut 𝕜) (gen : ℕ → ℕ → 𝕜) (t s : ℕ × ℕ) (eps : ℝ) (rank : ℤ) (U V : Mat 𝕜) : ℤ × Mat 𝕜 × Mat 𝕜 :=
  let M := t.2
  let N := s.2
  let mat : Mat 𝕜 := { Mat.mk' M N 0 with data := copySub gen M N t.1 s.1 (Mat.mk' M N 0).data }
  let r := svdTruncation gesvd mat eps
  let tr : ℤ := if rank = -1 then (if M * N < r.1 * (M + N) then -1 else r.1) else min rank (min (M : ℤ) N)
  if 0 < tr then
    let k := tr.toNat
    (tr, (List.range M).foldl (fun W i => (List.range k).foldl (fun W j => W.set i j (r.2.u.get i j * (r.2.s j : 𝕜))) W) (U.resize M k 0),
      (List.range k).foldl (fun W i => (List.range N).foldl (fun W j => W.set i j (r.2.vt.get i j)) W) (V.resize k N 0))
  else (tr, U, V)

/-- BLAS `scal` on `n` consecutive values from `o`. -/
def scalSeg (n o : ℕ) (a : 𝕜) (d : Buf 𝕜) : Buf 𝕜 := fun p => if o ≤ p ∧ p < o + n then a * d p else d p

/-- Factors `u sqrt(S)` (`M × k`) and `sqrt(S) vt` (`k × N`), written after `resize` (recompression.hpp 39-60 with `m = M`, `n = N`, 127-148 with
`m = n = rank`; add_matrix_matrix_product.hpp 46-69 with `m = M`, `n = N`). `m`: number of rows of `u`, `n`: of columns of `vt`. -/
noncomputable def sqrtFactors (o : SVDOut 𝕜) (k M N m n : ℕ) (U V : Mat 𝕜) : LR 𝕜 :=
  let W : Mat 𝕜 := { V.resize k N 0 with
    data := (List.range n).foldl (fun d r => copyTo k o.vt.data (r * o.vt.nr) d (r * k)) (V.resize k N 0).data }
  ⟨{ U.resize M k 0 with
      data := (List.range k).foldl (fun d r => scalSeg M (r * M) ((√(o.s r) : ℝ) : 𝕜) (copyTo m o.u.data (r * o.u.nr) d (r * M))) (U.resize M k 0).data },
    (List.range k).foldl (fun W r => (List.range n).foldl (fun W j => W.set r j (((√(o.s r) : ℝ) : 𝕜) * W.get r j)) W) W⟩

/-- Output of `geqrf` or `gelqf`: the overwritten matrix, and the product by the orthogonal factor (`mqr`, `mlq`) with the data of the factorization. -/
structure OrthOut (𝕜 : Type*) where
  fac : Mat 𝕜
  apply : Mat 𝕜 → Mat 𝕜

/-- `R(i, j) = U(i, j)` for `i ≤ j` (recompression.hpp 104-108). -/
def upperOf (r : ℕ) (A : Mat 𝕜) : Mat 𝕜 :=
  (List.range r).foldl (fun W j => (List.range (j + 1)).foldl (fun W i => W.set i j (A.get i j)) W) (Mat.mk' r r 0)

/-- `L(i, j) = V(i, j)` for `j ≤ i` (recompression.hpp 109-113). -/
def lowerOf (r : ℕ) (A : Mat 𝕜) : Mat 𝕜 :=
  (List.range r).foldl (fun W j => (List.range' j (r - j)).foldl (fun W i => W.set i j (A.get i j)) W) (Mat.mk' r r 0)

/-- `recompression` (recompression.hpp 18-184). The branch with the orthogonal factorizations is the one for `rank ≤ min(M, N)`. For rank 0 the code
reads before the beginning of the vector of singular values. -/
noncomputable def recompress (gesvd : Mat 𝕜 → SVDOut 𝕜) (geqrf gelqf : Mat 𝕜 → OrthOut 𝕜) (eps : ℝ) (L : LR 𝕜) : LR 𝕜 :=
  let U := L.U
  let V := L.V
  if min U.nr V.nc < L.rank then
    let r := svdTruncation gesvd (Mat.addMM .N .N 1 U V 1 (Mat.mk' U.nr V.nc 0)) eps
    sqrtFactors r.2 r.1 U.nr V.nc r.2.u.nr r.2.vt.nc U V
  else
    let qr := geqrf U
    let lq := gelqf V
    let RL := Mat.addMM .N .N 1 (upperOf L.rank qr.fac) (lowerOf L.rank lq.fac) 0 (Mat.mk' L.rank L.rank 0)
    let r := svdTruncation gesvd RL eps
    let W := sqrtFactors r.2 r.1 U.nr V.nc L.rank L.rank U V
    ⟨qr.apply W.U, lq.apply W.V⟩

open Classical in
/-- `add_matrix_matrix_product` into a low-rank matrix (lrmat/linalg/add_matrix_matrix_product.hpp 15-99). -/
noncomputable def matMatLR (gesvd : Mat 𝕜 → SVDOut 𝕜) (geqrf gelqf : Mat 𝕜 → OrthOut 𝕜) (eps : ℝ) (ta tb : Trans) (α : 𝕜) (A B : Mat 𝕜) (β : 𝕜)
    (C : LR 𝕜) : LR 𝕜 :=
  let nr := if ta = .N then A.nr else A.nc
  let nc := if tb = .N then B.nc else B.nr
  let r := svdTruncation gesvd (Mat.addMM ta tb α A B β (Mat.mk' nr nc 0)) eps
  if β = 0 ∨ C.rank = 0 then sqrtFactors r.2 r.1 nr nc r.2.u.nc r.2.vt.nc C.U C.V
  else
    let W := sqrtFactors r.2 r.1 nr nc r.2.u.nc r.2.vt.nc (Mat.mk' 0 0 0) (Mat.mk' 0 0 0)
    recompress gesvd geqrf gelqf eps ⟨W.U.hcat C.U, W.V.vcat (Mat.scale β C.V)⟩

end Htool
