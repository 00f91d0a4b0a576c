import Verif.Overlap
import Verif.Props.HOps

/-! # Dense local matrices of the subdomains and their solver

Model of the dense local matrices built in solvers/utility.hpp (`DDMSolverWithDenseLocalSolver`), of `LocalGeneratorInUserNumbering`
(solvers/utility.hpp 154-180, 255-274), and of solvers/local_solvers/local_dense_solvers.hpp. -/

namespace Htool
variable {R : Type*}
open Finset

section defs
variable [CommRing R]

/-- A loop which copies `m` columns of length `len`, stored one after the other in `src`, to the rows from `r0` on and columns from `c0` on of a matrix with
`ld` rows (solvers/utility.hpp 98-100, 108-111, 113-116, 122-124). -/
def copyCols (ld r0 c0 len m : ℕ) (src d : Buf R) : Buf R :=
  (List.range m).foldl (fun d j => Buf.at' (r0 + (c0 + j) * ld) (copyN len (src.from' (j * len))) d) d

/-- `initialize_diagonal_block_adding_overlap` (solvers/utility.hpp 88-128): `num` is `local_to_global_numbering`, `A` the diagonal block, `sym` the symmetry of
the distributed operator, `cplx` says whether the coefficients are complex. -/
def denseAddOverlap [StarRing R] (cplx : Bool) (sym : HSym) (A : HTree R) (gen : ℕ → ℕ → R) (num : List ℕ) : Mat R :=
  let N := num.length
  let n := A.label.tsz
  let without := copyToDense A (Mat.mk' n n (0 : R)).data
  let d := copyCols N 0 0 n n without (Mat.mk' N N (0 : R)).data
  let overlap := num.drop n
  let inside := num.take n
  let d := copyCols N n 0 (N - n) n (genSub gen overlap inside).data d
  let d := copyCols N n n (N - n) (N - n) (genSub gen overlap overlap).data d
  let isSym := decide (sym = .S) || (decide (sym = .H) && cplx)
  ⟨N, N, if !isSym then copyCols N 0 n n (N - n) (genSub gen inside overlap).data d else d⟩

/-- `initialize_diagonal_block_with_overlap` (solvers/utility.hpp 130-137): `perm` is the permutation of the local cluster tree. -/
def denseWithOverlap [StarRing R] (perm : List ℕ) (A : HTree R) : Mat R :=
  let N := A.label.tsz
  ⟨N, N, copyToDenseUser perm perm A (Mat.mk' N N (0 : R)).data⟩

omit [CommRing R] in
/-- `LocalGeneratorInUserNumbering::copy_submatrix` (solvers/utility.hpp 163-172 and 257-266): the coefficients given to the local H-matrix. -/
def localGen (gen : ℕ → ℕ → R) (tnum snum : List ℕ) (rows cols : List ℕ) : Mat R :=
  genSub gen (rows.map fun i => tnum.getD i 0) (cols.map fun j => snum.getD j 0)

/-- LAPACK `getrf` and `getrs` as used by `lu_factorization` and `lu_solve` (matrix/linalg/factorization.hpp 11-21, 76-86). -/
structure DenseLU (R : Type*) where
  getrf : Mat R → Mat R × List ℕ
  getrs : Trans → Mat R → List ℕ → Mat R → Mat R

omit [CommRing R] in
/-- `LocalDenseSolver::solve(b, x, mu)` (local_dense_solvers.hpp 25-30) after `numfact` (16-18); `solve(b, mu)` (19-24) is the case `x = b`. `A` is the local
matrix as left by `numfact`. -/
def denseSolve (E : DenseLU R) (A : Mat R × List ℕ) (b x : Buf R) (mu : ℕ) : Buf R :=
  (E.getrs .N A.1 A.2 ⟨A.1.nc, mu, copyN (A.1.nc * mu) b x⟩).data

end defs

/-- Effect of the column loop. -/
theorem copyCols_spec {ld r0 c0 len : ℕ} (h : r0 + len ≤ ld) (src d : Buf R) (m i c : ℕ) (hi : i < ld) :
    copyCols ld r0 c0 len m src d (i + c * ld) =
      if (r0 ≤ i ∧ i < r0 + len) ∧ c0 ≤ c ∧ c < c0 + m then src (i - r0 + (c - c0) * len) else d (i + c * ld) := by
  induction m with
  | zero => rw [if_neg (by omega)]; rfl
  | succ m ih =>
    unfold copyCols at ih ⊢
    rw [List.range_succ, List.foldl_append, List.foldl_cons, List.foldl_nil]
    set D := (List.range m).foldl (fun d j => Buf.at' (r0 + (c0 + j) * ld) (copyN len (src.from' (j * len))) d) d with hD
    unfold Buf.at' copyN Buf.from'
    beta_reduce
    rcases Nat.lt_trichotomy c (c0 + m) with hc | rfl | hc
    · have : (c + 1) * ld ≤ (c0 + m) * ld := Nat.mul_le_mul_right _ hc
      rw [Nat.succ_mul] at this
      rw [if_neg (show ¬ r0 + (c0 + m) * ld ≤ i + c * ld by omega), ih]
      exact if_congr (by omega) rfl rfl
    · by_cases h1 : r0 ≤ i
      · rw [if_pos (show r0 + (c0 + m) * ld ≤ i + (c0 + m) * ld by omega)]
        by_cases h2 : i < r0 + len
        · rw [if_pos (show i + (c0 + m) * ld - (r0 + (c0 + m) * ld) < len by omega), if_pos (by omega)]
          congr 1
          rw [show c0 + m - c0 = m by omega]
          omega
        · rw [if_neg (show ¬ i + (c0 + m) * ld - (r0 + (c0 + m) * ld) < len by omega),
            show r0 + (c0 + m) * ld + (i + (c0 + m) * ld - (r0 + (c0 + m) * ld)) = i + (c0 + m) * ld by omega, ih, if_neg (by omega), if_neg (by omega)]
      · rw [if_neg (show ¬ r0 + (c0 + m) * ld ≤ i + (c0 + m) * ld by omega), ih, if_neg (by omega), if_neg (by omega)]
    · have : (c0 + m + 1) * ld ≤ c * ld := Nat.mul_le_mul_right _ hc
      rw [Nat.succ_mul] at this
      rw [if_pos (show r0 + (c0 + m) * ld ≤ i + c * ld by omega), if_neg (show ¬ i + c * ld - (r0 + (c0 + m) * ld) < len by omega),
        show r0 + (c0 + m) * ld + (i + c * ld - (r0 + (c0 + m) * ld)) = i + c * ld by omega, ih, if_neg (by omega), if_neg (by omega)]

/-- The data of the coefficients. -/
theorem genSub_data {gen : ℕ → ℕ → R} {rows cols : List ℕ} {i j : ℕ} (hi : i < rows.length) :
    (genSub gen rows cols).data (i + j * rows.length) = gen (rows.getD i 0) (cols.getD j 0) := by
  show gen (rows.getD ((i + j * rows.length) % rows.length) 0) (cols.getD ((i + j * rows.length) / rows.length) 0) = _
  rw [Nat.add_mul_mod_self_right, Nat.mod_eq_of_lt hi, Nat.add_mul_div_right _ _ (by omega), Nat.div_eq_of_lt hi, Nat.zero_add]

end Htool
