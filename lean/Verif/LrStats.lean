import Verif.Aca
import Verif.Svd

/-! # Statistics and errors of low-rank matrices

Model of the end of `include/htool/hmatrix/lrmat/lrmat.hpp` (137-186). -/

namespace Htool

/-- Outcome of a floating point computation, in exact arithmetic: undefined behaviour, a value which is not finite (infinity or NaN), a number. -/
inductive Num (F : Type*) where
  | undef
  | notFinite
  | num (x : F)
deriving DecidableEq

/-- Division of two numbers. -/
def Num.div {F : Type*} [Field F] [DecidableEq F] (x y : F) : Num F := if y = 0 then .notFinite else .num (x / y)

section sizes
variable {R : Type*}

/-- `compression_ratio` (lrmat.hpp 137-139): the two products are computed with `int`. -/
def LR.compressionRatio (A : LR R) : Num ℚ :=
  let a := A.U.nr * A.V.nc
  let b := A.U.nc * (A.U.nr + A.V.nc)
  if a < 2 ^ 31 ∧ b < 2 ^ 31 ∧ A.U.nr + A.V.nc < 2 ^ 31 then Num.div (a : ℚ) (b : ℚ) else .undef

/-- `space_saving` (lrmat.hpp 141-143). -/
def LR.spaceSaving (A : LR R) : Num ℚ :=
  if A.U.nr = 0 ∨ A.V.nc = 0 then .notFinite else .num (1 - (A.U.nc : ℚ) * (1 / (A.U.nr : ℚ) + 1 / (A.V.nc : ℚ)))

end sizes

section errors
variable {𝕜 : Type*} [RCLike 𝕜]

/-- The rank used by the errors (lrmat.hpp 148-150, 171-173). -/
def errRank (A : LR 𝕜) (reqrank : ℤ) : ℤ := if reqrank = -1 then A.rank else reqrank

/-- The loop over `l` on one coefficient (lrmat.hpp 158-160, 180-182). -/
def errEntry (A : LR 𝕜) (r : ℕ) (j k : ℕ) (aux : Buf 𝕜) : Buf 𝕜 :=
  (List.range r).foldl (fun a l => Function.update a (j + k * A.U.nr) (a (j + k * A.U.nr) - A.U.get j l * A.V.get l k)) aux

/-- The loops over the coefficients (lrmat.hpp 155-163, 177-185): `norm`, `err` and `aux`. -/
noncomputable def errLoop (A : LR 𝕜) (r : ℕ) (aux : Buf 𝕜) : ℝ × ℝ × Buf 𝕜 :=
  (List.range A.U.nr).foldl (fun s j => (List.range A.V.nc).foldl (fun s k =>
    let aux := errEntry A r j k s.2.2
    (s.1 + ‖s.2.2 (j + k * A.U.nr)‖ ^ 2, s.2.1 + ‖aux (j + k * A.U.nr)‖ ^ 2, aux)) s) (0, 0, aux)

/-- `Frobenius_relative_error` (lrmat.hpp 146-166). `t`, `s`: offsets and sizes of the clusters. Undefined when the buffer, which has the sizes of the
low-rank matrix, has less room than the block of the clusters, or when the requested rank is larger than the rank (reads after the end of `U`). -/
noncomputable def frobeniusRelativeError (A : LR 𝕜) (gen : ℕ → ℕ → 𝕜) (t s : ℕ × ℕ) (reqrank : ℤ) : Num ℝ :=
  if A.U.nr * A.V.nc < t.2 * s.2 ∨ ((A.rank : ℤ) < errRank A reqrank ∧ 0 < A.U.nr * A.V.nc) then .undef
  else
    let e := errLoop A (errRank A reqrank).toNat (copySub gen t.2 s.2 t.1 s.1 (fun _ => 0))
    if e.1 = 0 then .notFinite else .num √(e.2.1 / e.1)

/-- `Frobenius_absolute_error` (lrmat.hpp 168-186). -/
noncomputable def frobeniusAbsoluteError (A : LR 𝕜) (gen : ℕ → ℕ → 𝕜) (t s : ℕ × ℕ) (reqrank : ℤ) : Num ℝ :=
  if A.U.nr * A.V.nc < t.2 * s.2 ∨ ((A.rank : ℤ) < errRank A reqrank ∧ 0 < A.U.nr * A.V.nc) then .undef
  else .num √(errLoop A (errRank A reqrank).toNat (copySub gen t.2 s.2 t.1 s.1 (fun _ => 0))).2.1

end errors
end Htool
