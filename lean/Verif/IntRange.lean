import Mathlib.Data.List.Basic
import Mathlib.Tactic.Ring
import Mathlib.Tactic.Linarith
import Mathlib.Algebra.Order.Ring.Int

/-! # The `int` arithmetic of `Matrix` (C77)

The other modules model indices by natural numbers. Here the dimensions, positions and loop counters are 32-bit `int`s, as in the code: every
product and sum which leaves the range is undefined behaviour, as is every access outside of the storage; both are `none`. -/

namespace Htool.IntRange
variable {R : Type*}

/-- The value of an `int` expression with exact value `x`; `none` = signed overflow. -/
def int (x : ℤ) : Option ℤ := if -2147483648 ≤ x ∧ x ≤ 2147483647 then some x else none

/-- A matrix: dimensions and storage (matrix.hpp 24-25). -/
structure IMat (R : Type*) where
  nr : ℤ
  nc : ℤ
  data : List R

/-- The constructor `Matrix(nbr, nbc, value)` (matrix.hpp 31-34); a negative size is an exception of `new`, also `none`. -/
def mk (nr nc : ℤ) (v : R) : Option (IMat R) :=
  (int (nr * nc)).bind fun s => if s < 0 then none else some ⟨nr, nc, List.replicate s.toNat v⟩

/-- The position `j + k * m_number_of_rows` (matrix.hpp 92, 103). -/
def idx (A : IMat R) (j k : ℤ) : Option ℤ := (int (k * A.nr)).bind fun p => int (j + p)

/-- `m_data[p]`. -/
def load (A : IMat R) (p : ℤ) : Option R := if p < 0 then none else A.data[p.toNat]?

/-- `m_data[p] = x`. -/
def store (A : IMat R) (p : ℤ) (x : R) : Option (IMat R) :=
  if p < 0 ∨ (A.data.length : ℤ) ≤ p then none else some { A with data := A.data.set p.toNat x }

/-- `A(j, k)` (matrix.hpp 91-93, 102-104). -/
def get (A : IMat R) (j k : ℤ) : Option R := (idx A j k).bind (load A)

/-- `A(j, k) = x` (matrix.hpp 91-93). -/
def put (A : IMat R) (j k : ℤ) (x : R) : Option (IMat R) := (idx A j k).bind fun p => store A p x

/-- Loop of `get_stridedslice` (matrix.hpp 145-154): the pointer is moved, no `int` is multiplied. `n` iterations remain. -/
def strided (A : IMat R) (stride : ℤ) : ℕ → ℤ → Option (List R)
  | 0, _ => some []
  | n + 1, pos => (load A pos).bind fun x => (strided A stride n (pos + stride)).map (x :: ·)

/-- `get_row` (matrix.hpp 162-164). -/
def getRow (A : IMat R) (r : ℤ) : Option (List R) := strided A A.nr A.nc.toNat r

/-- `get_col` (matrix.hpp 172-174). -/
def getCol (A : IMat R) (c : ℤ) : Option (List R) := (int (c * A.nr)).bind fun s => strided A 1 A.nr.toNat s

/-- Loop of `set_stridedslice` (matrix.hpp 182-188) over the entries of `a`. -/
def setStrided (stride : ℤ) : List R → ℤ → IMat R → Option (IMat R)
  | [], _, A => some A
  | x :: a, pos, A => (store A pos x).bind fun A => setStrided stride a (pos + stride) A

/-- `set_row` (matrix.hpp 195-197); `a` has `nb_cols()` entries. -/
def setRow (A : IMat R) (r : ℤ) (a : List R) : Option (IMat R) :=
  if (a.length : ℤ) = A.nc then setStrided A.nr a r A else none

/-- `set_col` (matrix.hpp 204-206); `a` has `nb_rows()` entries. -/
def setCol (A : IMat R) (c : ℤ) (a : List R) : Option (IMat R) :=
  if (a.length : ℤ) = A.nr then (int (c * A.nr)).bind fun s => setStrided 1 a s A else none

/-- `A = value` (matrix.hpp 80-83). -/
def fillAll (A : IMat R) (v : R) : Option (IMat R) :=
  (int (A.nr * A.nc)).bind fun s => if 0 < s then (if s ≤ A.data.length then some { A with data := List.replicate s.toNat v ++ A.data.drop s.toNat } else none)
    else some A

/-- Assignments to a matrix. -/
inductive Op (R : Type*) where
  | put (j k : ℤ) (x : R)
  | setRow (r : ℤ) (a : List R)
  | setCol (c : ℤ) (a : List R)
  | fill (v : R)

/-- One assignment. -/
def step (A : IMat R) : Op R → Option (IMat R)
  | .put j k x => put A j k x
  | .setRow r a => setRow A r a
  | .setCol c a => setCol A c a
  | .fill v => fillAll A v

/-- A sequence of assignments. -/
def run (A : IMat R) : List (Op R) → Option (IMat R)
  | [] => some A
  | o :: os => (step A o).bind fun A => run A os

end Htool.IntRange
