import Mathlib.Analysis.InnerProductSpace.PiL2
import Mathlib.Analysis.RCLike.Basic
import Verif.ClusterIO
import Verif.Dense

/-! # Vectors and text utilities

Model of the operators on `std::vector` (basic_types/vector.hpp 24-126 and 190-224), of `Matrix::print` and `csv_save`
(matrix/matrix.hpp 678-708) and of `split` and `join` (misc/user.hpp 29-45) for delimiters of any length. -/

namespace Htool
namespace Vec

section
variable {R : Type*}

/-- `std::transform(a.begin(), a.end(), b.begin(), result.begin(), f)`: `none` = `b` is read after its end. -/
def transform2 (f : R → R → R) : List R → List R → Option (List R)
  | [], _ => some []
  | x :: a, y :: b => (transform2 f a b).map (f x y :: ·)
  | _ :: _, [] => none

/-- `a + b` and `plus(a, b)` (vector.hpp 36-48). -/
def add [Add R] (a b : List R) : Option (List R) := transform2 (· + ·) a b

/-- `a - b` and `minus(a, b)` (vector.hpp 50-62). -/
def sub [Sub R] (a b : List R) : Option (List R) := transform2 (· - ·) a b

/-- `mult(value, a)` (vector.hpp 64-70) and `a *= value` (112-115, in place). -/
def mult [Mul R] (v : R) (a : List R) : List R := a.map (fun c => c * v)

/-- `a / value` (vector.hpp 77-83) and `a /= value` (117-120, in place). -/
def divs [Div R] (a : List R) (v : R) : List R := a.map (fun c => c / v)

/-- `std::inner_product(a.begin(), a.end(), b.begin(), init, plus, f)`: `none` = `b` is read after its end. -/
def innerLoop [Add R] (f : R → R → R) (acc : R) : List R → List R → Option R
  | [], _ => some acc
  | x :: a, y :: b => innerLoop f (acc + f x y) a b
  | _ :: _, [] => none

/-- `dprod(a, b)` (vector.hpp 85-92): the overload for complex types conjugates its second argument. -/
def dprod [CommRing R] [StarRing R] (cplx : Bool) (a b : List R) : Option R :=
  if cplx then innerLoop (fun u v => u * star v) 0 a b else innerLoop (fun u v => u * v) 0 a b

/-- `mean(u)` (vector.hpp 122-125): `accumulate` from 0, divided by the size. An empty vector divides by zero. -/
def mean [Field R] (u : List R) : R := (u.foldl (· + ·) 0) / (u.length : R)

/-- `std::max_element` with the comparison `cmp`, as a position: the running extremum is replaced by an entry only if
`cmp(extremum, entry)`. On an empty range it is the end, that is 0. -/
def maxElem (cmp : R → R → Bool) (u : List R) (d : R) : ℕ :=
  (List.range u.length).foldl (fun p i => if cmp (u.getD p d) (u.getD i d) then i else p) 0

/-- `std::min_element`: the running extremum is replaced by an entry only if `cmp(entry, extremum)`. -/
def minElem (cmp : R → R → Bool) (u : List R) (d : R) : ℕ :=
  (List.range u.length).foldl (fun p i => if cmp (u.getD i d) (u.getD p d) then i else p) 0

variable {K : Type*} [LinearOrder K]

/-- `[](T a, T b) { return std::abs(a) < std::abs(b); }`. -/
def absLt (ab : R → K) (a b : R) : Bool := decide (ab a < ab b)

/-- `argmax(u)` (vector.hpp 107-110). -/
def argmax [Zero R] (ab : R → K) (u : List R) : ℕ := maxElem (absLt ab) u 0

/-- `max(u)` (vector.hpp 97-100); `none` = dereference of the end. -/
def max [Zero R] (ab : R → K) (u : List R) : Option R := u[maxElem (absLt ab) u 0]?

/-- `min(u)` (vector.hpp 102-105); `none` = dereference of the end. -/
def min [Zero R] (ab : R → K) (u : List R) : Option R := u[minElem (absLt ab) u 0]?

/-- `SubVec::operator[]` (vector.hpp 201-202); `none` = out of bounds. -/
def subGet (U : List R) (I : List ℕ) (k : ℕ) : Option R := (I[k]?).bind fun i => U[i]?

/-- Assignment `S[k] = x` through `SubVec::operator[]` (vector.hpp 201). -/
def subSet (U : List R) (I : List ℕ) (k : ℕ) (x : R) : List R := match I[k]? with
  | some i => U.set i x
  | none => U

/-- `SubVec::operator,` (vector.hpp 204-211): `lhs` from 0, in order; `none` = out of bounds. -/
def subDot [CommRing R] (U : List R) (I : List ℕ) (rhs : List R) : Option R :=
  (List.range I.length).foldl (fun acc k => acc.bind fun l => (subGet U I k).bind fun u => (rhs[k]?).map fun r => l + u * r) (some 0)

end

/-- `norm2(u)` (vector.hpp 94-95). -/
noncomputable def norm2 {𝕜 : Type*} [RCLike 𝕜] (cplx : Bool) (u : List 𝕜) : Option ℝ := (dprod cplx u u).map fun z => Real.sqrt ‖z‖

end Vec

/-! ## Text -/

namespace Text
open ClusterIO (Str)

/-- Content of the two streams after `out << v` (vector.hpp 24-34), where `out` is `std::cout` or another stream: what was appended to
`out` and, if it is another stream, to `std::cout`. The elements go to `std::cout`. -/
def printVec {R : Type*} (fmt : R → Str) (outIsCout : Bool) (v : List R) : Str × Str :=
  if v.isEmpty then ([], [])
  else
    let elems := (v.map fun x => fmt x ++ [',']).flatten
    if outIsCout then (['['] ++ elems ++ ['\x08', ']'], []) else (['['] ++ ['\x08', ']'], elems)

/-- `line.find(delim)` (user.hpp 34): first position where `delim` occurs. -/
def find (d : Str) : Str → Option ℕ
  | [] => if d.isEmpty then some 0 else none
  | c :: s => if d.isPrefixOf (c :: s) then some 0 else (find d s).map (· + 1)

/-- The loop of `split` (user.hpp 34-39). `fuel` bounds the number of iterations (`none` = not finished). -/
def splitLoop (d : Str) : ℕ → Str → Option (List Str)
  | 0, _ => none
  | f + 1, line => match find d line with
    | none => some [line]
    | some pos => (splitLoop d f (line.drop (pos + d.length))).map (line.take pos :: ·)

/-- `join(delimiter, x)` (user.hpp 43-45). -/
def join (d : Str) (x : List Str) : Str := x.foldl (fun ss s => if ss.isEmpty then s else ss ++ d ++ s) []

/-- One line of `Matrix::print` (matrix.hpp 683-686): all entries but the last with the delimiter, the last one, the end of line. -/
def printRow {R : Type*} (fmt : R → Str) (d : Str) (row : List R) : Str :=
  (row.dropLast.map fun x => fmt x ++ d).flatten ++ (row.getLast?.map fmt).getD [] ++ ['\n']

/-- `Matrix::print` (matrix.hpp 678-690), the content of the file of `csv_save` (692-708). -/
def printMat {R : Type*} (fmt : R → Str) (d : Str) (A : Mat R) : Str :=
  if 0 < A.nc then ((List.range A.nr).map fun i => printRow fmt d (A.getRow i)).flatten else []

/-- One line of `matlab_save` without its end (vector.hpp 174-181). An entry is its real and its imaginary part; `fmt` is the conversion of
`operator<<` with 18 digits. -/
def matlabLine {K : Type*} [Zero K] [LT K] [DecidableEq K] [DecidableLT K] (fmt : K → Str) (z : K × K) : Str :=
  fmt z.1 ++ (if z.2 < 0 then fmt z.2 ++ "i\t".toList else if z.2 = 0 then "+".toList ++ "0".toList ++ "i\t".toList else "+".toList ++ fmt z.2 ++ "i\t".toList)

/-- The file of `matlab_save` (vector.hpp 163-186). -/
def matlabSave {K : Type*} [Zero K] [LT K] [DecidableEq K] [DecidableLT K] (fmt : K → Str) (v : List (K × K)) : Str :=
  (v.map fun z => matlabLine fmt z ++ ['\n']).flatten

end Text
end Htool
