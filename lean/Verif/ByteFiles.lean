import Mathlib.Data.List.Basic
import Mathlib.Data.List.GetD
import Mathlib.Data.Nat.Basic
import Mathlib.Tactic.Ring
import Mathlib.Tactic.NormNum

/-! # Byte files of matrices and vectors

Model of `Matrix::matrix_to_bytes`, `Matrix::bytes_to_matrix` (`include/htool/matrix/matrix.hpp` 634-675), `vector_to_bytes` and
`bytes_to_vector` (`include/htool/basic_types/vector.hpp` 137-172). Files are byte strings, `int` has 4 bytes in two's complement with the least significant
first, the coefficients have a fixed number of bytes (any encoding). Writing is assumed not to fail once the file is open, and sizes whose
product does not fit an `int` are outside of the model. -/

namespace Htool.Bytes

/-- The bytes of the coefficients (`double`, `std::complex<double>`, ...). -/
structure Codec (T : Type*) where
  width : ℕ
  enc : T → List UInt8
  dec : List UInt8 → T
  len : ∀ x, (enc x).length = width
  dec_enc : ∀ x, dec (enc x) = x

/-- `std::ifstream` opened on a file: remaining bytes, and whether the stream has failed. -/
structure IStream where
  bytes : List UInt8
  fail : Bool

/-- `in.read(target, n)` where `target` has `n` bytes: a failed stream reads nothing; when less than `n` bytes remain they are stored and the stream fails. -/
def IStream.read (s : IStream) (n : ℕ) (target : List UInt8) : List UInt8 × IStream :=
  if s.fail then (target, s)
  else if n ≤ s.bytes.length then (s.bytes.take n, ⟨s.bytes.drop n, false⟩)
  else (s.bytes ++ target.drop s.bytes.length, ⟨[], true⟩)

/-- The 4 bytes of an `int`. -/
def intBytes (n : ℤ) : List UInt8 :=
  let u := (n % 2 ^ 32).toNat
  [UInt8.ofNat (u % 256), UInt8.ofNat (u / 256 % 256), UInt8.ofNat (u / 65536 % 256), UInt8.ofNat (u / 16777216 % 256)]

/-- The `int` stored in 4 bytes. -/
def intOf (l : List UInt8) : ℤ :=
  let u := (l.getD 0 0).toNat + (l.getD 1 0).toNat * 256 + (l.getD 2 0).toNat * 65536 + (l.getD 3 0).toNat * 16777216
  if u < 2 ^ 31 then u else (u : ℤ) - 2 ^ 32

variable {T : Type*} (c : Codec T)

/-- An array of coefficients seen as bytes. -/
def encodeAll (l : List T) : List UInt8 := l.flatMap c.enc

/-- The first `n` coefficients stored in an array of bytes. -/
def decodeAll (n : ℕ) (b : List UInt8) : List T := (List.range n).map fun i => c.dec ((b.drop (i * c.width)).take c.width)

/-- A matrix: sizes, coefficients in column-major order, ownership. -/
structure FMat (T : Type*) where
  rows : ℤ
  cols : ℤ
  data : List T
  owning : Bool

/-- Outcome: return code and object; or exception of `new`/`resize`, with whether the storage of the object was already deleted. -/
inductive Res (α : Type*) where
  | returned (code : ℕ) (obj : α)
  | threw (dangling : Bool) (obj : α)

/-- `matrix_to_bytes` (matrix.hpp 634-649): the content of the file. -/
def matrixToBytes (A : FMat T) : List UInt8 := intBytes A.rows ++ intBytes A.cols ++ encodeAll c A.data

/-- `bytes_to_matrix` (matrix.hpp 651-675); `file = none` when the file cannot be opened, `junk` is the content of new storage
(`new double[n]` leaves it indeterminate). `new T[n]` throws when `n` is negative. -/
def bytesToMatrix (file : Option (List UInt8)) (junk : ℕ → UInt8) (A : FMat T) : Res (FMat T) :=
  match file with
  | none => .returned 1 A
  | some f =>
    let s0 : IStream := ⟨f, false⟩
    let r1 := s0.read 4 (intBytes 0)
    let r2 := r1.2.read 4 (intBytes 0)
    let rows := intOf r1.1
    let cols := intOf r2.1
    if rows * cols < 0 then .threw (A.rows != 0 && A.cols != 0 && A.owning) A
    else
      let n := (rows * cols).toNat
      .returned 0 ⟨rows, cols, decodeAll c n (r2.2.read (n * c.width) ((List.range (n * c.width)).map junk)).1, true⟩

/-- `vector_to_bytes` (vector.hpp 137-151): the content of the file. -/
def vectorToBytes (v : List T) : List UInt8 := intBytes v.length ++ encodeAll c v

/-- `bytes_to_vector` (vector.hpp 153-172); `zero` is `T()`. `vect.resize` keeps the first coefficients, and throws for a negative size, which is converted
to a huge unsigned one. -/
def bytesToVector (zero : T) (file : Option (List UInt8)) (v : List T) : Res (List T) :=
  match file with
  | none => .returned 1 v
  | some f =>
    let s0 : IStream := ⟨f, false⟩
    let r1 := s0.read 4 (intBytes 0)
    let size := intOf r1.1
    if size < 0 then .threw false v
    else
      let n := size.toNat
      let v' := v.take n ++ List.replicate (n - v.length) zero
      .returned 0 (decodeAll c n (r1.2.read (n * c.width) (encodeAll c v')).1)

/-! ## Lemmas -/

theorem intBytes_length (n : ℤ) : (intBytes n).length = 4 := rfl

theorem intOf_intBytes (n : ℤ) (h1 : -2 ^ 31 ≤ n) (h2 : n < 2 ^ 31) (rest : List UInt8) : intOf (intBytes n ++ rest) = n := by
  unfold intOf intBytes
  simp only [List.cons_append, List.getD_cons_zero, List.getD_cons_succ, UInt8.toNat_ofNat']
  have hu : (n % 2 ^ 32).toNat < 2 ^ 32 := by omega
  have he : ((n % 2 ^ 32).toNat : ℤ) = n % 2 ^ 32 := Int.toNat_of_nonneg (by omega)
  generalize (n % 2 ^ 32).toNat = u at *
  norm_num at *
  split_ifs with h
  · omega
  · omega

theorem intOf_intBytes' (n : ℤ) (h1 : -2 ^ 31 ≤ n) (h2 : n < 2 ^ 31) : intOf (intBytes n) = n := by
  have := intOf_intBytes n h1 h2 []
  rwa [List.append_nil] at this

theorem encodeAll_length (l : List T) : (encodeAll c l).length = l.length * c.width := by
  induction l with
  | nil => simp [encodeAll]
  | cons x l ih =>
    simp only [encodeAll, List.flatMap_cons, List.length_append, c.len] at ih ⊢
    rw [ih, List.length_cons]; ring

theorem decodeAll_encodeAll (l : List T) (rest : List UInt8) : decodeAll c l.length (encodeAll c l ++ rest) = l := by
  induction l with
  | nil => rfl
  | cons x l ih =>
    unfold decodeAll at ih ⊢
    rw [List.length_cons, List.range_succ_eq_map, List.map_cons, List.map_map]
    congr 1
    · rw [Nat.zero_mul, List.drop_zero]
      simp only [encodeAll, List.flatMap_cons, List.append_assoc]
      rw [← c.len x, List.take_left', c.dec_enc]
      rfl
    · conv_rhs => rw [← ih]
      refine List.map_congr_left fun i _ => ?_
      simp only [Function.comp, encodeAll, List.flatMap_cons, List.append_assoc]
      have : (i + 1) * c.width = (c.enc x).length + i * c.width := by rw [c.len]; ring
      rw [this, ← List.drop_drop, List.drop_left']
      rfl

theorem read_full (b rest target : List UInt8) (n : ℕ) (h : b.length = n) :
    (IStream.read ⟨b ++ rest, false⟩ n target) = (b, ⟨rest, false⟩) := by
  subst h
  unfold IStream.read
  rw [if_neg (by simp), if_pos (by simp)]
  simp

end Htool.Bytes
