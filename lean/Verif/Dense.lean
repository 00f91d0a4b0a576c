import Verif.LocalOp
import Mathlib.Algebra.Order.Field.Basic
import Mathlib.Data.List.GetD

/-! # The dense matrix container

Model of `include/htool/matrix/matrix.hpp` (class `Matrix`, `argmax`, `normFrob`, byte files), `matrix/linalg/transpose.hpp`,
`matrix/linalg/scale.hpp`, `matrix/linalg/add_matrix_matrix_product.hpp`, `matrix/linalg/add_matrix_matrix_product_row_major.hpp`
and `basic_types/vector.hpp` (byte files). Ownership of the storage is modelled in `Verif/MatrixMemory.lean`. -/

namespace Htool
variable {R : Type*}

/-- `Matrix<T>` (matrix.hpp 22-28): sizes and column-major storage. -/
structure Mat (R : Type*) where
  nr : ℕ
  nc : ℕ
  data : Buf R

namespace Mat

/-- `operator()(j, k)` (matrix.hpp 95-97, 106-108). -/
def get (A : Mat R) (j k : ℕ) : R := A.data (j + k * A.nr)

/-- Assignment `A(j, k) = x` (matrix.hpp 95-97). -/
def set (A : Mat R) (j k : ℕ) (x : R) : Mat R := { A with data := Function.update A.data (j + k * A.nr) x }

/-- `get_stridedslice` (matrix.hpp 145-154). -/
def stridedSlice (A : Mat R) (start length stride : ℕ) : List R :=
  ((List.range length).foldl (fun (s : List R × ℕ) _ => (s.1 ++ [A.data s.2], s.2 + stride)) ([], start)).1

/-- `get_row` (matrix.hpp 162-164). -/
def getRow (A : Mat R) (row : ℕ) : List R := A.stridedSlice row A.nc A.nr

/-- `get_col` (matrix.hpp 172-174). -/
def getCol (A : Mat R) (col : ℕ) : List R := A.stridedSlice (col * A.nr) A.nr 1

/-- `set_stridedslice` (matrix.hpp 182-188). -/
def setStrided [Zero R] (A : Mat R) (start length stride : ℕ) (a : List R) : Mat R :=
  { A with data := ((List.range length).foldl (fun (s : Buf R × ℕ) i =>
      (Function.update s.1 s.2 (a.getD i 0), s.2 + stride)) (A.data, start)).1 }

/-- `set_row` (matrix.hpp 195-197). -/
def setRow [Zero R] (A : Mat R) (row : ℕ) (a : List R) : Mat R := A.setStrided row A.nc A.nr a

/-- `set_col` (matrix.hpp 204-206). -/
def setCol [Zero R] (A : Mat R) (col : ℕ) (a : List R) : Mat R := A.setStrided (col * A.nr) A.nr 1 a

/-- `Matrix(nbr, nbc, value)` (matrix.hpp 31-34): `fill_n` on new storage, whose other content is irrelevant. -/
def mk' [Zero R] (nbr nbc : ℕ) (value : R) : Mat R := ⟨nbr, nbc, fun i => if i < nbr * nbc then value else 0⟩

/-- `resize` (matrix.hpp 222-236). -/
def resize (A : Mat R) (nbr nbc : ℕ) (value : R) : Mat R := ⟨nbr, nbc, fun i => if i < nbr * nbc then value else A.data i⟩

/-- `transpose(A, B)` (transpose.hpp 9-16): `B` keeps its sizes. -/
def transpose (A B : Mat R) : Mat R :=
  (List.range A.nr).foldl (fun B i => (List.range A.nc).foldl (fun B j => B.set j i (A.get i j)) B) B

section ring
variable [CommRing R]

/-- `scale` (matrix/linalg/scale.hpp 8-13), BLAS `scal`. -/
def scale (a : R) (A : Mat R) : Mat R := { A with data := fun i => if i < A.nc * A.nr then a * A.data i else A.data i }

/-- The double loop filling `R(i, j)` shared by the arithmetic operators. -/
def fill (nr nc : ℕ) (B : Mat R) (f : ℕ → ℕ → R) : Mat R :=
  (List.range nr).foldl (fun B i => (List.range nc).foldl (fun B j => B.set i j (f i j)) B) B

/-- `operator*(const Matrix &A, const T &a)` (matrix.hpp 242-250). -/
def smul (A : Mat R) (a : R) : Mat R := fill A.nr A.nc (mk' A.nr A.nc 0) (fun i j => A.get i j * a)

/-- `operator+` (matrix.hpp 259-267). -/
def add (A B : Mat R) : Mat R := fill B.nr B.nc (mk' B.nr B.nc 0) (fun i j => A.data (i + j * A.nr) + B.get i j)

/-- `operator-` (matrix.hpp 273-281). -/
def sub (A B : Mat R) : Mat R := fill B.nr B.nc (mk' B.nr B.nc 0) (fun i j => A.data (i + j * A.nr) - B.get i j)

/-- `operator*(const std::vector<T> &)` (matrix.hpp 287-295). -/
def mulVec (A : Mat R) (x : Buf R) : Buf R :=
  (List.range A.nr).foldl (fun l i => (List.range A.nc).foldl (fun l k =>
    Function.update l i (l i + A.data (i + k * A.nr) * x k)) l) (fun _ => 0)

/-- `operator*(const Matrix &)` (matrix.hpp 300-310). -/
def mul (A B : Mat R) : Mat R :=
  (List.range A.nr).foldl (fun P i => (List.range B.nc).foldl (fun P j => (List.range A.nc).foldl (fun P k =>
    P.set i j (P.get i j + A.data (i + k * A.nr) * B.get k j)) P) P) (mk' A.nr B.nc 0)

end ring

/-- `std::max_element` with the comparison `abs(a) < abs(b)` on `n` entries, as a position: the running maximum is replaced only by a
strictly larger entry. -/
def maxElement {K : Type*} [LinearOrder K] (ab : R → K) (b : Buf R) (n : ℕ) : ℕ :=
  (List.range n).foldl (fun p i => if ab (b p) < ab (b i) then i else p) 0

/-- `argmax(M)` (matrix.hpp 625-628). -/
def argmax {K : Type*} [LinearOrder K] (ab : R → K) (A : Mat R) : ℕ × ℕ :=
  let p := maxElement ab A.data (A.nc * A.nr)
  (p % A.nr, p / A.nr)

/-- The accumulation of `normFrob` before the square root (matrix.hpp 716-724). -/
def frobSq {K : Type*} [CommSemiring K] (ab : R → K) (A : Mat R) : K :=
  (List.range A.nr).foldl (fun n j => (List.range A.nc).foldl (fun n k => n + ab (A.get j k) ^ 2) n) 0

end Mat

/-! ## Matrix-matrix product wrappers -/

/-- Integer arguments of a BLAS level 3 call. -/
structure Blas3Args where
  m : ℕ
  n : ℕ
  k : ℕ
  lda : ℕ
  ldb : ℕ
  ldc : ℕ
deriving Repr, DecidableEq

/-- Arguments computed by `add_matrix_matrix_product` (add_matrix_matrix_product.hpp 35-42). -/
def mmArgs (ta tb : Trans) (A C : Mat R) : Blas3Args :=
  let M := C.nr
  let N := C.nc
  let K := if ta = .N then A.nc else A.nr
  { m := M, n := N, k := K, lda := if ta = .N then M else K, ldb := if tb = .N then K else N, ldc := M }

section wrappers
variable [CommRing R] [StarRing R]

/-- `add_matrix_matrix_product` (add_matrix_matrix_product.hpp 33-47). -/
def Mat.addMM (ta tb : Trans) (α : R) (A B : Mat R) (β : R) (C : Mat R) : Mat R :=
  let a := mmArgs ta tb A C
  { C with data := gemm ta tb a.m a.n a.k α A.data a.lda B.data a.ldb β C.data a.ldc }

/-- `add_symmetric_matrix_matrix_product` (add_matrix_matrix_product.hpp 104-112). -/
def Mat.addSymMM (side : Side) (u : UploType) (α : R) (A B : Mat R) (β : R) (C : Mat R) : Mat R :=
  { C with data := symm side u C.nr C.nc α A.data (if side = .L then C.nr else C.nc) B.data C.nr β C.data C.nr }

/-- `add_hermitian_matrix_matrix_product` (add_matrix_matrix_product.hpp 114-122). -/
def Mat.addHerMM (side : Side) (u : UploType) (α : R) (A B : Mat R) (β : R) (C : Mat R) : Mat R :=
  { C with data := hemm side u C.nr C.nc α A.data (if side = .L then C.nr else C.nc) B.data C.nr β C.data C.nr }

/-- Arguments computed by `add_matrix_matrix_product_row_major` (add_matrix_matrix_product_row_major.hpp 23-43, 51-72). -/
def rmArgs (ta tb : Trans) (A : Mat R) (mu : ℕ) : Blas3Args :=
  let N := if ta = .N then A.nr else A.nc
  let K := if ta = .N then A.nc else A.nr
  { m := mu, n := N, k := K, lda := if tb = .N then mu else K, ldb := if ta = .N then N else K, ldc := mu }

/-- `add_matrix_matrix_product_row_major` (add_matrix_matrix_product_row_major.hpp 21-46 for real types, 48-83 for complex ones). -/
def Mat.addMMRM (cplx : Bool) (ta tb : Trans) (α : R) (A : Mat R) (inp : Buf R) (β : R) (out : Buf R) (mu : ℕ) : Buf R :=
  let a := rmArgs ta tb A mu
  let Af := if cplx = true ∧ ta = .C then conjBuf (A.nr * A.nc) A.data else A.data
  let Bf := if cplx = true ∧ tb = .C then conjBuf (a.m * a.lda) inp else inp
  gemm (if tb = .N then .N else .T) (if ta = .N then .T else .N) a.m a.n a.k α Bf a.lda Af a.ldb β out a.ldc

/-- `add_symmetric_matrix_matrix_product_row_major` (add_matrix_matrix_product_row_major.hpp 85-107). -/
def Mat.addSymMMRM (side : Side) (u : UploType) (α : R) (A : Mat R) (inp : Buf R) (β : R) (out : Buf R) (mu : ℕ) : Buf R :=
  if A.nr ≠ 0 then
    let M := if side = .R then A.nr else mu
    let N := if side = .R then mu else A.nr
    let lda := if side = .R then M else N
    symm (if side = .R then .L else .R) u M N α A.data lda inp M β out M
  else out

/-- `add_hermitian_matrix_matrix_product_row_major` for complex types (add_matrix_matrix_product_row_major.hpp 114-141). -/
def Mat.addHerMMRM (side : Side) (u : UploType) (α : R) (A : Mat R) (inp : Buf R) (β : R) (out : Buf R) (mu : ℕ) : Buf R :=
  if A.nr ≠ 0 then
    let M := if side = .R then A.nr else mu
    let N := if side = .R then mu else A.nr
    let lda := if side = .R then M else N
    let cin := fun p => if p < A.nr * mu then star (inp p) else 0
    let y1 := conjBuf (A.nc * mu) out
    let y2 := hemm (if side = .R then .L else .R) u M N (star α) A.data lda cin M (star β) y1 M
    conjBuf (A.nc * mu) y2
  else out

end wrappers

/-! ## Lemmas -/

theorem mat_idx_inj {nr i j k l : ℕ} (hi : i < nr) (hk : k < nr) (h : i + j * nr = k + l * nr) : i = k ∧ j = l := rm_inj hi hk h

theorem mat_idx_lt {nr nc i j : ℕ} (hi : i < nr) (hj : j < nc) : i + j * nr < nr * nc := by
  calc i + j * nr < nr + j * nr := by omega
    _ = nr * (j + 1) := by ring
    _ ≤ nr * nc := Nat.mul_le_mul_left _ hj

namespace Mat

theorem stridedSlice_eq (A : Mat R) (start length stride : ℕ) :
    A.stridedSlice start length stride = (List.range length).map (fun i => A.data (start + i * stride)) := by
  have : ∀ n, (List.range n).foldl (fun (s : List R × ℕ) _ => (s.1 ++ [A.data s.2], s.2 + stride)) ([], start) =
      ((List.range n).map (fun i => A.data (start + i * stride)), start + n * stride) := by
    intro n
    induction n with
    | zero => simp
    | succ n ih =>
      rw [List.range_succ, List.foldl_append, ih]
      simp only [List.foldl_cons, List.foldl_nil, List.map_append, List.map_cons, List.map_nil]
      congr 1
      ring
  rw [stridedSlice, this]

theorem setStrided_eq [Zero R] (A : Mat R) (start length stride : ℕ) (a : List R) :
    (A.setStrided start length stride a).data =
      (List.range length).foldl (fun o i => Function.update o (start + i * stride) (a.getD i 0)) A.data := by
  have : ∀ n, (List.range n).foldl (fun (s : Buf R × ℕ) i => (Function.update s.1 s.2 (a.getD i 0), s.2 + stride)) (A.data, start) =
      ((List.range n).foldl (fun o i => Function.update o (start + i * stride) (a.getD i 0)) A.data, start + n * stride) := by
    intro n
    induction n with
    | zero => simp
    | succ n ih =>
      rw [List.range_succ, List.foldl_append, ih, List.foldl_append]
      simp only [List.foldl_cons, List.foldl_nil]
      congr 1
      ring
  show ((List.range length).foldl _ (A.data, start)).1 = _
  rw [this]

/-- A double loop of `set` is a `loop2` on the storage. -/
theorem foldl_set (m n : ℕ) (B : Mat R) (idx : ℕ → ℕ → ℕ × ℕ) (v : ℕ → ℕ → R) :
    (List.range m).foldl (fun B i => (List.range n).foldl (fun B j => B.set (idx i j).1 (idx i j).2 (v i j)) B) B =
      ⟨B.nr, B.nc, loop2 m n (fun i j => (idx i j).1 + (idx i j).2 * B.nr) v B.data⟩ := by
  have inner : ∀ (i : ℕ) (n : ℕ) (d : Buf R), (List.range n).foldl (fun B j => B.set (idx i j).1 (idx i j).2 (v i j))
      (⟨B.nr, B.nc, d⟩ : Mat R) = ⟨B.nr, B.nc, (List.range n).foldl
        (fun o j => Function.update o ((idx i j).1 + (idx i j).2 * B.nr) (v i j)) d⟩ := by
    intro i n d
    induction n with
    | zero => rfl
    | succ n ih => rw [List.range_succ, List.foldl_append, ih, List.foldl_append]; rfl
  unfold loop2
  induction m with
  | zero => rfl
  | succ m ih =>
    rw [List.range_succ, List.foldl_append, ih, List.foldl_append]
    simp only [List.foldl_cons, List.foldl_nil]
    rw [inner]

theorem transpose_eq (A B : Mat R) :
    transpose A B = ⟨B.nr, B.nc, loop2 A.nr A.nc (fun i j => j + i * B.nr) A.get B.data⟩ :=
  foldl_set A.nr A.nc B (fun i j => (j, i)) (fun i j => A.get i j)

section ring
variable [CommRing R]

theorem fill_get {nr nc : ℕ} (f : ℕ → ℕ → R) :
    (fill nr nc (mk' nr nc 0) f).nr = nr ∧ (fill nr nc (mk' nr nc 0) f).nc = nc ∧
    ∀ i < nr, ∀ j < nc, (fill nr nc (mk' nr nc 0) f).get i j = f i j := by
  have e : fill nr nc (mk' nr nc (0 : R)) f = ⟨nr, nc, loop2 nr nc (fun i j => i + j * nr) f (mk' nr nc (0 : R)).data⟩ :=
    foldl_set nr nc (mk' nr nc 0) (fun i j => (i, j)) f
  rw [e]
  refine ⟨rfl, rfl, fun i hi j hj => ?_⟩
  exact (loop2_get nr nc (fun i j => i + j * nr) f (mk' nr nc (0 : R)).data
    (fun i hi j _ i' hi' j' _ h => rm_inj hi hi' h)).1 i hi j hj

open Finset in
theorem mulVec_get (A : Mat R) (x : Buf R) : ∀ i < A.nr, A.mulVec x i = ∑ k ∈ range A.nc, A.get i k * x k := by
  have inner : ∀ (i n : ℕ) (l : Buf R), (List.range n).foldl (fun l k => Function.update l i (l i + A.data (i + k * A.nr) * x k)) l =
      Function.update l i (l i + ∑ k ∈ range n, A.get i k * x k) := by
    intro i n l
    induction n with
    | zero => simp
    | succ n ih =>
      rw [List.range_succ, List.foldl_append, ih, sum_range_succ]
      simp only [List.foldl_cons, List.foldl_nil, Function.update_self, Function.update_idem]
      congr 1
      rw [← add_assoc]; rfl
  have outer : ∀ m, (∀ i < m, (List.range m).foldl (fun l i => (List.range A.nc).foldl (fun l k =>
      Function.update l i (l i + A.data (i + k * A.nr) * x k)) l) (fun _ => 0) i = ∑ k ∈ range A.nc, A.get i k * x k) ∧
      ∀ i, m ≤ i → (List.range m).foldl (fun l i => (List.range A.nc).foldl (fun l k =>
      Function.update l i (l i + A.data (i + k * A.nr) * x k)) l) (fun _ => 0) i = 0 := by
    intro m
    induction m with
    | zero => simp
    | succ m ih =>
      rw [List.range_succ, List.foldl_append]
      simp only [List.foldl_cons, List.foldl_nil]
      rw [inner]
      constructor
      · intro i hi
        by_cases e : i = m
        · subst e; rw [Function.update_self, ih.2 i le_rfl, zero_add]
        · rw [Function.update_of_ne e]; exact ih.1 i (by omega)
      · intro i hi
        rw [Function.update_of_ne (by omega)]; exact ih.2 i (by omega)
  exact (outer A.nr).1

open Finset in
theorem mul_get (A B : Mat R) : (A.mul B).nr = A.nr ∧ (A.mul B).nc = B.nc ∧
    ∀ i < A.nr, ∀ j < B.nc, (A.mul B).get i j = ∑ k ∈ range A.nc, A.get i k * B.get k j := by
  have inner : ∀ (i j n : ℕ) (P : Mat R), (List.range n).foldl (fun P k => P.set i j (P.get i j + A.data (i + k * A.nr) * B.get k j)) P =
      P.set i j (P.get i j + ∑ k ∈ range n, A.get i k * B.get k j) := by
    intro i j n P
    induction n with
    | zero => simp [set, get]
    | succ n ih =>
      rw [List.range_succ, List.foldl_append, ih, sum_range_succ]
      simp only [List.foldl_cons, List.foldl_nil, set, get, Function.update_self, Function.update_idem]
      congr 2
      rw [← add_assoc]
  -- one row
  have row : ∀ (i n : ℕ) (P : Mat R), i < P.nr →
      ((List.range n).foldl (fun P j => (List.range A.nc).foldl (fun P k =>
        P.set i j (P.get i j + A.data (i + k * A.nr) * B.get k j)) P) P).nr = P.nr ∧
      ((List.range n).foldl (fun P j => (List.range A.nc).foldl (fun P k =>
        P.set i j (P.get i j + A.data (i + k * A.nr) * B.get k j)) P) P).nc = P.nc ∧
      ∀ a < P.nr, ∀ b, ((List.range n).foldl (fun P j => (List.range A.nc).foldl (fun P k =>
        P.set i j (P.get i j + A.data (i + k * A.nr) * B.get k j)) P) P).get a b =
        if a = i ∧ b < n then P.get a b + ∑ k ∈ range A.nc, A.get i k * B.get k b else P.get a b := by
    intro i n P hi
    induction n with
    | zero => simp
    | succ n ih =>
      rw [List.range_succ, List.foldl_append]
      simp only [List.foldl_cons, List.foldl_nil]
      rw [inner]
      generalize hQ : (List.range n).foldl _ P = Q at ih
      obtain ⟨h1, h2, h3⟩ := ih
      refine ⟨h1, h2, fun a ha b => ?_⟩
      simp only [set, get] at h3 ⊢
      by_cases e : a = i ∧ b = n
      · obtain ⟨rfl, rfl⟩ := e
        rw [Function.update_self, h3 a ha b, if_neg (by omega), if_pos ⟨rfl, by omega⟩]
      · rw [Function.update_of_ne (by
          intro h
          have := rm_inj (by rw [h1]; exact ha) (by rw [h1]; exact hi) h
          exact e this), h3 a ha b]
        by_cases c : a = i ∧ b < n
        · rw [if_pos c, if_pos ⟨c.1, by omega⟩]
        · rw [if_neg c, if_neg (by rintro ⟨c1, c2⟩; exact c ⟨c1, by have : b ≠ n := fun h => e ⟨c1, h⟩; omega⟩)]
  have outer : ∀ m, m ≤ A.nr → ((List.range m).foldl (fun P i => (List.range B.nc).foldl (fun P j => (List.range A.nc).foldl (fun P k =>
      P.set i j (P.get i j + A.data (i + k * A.nr) * B.get k j)) P) P) (mk' A.nr B.nc 0)).nr = A.nr ∧
      ((List.range m).foldl (fun P i => (List.range B.nc).foldl (fun P j => (List.range A.nc).foldl (fun P k =>
      P.set i j (P.get i j + A.data (i + k * A.nr) * B.get k j)) P) P) (mk' A.nr B.nc 0)).nc = B.nc ∧
      ∀ a < A.nr, ∀ b < B.nc, ((List.range m).foldl (fun P i => (List.range B.nc).foldl (fun P j => (List.range A.nc).foldl (fun P k =>
      P.set i j (P.get i j + A.data (i + k * A.nr) * B.get k j)) P) P) (mk' A.nr B.nc 0)).get a b =
        if a < m then ∑ k ∈ range A.nc, A.get a k * B.get k b else 0 := by
    intro m hm
    induction m with
    | zero =>
      refine ⟨rfl, rfl, fun a ha b hb => ?_⟩
      simp only [List.range_zero, List.foldl_nil, Nat.not_lt_zero, if_false, get, mk']
      rw [ite_self]
    | succ m ih =>
      obtain ⟨h1, h2, h3⟩ := ih (by omega)
      rw [List.range_succ, List.foldl_append]
      simp only [List.foldl_cons, List.foldl_nil]
      generalize hQ : (List.range m).foldl _ (mk' A.nr B.nc (0 : R)) = Q at h1 h2 h3
      obtain ⟨g1, g2, g3⟩ := row m B.nc Q (by omega)
      refine ⟨g1.trans h1, g2.trans h2, fun a ha b hb => ?_⟩
      rw [g3 a (by omega) b, h3 a ha b hb]
      by_cases e : a = m
      · subst e; rw [if_pos ⟨rfl, hb⟩, if_neg (by omega), if_pos (by omega), zero_add]
      · rw [if_neg (by tauto)]
        by_cases c : a < m
        · rw [if_pos c, if_pos (by omega)]
        · rw [if_neg c, if_neg (by omega)]
  obtain ⟨h1, h2, h3⟩ := outer A.nr le_rfl
  refine ⟨h1, h2, fun i hi j hj => ?_⟩
  have := h3 i hi j hj
  rw [if_pos hi] at this
  exact this

end ring

theorem maxElement_spec {K : Type*} [LinearOrder K] (ab : R → K) (b : Buf R) {n : ℕ} (hn : 0 < n) :
    maxElement ab b n < n ∧ (∀ i < n, ab (b i) ≤ ab (b (maxElement ab b n))) ∧
    ∀ i < maxElement ab b n, ab (b i) < ab (b (maxElement ab b n)) := by
  unfold maxElement
  induction n with
  | zero => omega
  | succ n ih =>
    rw [List.range_succ, List.foldl_append]
    simp only [List.foldl_cons, List.foldl_nil]
    rcases Nat.eq_zero_or_pos n with rfl | hp
    · simp
    obtain ⟨h1, h2, h3⟩ := ih hp
    generalize List.foldl (fun p i => if ab (b p) < ab (b i) then i else p) 0 (List.range n) = p at *
    by_cases c : ab (b p) < ab (b n)
    · rw [if_pos c]
      refine ⟨by omega, fun i hi => ?_, fun i hi => lt_of_le_of_lt (h2 i hi) c⟩
      by_cases e : i = n
      · rw [e]
      · exact ((h2 i (by omega)).trans c.le)
    · rw [if_neg c]
      refine ⟨by omega, fun i hi => ?_, h3⟩
      by_cases e : i = n
      · rw [e]; exact not_lt.1 c
      · exact h2 i (by omega)

open Finset in
theorem frobSq_eq {K : Type*} [CommSemiring K] (ab : R → K) (A : Mat R) :
    A.frobSq ab = ∑ i ∈ range A.nr, ∑ j ∈ range A.nc, ab (A.get i j) ^ 2 := by
  have inner : ∀ (j n : ℕ) (a : K), (List.range n).foldl (fun n k => n + ab (A.get j k) ^ 2) a =
      a + ∑ k ∈ range n, ab (A.get j k) ^ 2 := by
    intro j n a
    induction n with
    | zero => simp
    | succ n ih => rw [List.range_succ, List.foldl_append, ih, sum_range_succ, ← add_assoc]; rfl
  unfold frobSq
  generalize A.nr = m
  induction m with
  | zero => simp
  | succ m ih =>
    rw [List.range_succ, List.foldl_append, ih, sum_range_succ]
    simp only [List.foldl_cons, List.foldl_nil]
    rw [inner]

end Mat
end Htool
