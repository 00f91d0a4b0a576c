import Verif.LowRank
import Verif.HBuild
import Mathlib.Algebra.Order.Field.Basic
import Mathlib.Algebra.BigOperators.Ring.Finset

/-! # Adaptive cross approximation

Model of `include/htool/hmatrix/lrmat/fullACA.hpp`, `partialACA.hpp` and `sympartialACA.hpp`. Coefficients are in a field `K` with a conjugation,
moduli in an ordered field `F`; arithmetic is exact. The generator is the matrix of coefficients in cluster numbering. Logging is left
out. `1e-15` is the rational number. -/

namespace Htool

/-- Modulus and real part of the coefficients (`std::abs`, `std::real`). -/
structure Modulus (K F : Type*) [Field K] [StarRing K] [Field F] [LinearOrder F] [IsStrictOrderedRing F] where
  abs : K → F
  re : K →+ F
  abs_nonneg : ∀ x, 0 ≤ abs x
  abs_eq_zero : ∀ x, abs x = 0 ↔ x = 0
  abs_mul : ∀ x y, abs (x * y) = abs x * abs y
  re_star : ∀ x, re (star x) = re x
  re_self : ∀ x, re (star x * x) = abs x ^ 2
  abs_self : ∀ (n : ℕ) (c : ℕ → K), abs (∑ i ∈ Finset.range n, star (c i) * c i) = ∑ i ∈ Finset.range n, abs (c i) ^ 2

variable {K F : Type*} [Field K] [StarRing K] [Field F] [LinearOrder F] [IsStrictOrderedRing F]

/-- The threshold `1e-15` (fullACA.hpp 69, partialACA.hpp 115, sympartialACA.hpp 132). -/
def acaTol (F : Type*) [Field F] : F := 1 / 10 ^ 15

/-- `copy_submatrix(M, N, row_offset, col_offset, ptr)` of the internal generator (virtual_generator.hpp), column major. -/
def copySub (gen : ℕ → ℕ → K) (M N ro co : ℕ) (out : Buf K) : Buf K := fun p => if p < M * N then gen (ro + p % M) (co + p / M) else out p

/-- Condition of the main loop (fullACA.hpp 62, partialACA.hpp 85, sympartialACA.hpp 97); `test`: the relative error is still larger than
`epsilon`. -/
def acaCont (reqrank : ℤ) (q M N : ℕ) (test : Bool) : Bool :=
  (decide (0 < reqrank) && decide ((q : ℤ) < min reqrank (min (M : ℤ) N))) || (decide (reqrank < 0) && (test || decide (q = 0)))

/-- Filling of `U` and `V` after the loop (fullACA.hpp 83-91, partialACA.hpp 163-172). Otherwise they are left as they are. -/
def storeCols (M N : ℕ) (rank : ℤ) (uu vv : List (Buf K)) (U V : Mat K) : Mat K × Mat K :=
  if 0 < rank then
    let k := rank.toNat
    (⟨M, k, (List.range k).foldl (fun d l => copyTo M (uu.getD l 0) 0 d (l * M)) (U.resize M k 0).data⟩,
     (List.range k).foldl (fun W l => (List.range N).foldl (fun W j => W.set l j (vv.getD l 0 j)) W) (V.resize k N 0))
  else (U, V)

/-- `std::vector` as a buffer. -/
def bufOf (l : List K) : Buf K := fun i => l.getD i 0

/-! ## Full pivoting -/

/-- State of the loop of `fullACA` (fullACA.hpp 54-60). -/
structure FullState (K : Type*) where
  q : ℕ
  mat : Mat K
  uu : List (Buf K)
  vv : List (Buf K)

/-- `mat(i, j) -= u[i] * v[j]` for all `i`, `j` (fullACA.hpp 76-80). -/
def subOuter (A : Mat K) (u v : Buf K) : Mat K :=
  (List.range A.nr).foldl (fun B i => (List.range A.nc).foldl (fun B j => B.set i j (B.get i j - u i * v j)) B) A

/-- Loop of `fullACA` (fullACA.hpp 62-81), with a bound on the number of iterations. `normFrob(mat) / Norm > epsilon` is written with
squares, which is the same for `epsilon ≥ 0` (also when `Norm = 0`, where the quotient is NaN and the comparison false): see
`sqrt_test`. -/
def fullLoop (μ : Modulus K F) (M N : ℕ) (reqrank : ℤ) (eps norm2 : F) : ℕ → FullState K → Option (ℤ × FullState K)
  | 0, _ => none
  | fuel + 1, s =>
    if acaCont reqrank s.q M N (decide (eps ^ 2 * norm2 < s.mat.frobSq μ.abs)) then
      if M * N < (s.q + 1) * (M + N) then some (-1, s)
      else
        let ind := s.mat.argmax μ.abs
        let pivot := s.mat.get ind.1 ind.2
        if μ.abs pivot < acaTol F then some (s.q, s)
        else
          let u := bufOf (s.mat.getCol ind.2)
          let v := bufOf ((s.mat.getRow ind.1).map (· / pivot))
          fullLoop μ M N reqrank eps norm2 fuel ⟨s.q + 1, subOuter s.mat u v, s.uu ++ [u], s.vv ++ [v]⟩
    else some (s.q, s)

/-- `fullACA::copy_low_rank_approximation` (fullACA.hpp 45-92): rank, `U` and `V`. -/
def fullACA (μ : Modulus K F) (gen : ℕ → ℕ → K) (t s : ℕ × ℕ) (eps : F) (rank : ℤ) (U V : Mat K) : Option (ℤ × Mat K × Mat K) :=
  let M := t.2
  let N := s.2
  let mat : Mat K := { Mat.mk' M N 0 with data := copySub gen M N t.1 s.1 (Mat.mk' M N 0).data }
  (fullLoop μ M N rank eps (mat.frobSq μ.abs) (M * N + 2) ⟨0, mat, [], []⟩).map fun r =>
    (r.1, storeCols M N r.1 r.2.uu r.2.vv U V)

/-! ## Partial pivoting -/

/-- Choice of the next row or column: the last unvisited index whose modulus is at least the running maximum; the old value if all are
visited (partialACA.hpp 98-108 and 124-133, sympartialACA.hpp 117-127 and 145-154). -/
def pick (n : ℕ) (visited : ℕ → Bool) (val : ℕ → F) (old : ℕ) : ℕ :=
  ((List.range n).foldl (fun (s : F × ℕ) k => if visited k then s else if val k < s.1 then s else (val k, k)) (0, old)).2

/-- BLAS `dot`: for complex types `dotc`, which conjugates its first argument. -/
def dotc (n : ℕ) (x y : Buf K) : K := ∑ i ∈ Finset.range n, star (x i) * y i

/-- State of the loop (partialACA.hpp 57-78, sympartialACA.hpp 66-92). -/
structure PartState (K F : Type*) where
  q : ℕ
  I : ℕ
  J : ℕ
  uu : List (Buf K)
  vv : List (Buf K)
  vr : ℕ → Bool
  vc : ℕ → Bool
  frob : F
  aux : F

/-- `r -= sum_j uu[j][I] vv[j]` by successive `axpy` (partialACA.hpp 93-96). -/
def residRow (n I : ℕ) (uu vv : List (Buf K)) (r : Buf K) : Buf K := (uu.zip vv).foldl (fun r p => axpy n (-p.1 I) p.2 r) r

/-- `c -= sum_k vv[k][J] uu[k]` (partialACA.hpp 118-121). -/
def residCol (n J : ℕ) (uu vv : List (Buf K)) (c : Buf K) : Buf K := (uu.zip vv).foldl (fun c p => axpy n (-p.2 J) p.1 c) c

/-- Loop of `partialACA` (partialACA.hpp 85-160) and `sympartialACA` (sympartialACA.hpp 97-183), with a bound on the number of iterations.
`row I`: coefficients of row `I` of the block, `col J`: of column `J`; `cross` is the term of `frob_aux` for an older cross. The test
`sqrt(aux / frob) > epsilon` is written with squares. -/
def partLoop (μ : Modulus K F) (M N : ℕ) (row col : ℕ → Buf K) (cross : Buf K → Buf K → Buf K → Buf K → K) (reqrank : ℤ) (eps : F) :
    ℕ → PartState K F → Option (ℤ × PartState K F)
  | 0, _ => none
  | fuel + 1, s =>
    if acaCont reqrank s.q M N (decide (eps ^ 2 * s.frob < s.aux)) then
      if M * N < (s.q + 1) * (M + N) then some (-1, s)
      else
        let r := residRow N s.I s.uu s.vv (row s.I)
        let J := pick N s.vc (fun k => μ.abs (r k)) s.J
        let vr := Function.update s.vr s.I true
        if acaTol F < μ.abs (r J) then
          let c := (fun c : Buf K => fun k => if k < M then c k * (1 / r J) else c k) (residCol M J s.uu s.vv (col J))
          let I := pick M vr (fun k => μ.abs (c k)) s.I
          let aux := if reqrank < 0 then μ.abs (dotc M c c) * μ.abs (dotc N r r) else s.aux
          let frob := if reqrank < 0 then s.frob + (aux + 2 * μ.re (((s.uu.zip s.vv).map (fun p => cross p.1 p.2 c r)).sum)) else s.frob
          partLoop μ M N row col cross reqrank eps fuel
            ⟨s.q + 1, I, J, s.uu ++ [c], s.vv ++ [r], vr, Function.update s.vc J true, frob, aux⟩
        else some (if s.q = 0 then -1 else s.q, { s with J := J, vr := vr })
    else some (s.q, s)

/-- Initial state. -/
def PartState.init : PartState K F := ⟨0, 0, 0, [], [], fun _ => false, fun _ => false, 0, 0⟩

/-- `partialACA::copy_low_rank_approximation` (partialACA.hpp 49-173). -/
def partialACA (μ : Modulus K F) (gen : ℕ → ℕ → K) (t s : ℕ × ℕ) (eps : F) (rank : ℤ) (U V : Mat K) : Option (ℤ × Mat K × Mat K) :=
  (partLoop μ t.2 s.2 (fun I => copySub gen 1 s.2 (I + t.1) s.1 (fun _ => 0)) (fun J => copySub gen t.2 1 t.1 (J + s.1) (fun _ => 0))
    (fun u v c r => dotc s.2 v r * dotc t.2 u c) rank eps (t.2 * s.2 + 2) PartState.init).map fun r =>
    (r.1, storeCols t.2 s.2 r.1 r.2.uu r.2.vv U V)

/-- `sympartialACA::copy_low_rank_approximation` (sympartialACA.hpp 47-208): the roles of rows and columns depend on the offsets. -/
def sympartialACA (μ : Modulus K F) (gen : ℕ → ℕ → K) (t s : ℕ × ℕ) (eps : F) (rank : ℤ) (U V : Mat K) : Option (ℤ × Mat K × Mat K) :=
  if s.1 ≤ t.1 then
    (partLoop μ t.2 s.2 (fun I => copySub gen 1 s.2 (t.1 + I) s.1 (fun _ => 0)) (fun J => copySub gen t.2 1 t.1 (s.1 + J) (fun _ => 0))
      (fun u v c r => dotc s.2 r v * dotc t.2 c u) rank eps (t.2 * s.2 + 2) PartState.init).map fun r =>
      (r.1, storeCols t.2 s.2 r.1 r.2.uu r.2.vv U V)
  else
    (partLoop μ s.2 t.2 (fun I => copySub gen t.2 1 t.1 (s.1 + I) (fun _ => 0)) (fun J => copySub gen 1 s.2 (t.1 + J) s.1 (fun _ => 0))
      (fun u v c r => dotc t.2 r v * dotc s.2 c u) rank eps (s.2 * t.2 + 2) PartState.init).map fun r =>
      (r.1, storeCols t.2 s.2 r.1 r.2.vv r.2.uu U V)

end Htool
