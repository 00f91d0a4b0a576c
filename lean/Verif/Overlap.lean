import Verif.Props.HLinChol

/-! # Local solver with overlap

Model of solvers/local_solvers/local_hmatrix_plus_overlap_solvers.hpp, of solvers/local_solvers/local_hmatrix_solvers.hpp and of the overlap blocks built in
solvers/utility.hpp 209-236. The H-matrix is factored by the functions of `Verif/HLin.lean`; the symmetry flag and UPLO of the H-matrix are arguments (no
factorization changes them). `none`: a block needed by the hierarchical solves is missing. -/

namespace Htool
variable {G R : Type*}
open Finset

/-- The members of `LocalHMatrixPlusOverlapSolver` (local_hmatrix_plus_overlap_solvers.hpp 17-19): the H-matrix `A` and the dense blocks `B`, `C`, `D`;
`piv`: the pivots kept in `D`. -/
structure OvBlocks (G R : Type*) where
  A : FTree G R
  B : Mat R
  C : Mat R
  D : Mat R
  piv : List ℕ

section ops
variable [CommRing R] [StarRing R] [DecidableEq R] (E : LinOps R)

/-- `numfact` (local_hmatrix_plus_overlap_solvers.hpp 23-45). -/
def ovNumfact (f : ℕ) (sym : HSym) (u : UploType) (S : OvBlocks G R) : Option (OvBlocks G R) :=
  if sym = .N then
    (luH E f S.A).bind fun A =>
      if 0 < S.C.nr then
        (triHM E f .L .L .N true 1 A S.B).bind fun B =>
          (triHM E f .R .U .N false 1 A S.C).map fun C =>
            let D := Mat.addMM .N .N (-1) C B 1 S.D
            ⟨A, B, C, (E.getrf D).1, (E.getrf D).2⟩
      else some { S with A := A }
  else if sym = .S ∨ sym = .H then
    (cholH E u f S.A).bind fun A =>
      if u = .L ∧ 0 < S.C.nr then
        (triHM E f .R u E.tr false 1 A S.C).map fun C => { S with A := A, C := C, D := E.potrf u (Mat.addMM .N E.tr (-1) C C 1 S.D) }
      else if u = .U ∧ 0 < S.B.nc then
        (triHM E f .L u E.tr false 1 A S.B).map fun B => { S with A := A, B := B, D := E.potrf u (Mat.addMM E.tr .N (-1) B B 1 S.D) }
      else some { S with A := A }
  else some S

/-- The private `solve` (local_hmatrix_plus_overlap_solvers.hpp 84-122). -/
def ovSolveBlocks (f : ℕ) (sym : HSym) (u : UploType) (S : OvBlocks G R) (b1 b2 : Mat R) : Option (Mat R × Mat R) :=
  if sym = .N then
    (triHM E f .L .L .N true 1 S.A b1).bind fun b1 =>
      let (b1, b2) := if 0 < S.C.nr then
          let b2 := Mat.addMM .N .N (-1) S.C b1 1 b2
          let b2 := triDense E .L .L .N true 1 S.D S.piv b2
          let b2 := triDense E .L .U .N false 1 S.D S.piv b2
          (Mat.addMM .N .N (-1) S.B b2 1 b1, b2)
        else (b1, b2)
      (triHM E f .L .U .N false 1 S.A b1).map fun b1 => (b1, b2)
  else if (sym = .S ∨ sym = .H) ∧ u = .L then
    (triHM E f .L .L .N false 1 S.A b1).bind fun b1 =>
      let (b1, b2) := if 0 < S.C.nr then
          let b2 := Mat.addMM .N .N (-1) S.C b1 1 b2
          let b2 := triDense E .L .L .N true 1 S.D S.piv b2
          let b2 := triDense E .L .L E.tr false 1 S.D S.piv b2
          (Mat.addMM E.tr .N (-1) S.C b2 1 b1, b2)
        else (b1, b2)
      (triHM E f .L .L E.tr false 1 S.A b1).map fun b1 => (b1, b2)
  else if (sym = .S ∨ sym = .H) ∧ u = .U then
    (triHM E f .L .U E.tr false 1 S.A b1).bind fun b1 =>
      let (b1, b2) := if 0 < S.B.nc then
          let b2 := Mat.addMM E.tr .N (-1) S.B b1 1 b2
          let b2 := triDense E .L .U .N true 1 S.D S.piv b2
          (Mat.addMM .N .N (-1) S.B b2 1 b1, b2)
        else (b1, b2)
      (triHM E f .L .U .N false 1 S.A b1).map fun b1 => (b1, b2)
  else some (b1, b2)

omit [StarRing R] [DecidableEq R] in
/-- The columns of the two parts of the right-hand side (local_hmatrix_plus_overlap_solvers.hpp 52-55): `rows` entries from `start` on in columns of
length `ld`. -/
def ovSplit (ld start rows mu : ℕ) (b : Buf R) : Mat R :=
  ⟨rows, mu, (List.range mu).foldl (fun d i => Buf.at' (rows * i) (copyN rows (b.from' (i * ld + start))) d) (fun _ => 0)⟩

omit [CommRing R] [StarRing R] [DecidableEq R] in
/-- The columns of the solution (local_hmatrix_plus_overlap_solvers.hpp 59-62). -/
def ovMerge (ld n p mu : ℕ) (y1 y2 : Mat R) (x : Buf R) : Buf R :=
  (List.range mu).foldl (fun d i => Buf.at' (i * ld + n) (copyN p (y2.data.from' (i * p))) (Buf.at' (i * ld) (copyN n (y1.data.from' (i * n))) d)) x

/-- `solve(b, x, mu)` (local_hmatrix_plus_overlap_solvers.hpp 64-81); `solve(b, mu)` (46-63) is the case `x = b`. -/
def ovSolve (f : ℕ) (sym : HSym) (u : UploType) (S : OvBlocks G R) (b x : Buf R) (mu : ℕ) : Option (Buf R) :=
  let n := S.A.label.t.sz
  let p := S.D.nr
  let ld := n + p
  (ovSolveBlocks E f sym u S (ovSplit ld 0 n mu b) (ovSplit ld n p mu b)).map fun y => ovMerge ld n p mu y.1 y.2 x

omit [CommRing R] [StarRing R] [DecidableEq R] in
/-- `generator.copy_submatrix(M, N, rows, cols, ptr)` (contract of virtual_generator.hpp): the matrix of the coefficients, by columns. -/
def genSub (gen : ℕ → ℕ → R) (rows cols : List ℕ) : Mat R :=
  ⟨rows.length, cols.length, fun k => gen (rows.getD (k % rows.length) 0) (cols.getD (k / rows.length) 0)⟩

omit [StarRing R] [DecidableEq R] in
/-- `initialize_blocks_in_overlap` (utility.hpp 209-236): `num` is `local_to_global_numbering`, `n` the size without overlap, `sym` the symmetry of the
distributed operator, `u` the UPLO of the H-matrix. -/
def ovBlocksInit (cplx : Bool) (sym : HSym) (u : UploType) (gen : ℕ → ℕ → R) (num : List ℕ) (n : ℕ) : Mat R × Mat R × Mat R :=
  let inside := num.take n
  let overlap := num.drop n
  let D := genSub gen overlap overlap
  let empty : Mat R := ⟨0, 0, fun _ => 0⟩
  let isSym := decide (sym = .S) || (decide (sym = .H) && cplx)
  if !isSym || decide (u = .U) then (genSub gen inside overlap, empty, D)
  else if !isSym || decide (u = .L) then (empty, genSub gen overlap inside, D)
  else (empty, empty, D)

/-- `LocalHMatrixSolver::numfact` (local_hmatrix_solvers.hpp 23-29). -/
def hmNumfact (f : ℕ) (sym : HSym) (u : UploType) (A : FTree G R) : Option (FTree G R) :=
  if sym = .N then luH E f A else if sym = .S ∨ sym = .H then cholH E u f A else some A

/-- `LocalHMatrixSolver::solve(b, x, mu)` (local_hmatrix_solvers.hpp 60-87); `solve(b, mu)` (30-59) is the case `x = b`. With permutation, the right-hand
sides go through `buffer`; without, `buffer` is a view of `x`. `pt`, `ps`: permutations of the target and source cluster trees. -/
def hmSolve (f : ℕ) (sym : HSym) (u : UploType) (usePerm : Bool) (pt ps : List ℕ) (A : FTree G R) (b x : Buf R) (mu : ℕ) : Option (Buf R) :=
  let buffer := if usePerm then permIn ps A.label.s.off A.label.s.sz ⟨A.label.s.sz, mu, b⟩ else ⟨A.label.s.sz, mu, copyN (mu * A.label.s.sz) b x⟩
  (if sym = .N then luSolveH E f .N A buffer else if sym = .S ∨ sym = .H then cholSolveH E f u A buffer else some buffer).map fun Y =>
    if usePerm then (permOut pt A.label.t.off A.label.t.sz Y ⟨A.label.t.sz, mu, x⟩).data else copyN (mu * A.label.s.sz) Y.data x

end ops
end Htool

namespace Htool
variable {G R : Type*}
open Finset

section buffers

/-- The columns of a part of the right-hand side. -/
theorem ovSplit_get [CommRing R] {ld start rows mu : ℕ} {b : Buf R} {i k : ℕ} (hi : i < rows) (hk : k < mu) :
    (ovSplit ld start rows mu b).get i k = b (k * ld + (start + i)) := by
  have h := (colLoopAt (size := rows) (fun i => copyN rows (b.from' (i * ld + start))) (fun k i => b (k * ld + start + i)) (fun _ _ _ h => if_pos h)
    (fun _ _ _ h => if_neg (by omega)) mu (fun _ => 0)).1 k hk i hi
  unfold Mat.get ovSplit
  rw [show i + k * rows = rows * k + i by rw [Nat.mul_comm]; omega, show k * ld + (start + i) = k * ld + start + i by omega]
  exact h

/-- The columns of the solution, and the frame. -/
theorem ovMerge_spec {n p mu : ℕ} {y1 y2 : Mat R} {x : Buf R} (h1 : y1.nr = n) (h2 : y2.nr = p) :
    (∀ k < mu, ∀ i < n, ovMerge (n + p) n p mu y1 y2 x (k * (n + p) + i) = y1.get i k) ∧
    (∀ k < mu, ∀ i < p, ovMerge (n + p) n p mu y1 y2 x (k * (n + p) + (n + i)) = y2.get i k) ∧
    ∀ q, mu * (n + p) ≤ q → ovMerge (n + p) n p mu y1 y2 x q = x q := by
  have e : ∀ (i : ℕ) (d : Buf R), Buf.at' (i * (n + p) + n) (copyN p (y2.data.from' (i * p))) (Buf.at' (i * (n + p)) (copyN n (y1.data.from' (i * n))) d) =
      Buf.at' ((n + p) * i) (fun d => Buf.at' n (copyN p (y2.data.from' (i * p))) (copyN n (y1.data.from' (i * n)) d)) d := by
    intro i d
    funext q
    rw [Nat.mul_comm (n + p) i]
    unfold Buf.at' copyN Buf.from'
    beta_reduce
    by_cases a1 : i * (n + p) ≤ q
    · by_cases a2 : i * (n + p) + n ≤ q
      · rw [if_pos a2, if_pos a1, if_pos (show n ≤ q - i * (n + p) by omega), show q - (i * (n + p) + n) = q - i * (n + p) - n by omega]
        refine if_congr Iff.rfl rfl ?_
        rw [if_pos (by omega), if_neg (by omega), if_neg (by omega)]
        congr 1
        omega
      · rw [if_neg a2, if_pos a1, if_pos a1, if_neg (show ¬ n ≤ q - i * (n + p) by omega)]
    · rw [if_neg a1, if_neg (by omega), if_neg a1]
  have h := colLoopAt (size := n + p) (fun i d => Buf.at' n (copyN p (y2.data.from' (i * p))) (copyN n (y1.data.from' (i * n)) d))
    (fun k i => if i < n then y1.get i k else y2.get (i - n) k) ?_ ?_ mu x
  · have e' : ovMerge (n + p) n p mu y1 y2 x = (List.range mu).foldl (fun d i => Buf.at' ((n + p) * i)
        (fun d => Buf.at' n (copyN p (y2.data.from' (i * p))) (copyN n (y1.data.from' (i * n)) d)) d) x := by
      unfold ovMerge
      congr 1
      funext d i
      exact e i d
    rw [e']
    refine ⟨fun k hk i hi => ?_, fun k hk i hi => ?_, fun q hq => h.2 q (by rw [Nat.mul_comm]; exact hq)⟩
    · rw [Nat.mul_comm k, h.1 k hk i (by omega), if_pos hi]
    · rw [Nat.mul_comm k, h.1 k hk (n + i) (by omega), if_neg (by omega), show n + i - n = i by omega]
  · intro i d k hk
    unfold Buf.at' copyN Buf.from' Mat.get
    beta_reduce
    by_cases a : k < n
    · rw [if_pos a, if_neg (show ¬ n ≤ k by omega), if_pos a, h1]
      congr 1; omega
    · rw [if_neg a, if_pos (show n ≤ k by omega), if_pos (show k - n < p by omega), if_neg a, h2]
      exact congrArg _ (Nat.add_comm _ _)
  · intro i d k hk
    unfold Buf.at' copyN Buf.from'
    beta_reduce
    rw [if_pos (show n ≤ k by omega), if_neg (show ¬ k - n < p by omega), if_neg (show ¬ n + (k - n) < n by omega)]
    congr 1; omega

end buffers

section algebra
variable [CommRing R]

/-- Block elimination. -/
theorem block_elim {n p : ℕ} {M L U B B' C C' D D' : ℕ → ℕ → R} {b1 z1 y1 b2 y2 : ℕ → R}
    (hM : ∀ i < n, ∀ j < n, ∑ l ∈ range n, L i l * U l j = M i j) (hB : ∀ i < n, ∀ k < p, ∑ l ∈ range n, L i l * B' l k = B i k)
    (hC : ∀ k < p, ∀ j < n, ∑ l ∈ range n, C' k l * U l j = C k j) (hD : ∀ k < p, ∀ j < p, D' k j = D k j - ∑ l ∈ range n, C' k l * B' l j)
    (h1 : ∀ i < n, ∑ l ∈ range n, L i l * z1 l = b1 i) (h2 : ∀ k < p, ∑ j ∈ range p, D' k j * y2 j = b2 k - ∑ l ∈ range n, C' k l * z1 l)
    (h3 : ∀ i < n, ∑ l ∈ range n, U i l * y1 l = z1 i - ∑ j ∈ range p, B' i j * y2 j) :
    (∀ i < n, ∑ l ∈ range n, M i l * y1 l + ∑ j ∈ range p, B i j * y2 j = b1 i) ∧
    ∀ k < p, ∑ l ∈ range n, C k l * y1 l + ∑ j ∈ range p, D k j * y2 j = b2 k := by
  let m : (a b : ℕ) → (ℕ → ℕ → R) → Matrix (Fin a) (Fin b) R := fun a b f => Matrix.of fun i j => f i j
  let v : (a : ℕ) → (ℕ → R) → Fin a → R := fun a f i => f i
  have mm : ∀ (a b c : ℕ) (f g h : ℕ → ℕ → R), (∀ i < a, ∀ j < c, ∑ l ∈ range b, f i l * g l j = h i j) → m a b f * m b c g = m a c h := by
    intro a b c f g h H
    ext i j
    show ∑ l : Fin b, f i l * g l j = h i j
    rw [← H i i.2 j j.2, sum_range]
  have mv : ∀ (a b : ℕ) (f : ℕ → ℕ → R) (x : ℕ → R) (i : Fin a), (m a b f).mulVec (v b x) i = ∑ l ∈ range b, f i l * x l := by
    intro a b f x i
    rw [sum_range]
    rfl
  have eM := mm n n n L U M hM
  have eB := mm n n p L B' B hB
  have eC := mm p n n C' U C hC
  have eD : m p p D = m p p D' + m p n C' * m n p B' := by
    ext i j
    show D i j = D' i j + ∑ l : Fin n, C' i l * B' l j
    rw [hD i i.2 j j.2, sum_range]
    ring
  have e1 : (m n n L).mulVec (v n z1) = v n b1 := by
    funext i; rw [mv]; exact h1 i i.2
  have e2 : (m p p D').mulVec (v p y2) = v p b2 - (m p n C').mulVec (v n z1) := by
    funext i; rw [mv, Pi.sub_apply, mv]; exact h2 i i.2
  have e3 : (m n n U).mulVec (v n y1) = v n z1 - (m n p B').mulVec (v p y2) := by
    funext i; rw [mv, Pi.sub_apply, mv]; exact h3 i i.2
  have r1 : (m n n M).mulVec (v n y1) + (m n p B).mulVec (v p y2) = v n b1 := by
    rw [← eM, ← eB, ← Matrix.mulVec_mulVec, ← Matrix.mulVec_mulVec, e3, Matrix.mulVec_sub, e1, sub_add_cancel]
  have r2 : (m p n C).mulVec (v n y1) + (m p p D).mulVec (v p y2) = v p b2 := by
    rw [← eC, eD, ← Matrix.mulVec_mulVec, e3, Matrix.mulVec_sub, Matrix.add_mulVec, e2, ← Matrix.mulVec_mulVec]
    abel
  refine ⟨fun i hi => ?_, fun i hi => ?_⟩
  · have := congrFun r1 ⟨i, hi⟩
    rw [Pi.add_apply, mv, mv] at this
    exact this
  · have := congrFun r2 ⟨i, hi⟩
    rw [Pi.add_apply, mv, mv] at this
    exact this

/-- The matrix with blocks `M`, `B`, `C`, `D`. -/
def blockK (n : ℕ) (M B C D : ℕ → ℕ → R) (i j : ℕ) : R :=
  if i < n then (if j < n then M i j else B i (j - n)) else (if j < n then C (i - n) j else D (i - n) (j - n))

theorem sum_blockK {n p : ℕ} {M B C D : ℕ → ℕ → R} {y : ℕ → R} (i : ℕ) :
    ∑ l ∈ range (n + p), blockK n M B C D i l * y l =
      if i < n then ∑ l ∈ range n, M i l * y l + ∑ j ∈ range p, B i j * y (n + j) else ∑ l ∈ range n, C (i - n) l * y l + ∑ j ∈ range p, D (i - n) j * y (n + j) := by
  rw [sum_range_add]
  by_cases h : i < n
  · rw [if_pos h]
    congr 1
    · exact sum_congr rfl fun l hl => by unfold blockK; rw [if_pos h, if_pos (mem_range.1 hl)]
    · exact sum_congr rfl fun l hl => by unfold blockK; rw [if_pos h, if_neg (by omega), show n + l - n = l by omega]
  · rw [if_neg h]
    congr 1
    · exact sum_congr rfl fun l hl => by unfold blockK; rw [if_neg h, if_pos (mem_range.1 hl)]
    · exact sum_congr rfl fun l hl => by unfold blockK; rw [if_neg h, if_neg (by omega), show n + l - n = l by omega]

end algebra
end Htool
