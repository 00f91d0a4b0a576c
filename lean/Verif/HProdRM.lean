import Verif.HProd

/-! # Product of a hierarchical matrix and a row-major matrix

Model of `matrix/linalg/add_matrix_matrix_product_row_major.hpp`, `hmatrix/lrmat/linalg/add_lrmat_matrix_product_row_major.hpp` and
`hmatrix/linalg/add_hmatrix_matrix_product_row_major.hpp`, for `transb = 'N'` (the only value implemented). -/

namespace Htool
variable {R : Type*} [CommRing R] [StarRing R]
open Finset

/-- A column-major buffer seen as a matrix with leading dimension `ld`. -/
def ldM (ld : ℕ) (A : Buf R) (i j : ℕ) : R := A (i + ld * j)

/-- BLAS `gemm` (contract): `C := alpha op(A) op(B) + beta C`, column-major, `m × n`. Argument checks of BLAS are not modelled. -/
def gemm (ta tb : Trans) (m n k : ℕ) (α : R) (A : Buf R) (lda : ℕ) (B : Buf R) (ldb : ℕ) (β : R) (C : Buf R) (ldc : ℕ) : Buf R :=
  fun p => if p % ldc < m ∧ p / ldc < n then
    α * (∑ l ∈ range k, opE ta (ldM lda A) (p % ldc) l * opE tb (ldM ldb B) l (p / ldc)) + β * C p else C p

/-- `side` of `symm` and `hemm`. -/
inductive Side where
  | L | R
deriving DecidableEq, Repr

/-- BLAS `symm` (contract): `C := alpha A B + beta C` or `C := alpha B A + beta C` with `A` symmetric, one triangle referenced. -/
def symm (side : Side) (u : UploType) (m n : ℕ) (α : R) (A : Buf R) (lda : ℕ) (B : Buf R) (ldb : ℕ) (β : R) (C : Buf R) (ldc : ℕ) :
    Buf R :=
  fun p => if p % ldc < m ∧ p / ldc < n then
    α * (match side with
      | .L => ∑ l ∈ range m, symE u (ldM lda A) (p % ldc) l * ldM ldb B l (p / ldc)
      | .R => ∑ l ∈ range n, ldM ldb B (p % ldc) l * symE u (ldM lda A) l (p / ldc)) + β * C p else C p

/-- BLAS `hemm` (contract), `A` hermitian with a real diagonal. -/
def hemm (side : Side) (u : UploType) (m n : ℕ) (α : R) (A : Buf R) (lda : ℕ) (B : Buf R) (ldb : ℕ) (β : R) (C : Buf R) (ldc : ℕ) :
    Buf R :=
  fun p => if p % ldc < m ∧ p / ldc < n then
    α * (match side with
      | .L => ∑ l ∈ range m, herE u (ldM lda A) (p % ldc) l * ldM ldb B l (p / ldc)
      | .R => ∑ l ∈ range n, ldM ldb B (p % ldc) l * herE u (ldM lda A) l (p / ldc)) + β * C p else C p

/-- `Matrix::data()`: column-major storage of an `nr`-row matrix (matrix.hpp 29). -/
def colData (nr : ℕ) (M : ℕ → ℕ → R) : Buf R := fun p => M (p % nr) (p / nr)

/-- `std::transform(.., std::conj)` on `n` entries. -/
def conjBuf (n : ℕ) (b : Buf R) : Buf R := fun p => if p < n then star (b p) else b p

/-- `add_matrix_matrix_product_row_major` (add_matrix_matrix_product_row_major.hpp 21-46 for real types, 48-83 for complex ones) with
`transb = 'N'`. -/
def matRM (cplx : Bool) (tr : Trans) (α : R) (nr nc : ℕ) (M : ℕ → ℕ → R) (x : Buf R) (β : R) (y : Buf R) (mu : ℕ) : Buf R :=
  let invtb : Trans := if tr = .N then .T else .N
  let n := if tr = .N then nr else nc
  let k := if tr = .N then nc else nr
  let ldb := if invtb = .N then k else n
  let A := if cplx = true ∧ tr = .C then conjBuf (nr * nc) (colData nr M) else colData nr M
  gemm .N invtb mu n k α x mu A ldb β y mu

/-- `add_symmetric_matrix_matrix_product_row_major` with `side = 'L'` (add_matrix_matrix_product_row_major.hpp 85-107). -/
def symRM (u : UploType) (α : R) (nr : ℕ) (M : ℕ → ℕ → R) (x : Buf R) (β : R) (y : Buf R) (mu : ℕ) : Buf R :=
  if nr ≠ 0 then symm .R u mu nr α (colData nr M) nr x mu β y mu else y

/-- `add_hermitian_matrix_matrix_product_row_major` for complex types with `side = 'L'` (add_matrix_matrix_product_row_major.hpp 114-141). -/
def herRM (u : UploType) (α : R) (nr nc : ℕ) (M : ℕ → ℕ → R) (x : Buf R) (β : R) (y : Buf R) (mu : ℕ) : Buf R :=
  if nr ≠ 0 then
    let cin := fun p => if p < nr * mu then star (x p) else 0
    let y1 := conjBuf (nc * mu) y
    let y2 := hemm .R u mu nr (star α) (colData nr M) nr cin mu (star β) y1 mu
    conjBuf (nc * mu) y2
  else y

/-- `add_lrmat_matrix_product_row_major` with `transb = 'N'` (add_lrmat_matrix_product_row_major.hpp 10-28). -/
def lrmatRM (cplx : Bool) (tr : Trans) (α : R) (nr nc rank : ℕ) (U V : ℕ → ℕ → R) (x : Buf R) (β : R) (y : Buf R) (mu : ℕ) : Buf R :=
  if rank ≠ 0 then
    if tr = .N then
      let a := matRM cplx tr 1 rank nc V x 0 (fun _ => 0) mu
      matRM cplx tr α nr rank U a β y mu
    else
      let a := matRM cplx tr 1 nr rank U x 0 (fun _ => 0) mu
      matRM cplx tr α rank nc V a β y mu
  else y

/-- `internal_add_hmatrix_matrix_product_row_major` on a block without children (add_hmatrix_matrix_product_row_major.hpp 17-56). -/
def leafRM (cplx : Bool) (tr : Trans) (α : R) (n : HNode R) (x : Buf R) (β : R) (y : Buf R) (mu : ℕ) : Buf R :=
  match n.data with
  | .dense M =>
    match n.sym with
    | .N => matRM cplx tr α n.tsz n.ssz M x β y mu
    | .S => symRM n.uplo α n.tsz M x β y mu
    | _ => if cplx then herRM n.uplo α n.tsz n.ssz M x β y mu else y
  | .lowRank r U V => lrmatRM cplx tr α n.tsz n.ssz r U V x β y mu
  | .hier => y

/-- Body of the loop on leaves (add_hmatrix_matrix_product_row_major.hpp 94-98, 146-150). -/
def leafStepRM (cplx : Bool) (tr : Trans) (A : HNode R) (mu : ℕ) (x : Buf R) (α : R) (l : HNode R) : Buf R → Buf R :=
  Buf.at' ((l.outOff tr - A.outOff tr) * mu)
    (fun o => leafRM cplx tr α l (x.from' ((l.inOff tr - A.inOff tr) * mu)) 1 o mu)

/-- Body of the loop on mirrored leaves (add_hmatrix_matrix_product_row_major.hpp 102-106, 157-161). -/
def mirrorStepRM (cplx : Bool) (tr : Trans) (A : HNode R) (mu : ℕ) (x : Buf R) (α : R) (l : HNode R) : Buf R → Buf R :=
  Buf.at' ((l.inOff tr - A.outOff tr) * mu)
    (fun o => leafRM cplx (A.transSym tr) α l (x.from' ((l.outOff tr - A.inOff tr) * mu)) 1 o mu)

section
variable [DecidableEq R]

/-- `sequential_internal_add_hmatrix_matrix_product_row_major` (add_hmatrix_matrix_product_row_major.hpp 58-109). The error messages (lines
64-70) have no effect on the result. -/
def seqRM (cplx : Bool) (tr : Trans) (α : R) (A : HTree R) (x : Buf R) (β : R) (y : Buf R) (mu : ℕ) : Buf R :=
  let y1 := betaScale β (A.label.outSize tr * mu) y
  let t1 := (getLeavesH A).1.foldl (fun o l => leafStepRM cplx tr A.label mu x 1 l.label o) (fun _ => 0)
  let t2 := if A.label.symL ≠ .N then
    (getLeavesH A).2.foldl (fun o l => mirrorStepRM cplx tr A.label mu x 1 l.label o) t1 else t1
  axpy (A.label.outSize tr * mu) α t2 y1

/-- `openmp_internal_add_hmatrix_matrix_product_row_major` (add_hmatrix_matrix_product_row_major.hpp 111-174) with `T` threads may reach
the state `s`. -/
def OmpRMReach (T : ℕ) (cplx : Bool) (tr : Trans) (α : R) (A : HTree R) (x : Buf R) (β : R) (y : Buf R) (mu : ℕ)
    (s : OmpState T (HTree R) R) : Prop :=
  OmpRun (fun l => leafStepRM cplx tr A.label mu x 1 l.label) (fun l => mirrorStepRM cplx tr A.label mu x 1 l.label)
    (A.label.outSize tr * mu) α (ompInit T A (betaScale β (A.label.outSize tr * mu) y)) s

/-- `openmp_internal_add_hmatrix_matrix_product_row_major` with `T` threads may end with output `z`. -/
def OmpRM (T : ℕ) (cplx : Bool) (tr : Trans) (α : R) (A : HTree R) (x : Buf R) (β : R) (y : Buf R) (mu : ℕ) (z : Buf R) : Prop :=
  ∃ s : OmpState T (HTree R) R, OmpRMReach T cplx tr α A x β y mu s ∧ (∀ th, s.pc th = 2) ∧ s.out = z
end

/-! ## Columns -/

/-- Column `c` of a row-major matrix with `mu` columns. -/
def colOf (mu c : ℕ) (b : Buf R) : Buf R := fun i => b (i * mu + c)

theorem pos_mod {mu c i : ℕ} (hc : c < mu) : (i * mu + c) % mu = c := by
  rw [Nat.add_comm, Nat.add_mul_mod_self_right, Nat.mod_eq_of_lt hc]

theorem pos_div {mu c i : ℕ} (hc : c < mu) : (i * mu + c) / mu = i := by
  rw [Nat.add_comm, Nat.add_mul_div_right _ _ (by omega), Nat.div_eq_of_lt hc, Nat.zero_add]

theorem pos_lt {mu c i n : ℕ} (hc : c < mu) : i * mu + c < n * mu ↔ i < n := by
  constructor
  · intro h
    by_contra hi
    have : n * mu ≤ i * mu := Nat.mul_le_mul_right _ (by omega)
    omega
  · intro h
    have : (i + 1) * mu ≤ n * mu := Nat.mul_le_mul_right _ h
    rw [Nat.add_mul] at this
    omega

omit [CommRing R] [StarRing R] in
theorem ldM_colData {nr i : ℕ} (hi : i < nr) (M : ℕ → ℕ → R) (j : ℕ) : ldM nr (colData nr M) i j = M i j := by
  unfold ldM colData
  rw [Nat.add_mul_mod_self_left, Nat.mod_eq_of_lt hi, Nat.add_mul_div_left _ _ (by omega), Nat.div_eq_of_lt hi, Nat.zero_add]

omit [CommRing R] [StarRing R] in
theorem buf_ext_col {mu : ℕ} (hmu : 0 < mu) {a b : Buf R} (h : ∀ c < mu, colOf mu c a = colOf mu c b) : a = b := by
  funext p
  have := congrFun (h (p % mu) (Nat.mod_lt _ hmu)) (p / mu)
  unfold colOf at this
  rwa [Nat.mul_comm, Nat.div_add_mod] at this

theorem matRM_col {cplx : Bool} (hreal : cplx = false → RealType R) (tr : Trans) (α : R) (nr nc : ℕ) (M : ℕ → ℕ → R) (x : Buf R) (β : R)
    (y : Buf R) {mu c : ℕ} (hc : c < mu) :
    colOf mu c (matRM cplx tr α nr nc M x β y mu) = fun i => if i < opRows tr nr nc then
      α * (∑ j ∈ range (opCols tr nr nc), opE tr M i j * colOf mu c x j) + β * colOf mu c y i else colOf mu c y i := by
  funext i
  have hx : ∀ l, opE .N (ldM mu x) c l = colOf mu c x l := by
    intro l; simp only [opE, ldM, colOf]; congr 1; rw [Nat.add_comm, Nat.mul_comm]
  unfold matRM gemm
  conv_lhs => unfold colOf
  simp only [pos_mod hc, pos_div hc, hc, true_and, hx]
  have hn : (if tr = Trans.N then nr else nc) = opRows tr nr nc := rfl
  have hk : (if tr = Trans.N then nc else nr) = opCols tr nr nc := rfl
  rw [hn, hk]
  by_cases hi : i < opRows tr nr nc
  · rw [if_pos hi, if_pos hi]
    have : ∀ l ∈ range (opCols tr nr nc), colOf mu c x l *
        opE (if tr = Trans.N then Trans.T else Trans.N)
          (ldM (if (if tr = Trans.N then Trans.T else Trans.N) = Trans.N then opCols tr nr nc else opRows tr nr nc)
            (if cplx = true ∧ tr = Trans.C then conjBuf (nr * nc) (colData nr M) else colData nr M)) l i =
        opE tr M i l * colOf mu c x l := by
      intro l hl
      have hl := Finset.mem_range.1 hl
      rw [mul_comm]
      congr 1
      cases tr with
      | N =>
        simp only [opRows, opCols, if_true] at hi hl ⊢
        simp only [opE, if_neg (show ¬ (cplx = true ∧ Trans.N = Trans.C) by simp), if_neg (show Trans.T ≠ Trans.N by decide)]
        rw [ldM_colData hi]
      | T =>
        simp only [opRows, opCols, if_neg (show Trans.T ≠ Trans.N by decide), if_true] at hi hl ⊢
        simp only [opE, if_neg (show ¬ (cplx = true ∧ Trans.T = Trans.C) by simp)]
        rw [ldM_colData hl]
      | C =>
        simp only [opRows, opCols, if_neg (show Trans.C ≠ Trans.N by decide), if_true] at hi hl ⊢
        simp only [opE, and_true]
        cases cplx with
        | true =>
          simp only [if_true]
          rw [← ldM_colData hl M i]
          unfold ldM conjBuf
          rw [if_pos]
          have : nr * (i + 1) ≤ nr * nc := Nat.mul_le_mul_left _ hi
          rw [Nat.mul_add] at this
          omega
        | false =>
          simp only [Bool.false_eq_true, if_false]
          rw [ldM_colData hl, hreal rfl]
    rw [Finset.sum_congr rfl this]
    rfl
  · rw [if_neg hi, if_neg hi]; rfl

omit [CommRing R] [StarRing R] in
theorem symE_colData {u : UploType} {nr i j : ℕ} (hi : i < nr) (hj : j < nr) (M : ℕ → ℕ → R) :
    symE u (ldM nr (colData nr M)) i j = symE u M i j := by
  unfold symE
  cases u <;> simp only [ldM_colData hi, ldM_colData hj]

theorem herE_colData {u : UploType} {nr i j : ℕ} (hi : i < nr) (hj : j < nr) (M : ℕ → ℕ → R) :
    herE u (ldM nr (colData nr M)) i j = herE u M i j := by
  unfold herE
  cases u <;> simp only [ldM_colData hi, ldM_colData hj]

theorem symRM_col (u : UploType) (α : R) (nr : ℕ) (M : ℕ → ℕ → R) (x : Buf R) (β : R) (y : Buf R) {mu c : ℕ} (hc : c < mu) :
    colOf mu c (symRM u α nr M x β y mu) = fun i => if i < nr then
      α * (∑ j ∈ range nr, symE u M i j * colOf mu c x j) + β * colOf mu c y i else colOf mu c y i := by
  funext i
  unfold symRM
  by_cases h0 : nr = 0
  · subst h0; simp
  rw [if_pos h0]
  unfold symm
  conv_lhs => unfold colOf
  simp only [pos_mod hc, pos_div hc, hc, true_and]
  by_cases hi : i < nr
  · rw [if_pos hi, if_pos hi]
    have : ∀ l ∈ range nr, ldM mu x c l * symE u (ldM nr (colData nr M)) l i = symE u M i l * colOf mu c x l := by
      intro l hl
      rw [symE_colData (Finset.mem_range.1 hl) hi, symE_symm, mul_comm]
      congr 1
      simp only [ldM, colOf]; congr 1; rw [Nat.add_comm, Nat.mul_comm]
    rw [Finset.sum_congr rfl this]
    rfl
  · rw [if_neg hi, if_neg hi]; rfl

theorem herRM_col (u : UploType) (α : R) (nr : ℕ) (M : ℕ → ℕ → R) (hd : ∀ i < nr, star (M i i) = M i i) (x : Buf R) (β : R)
    (y : Buf R) {mu c : ℕ} (hc : c < mu) :
    colOf mu c (herRM u α nr nr M x β y mu) = fun i => if i < nr then
      α * (∑ j ∈ range nr, herE u M i j * colOf mu c x j) + β * colOf mu c y i else colOf mu c y i := by
  funext i
  unfold herRM
  by_cases h0 : nr = 0
  · subst h0; simp
  rw [if_pos h0]
  simp only
  unfold hemm conjBuf
  conv_lhs => unfold colOf
  simp only [pos_mod hc, pos_div hc, hc, true_and, pos_lt hc]
  by_cases hi : i < nr
  · simp only [hi, if_true]
    have : ∀ l ∈ range nr, ldM mu (fun p => if p < nr * mu then star (x p) else 0) c l * herE u (ldM nr (colData nr M)) l i =
        star (herE u M i l * colOf mu c x l) := by
      intro l hl
      have hl := Finset.mem_range.1 hl
      rw [herE_colData hl hi, star_mul, herE_symm hd hl]
      congr 1
      simp only [ldM, colOf]
      rw [Nat.add_comm, Nat.mul_comm, if_pos ((pos_lt hc).2 hl)]
    rw [Finset.sum_congr rfl this, ← star_sum]
    simp only [star_add, star_mul, star_star]
    unfold colOf
    ring
  · simp only [hi, if_false]; rfl

theorem lrmatRM_col {cplx : Bool} (hreal : cplx = false → RealType R) (tr : Trans) (α : R) (nr nc r : ℕ) (U V : ℕ → ℕ → R)
    (x y : Buf R) {mu c : ℕ} (hc : c < mu) :
    colOf mu c (lrmatRM cplx tr α nr nc r U V x 1 y mu) = lrmatVec tr α nr nc r U V (colOf mu c x) 1 (colOf mu c y) := by
  unfold lrmatRM lrmatVec
  split_ifs with h0 h1
  · subst h1
    simp only
    rw [matRM_col hreal _ _ _ _ _ _ _ _ hc, gemv_one]
    funext i
    split_ifs with hi
    · rw [Finset.sum_congr rfl (fun k hk => by
        rw [matRM_col hreal _ _ _ _ _ _ _ _ hc])]
      rw [add_comm, one_mul]
      congr 2
      apply Finset.sum_congr rfl
      intro k hk
      have hk' : k < opRows .N r nc := by simpa [opRows, opCols] using hk
      simp only [if_pos hk']
      rw [gemv_zero_get _ _ _ _ _ hk']
      simp
    · rfl
  · simp only
    rw [matRM_col hreal _ _ _ _ _ _ _ _ hc, gemv_one]
    funext i
    split_ifs with hi
    · rw [Finset.sum_congr rfl (fun k hk => by
        rw [matRM_col hreal _ _ _ _ _ _ _ _ hc])]
      rw [add_comm, one_mul]
      congr 2
      apply Finset.sum_congr rfl
      intro k hk
      have hk' : k < opRows tr nr r := by simpa [opRows, opCols, h1] using hk
      simp only [if_pos hk']
      rw [gemv_zero_get _ _ _ _ _ hk']
      simp
    · rfl
  · rfl

theorem leafRM_col {cplx : Bool} (hreal : cplx = false → RealType R) {s : HSym} {n : HNode R} (h : n.LeafOK cplx s) {tr : Trans}
    (hs : n.SuppLeaf tr) (α : R) (x y : Buf R) {mu c : ℕ} (hc : c < mu) :
    colOf mu c (leafRM cplx tr α n x 1 y mu) = leafVec cplx tr α n (colOf mu c x) 1 (colOf mu c y) := by
  unfold leafRM leafVec
  cases hd : n.data with
  | hier => rfl
  | lowRank r U V => exact lrmatRM_col hreal _ _ _ _ _ _ _ _ _ hc
  | dense M =>
    simp only
    cases hsy : n.sym with
    | nul =>
      rcases hs with hs | hs
      · rw [hsy] at hs; cases hs
      · rw [hsy] at hs; exact hs.elim
    | N =>
      simp only
      rw [matRM_col hreal _ _ _ _ _ _ _ _ hc, gemv_one]
      funext i
      split_ifs <;> ring
    | S => simp only; rw [symRM_col _ _ _ _ _ _ _ hc]; rfl
    | H =>
      obtain ⟨hcx, hdi⟩ := h.herm hsy
      simp only
      rw [if_pos hcx, if_pos hcx, ← h.square (by rw [hsy]; decide), herRM_col _ _ _ _ (hdi M hd) _ _ _ hc]
      rfl

omit [CommRing R] [StarRing R] in
theorem colOf_from (mu c k : ℕ) (b : Buf R) : colOf mu c (b.from' (k * mu)) = (colOf mu c b).from' k := by
  funext i
  unfold colOf Buf.from'
  congr 1
  rw [Nat.add_mul, Nat.add_assoc]

omit [CommRing R] [StarRing R] in
theorem colOf_at {mu c : ℕ} (hc : c < mu) (k : ℕ) (f g : Buf R → Buf R) (hfg : ∀ o, colOf mu c (f o) = g (colOf mu c o)) (o : Buf R) :
    colOf mu c (Buf.at' (k * mu) f o) = Buf.at' k g (colOf mu c o) := by
  funext i
  unfold Buf.at'
  conv_lhs => unfold colOf
  beta_reduce
  by_cases h : k ≤ i
  · have h2 : k * mu ≤ i * mu := Nat.mul_le_mul_right _ h
    rw [if_pos (by omega), if_pos h, ← colOf_from, ← hfg]
    unfold colOf
    congr 1
    rw [Nat.sub_mul]; omega
  · have h2 : (i + 1) * mu ≤ k * mu := Nat.mul_le_mul_right _ (by omega)
    rw [Nat.add_mul] at h2
    rw [if_neg (by omega), if_neg h]
    rfl

theorem leafStepRM_eq {cplx : Bool} (hreal : cplx = false → RealType R) {σ : HSym} {A : HTree R} (hA : A.Fit cplx σ) {tr : Trans}
    (hsup : Supported R σ tr) {l : HTree R} (hl : l ∈ A.leaves) (α : R) {mu : ℕ} (hmu : 0 < mu) (x o : Buf R) :
    leafStepRM cplx tr A.label mu x α l.label o =
      fun p => o p + α * leafG tr A.label (colOf mu (p % mu) x) l (p / mu) := by
  apply buf_ext_col hmu
  intro c hc
  have hok := hA.leafOK l hl
  have hs : l.label.SuppLeaf tr := by
    rcases hok.sym with h | h
    · exact Or.inl h
    · exact Or.inr (h ▸ hsup)
  unfold leafStepRM
  rw [colOf_at hc _ _ (leafVec cplx tr α l.label ((colOf mu c x).from' (l.label.inOff tr - A.label.inOff tr)) 1)
    (fun o => by rw [leafRM_col hreal hok hs _ _ _ hc, colOf_from])]
  have := leafStep_eq hA hsup hl α (colOf mu c x) (colOf mu c o)
  unfold leafStep at this
  rw [this]
  funext i
  conv_rhs => unfold colOf
  simp only [pos_mod hc, pos_div hc]
  rfl

theorem mirrorStepRM_eq {cplx : Bool} (hreal : cplx = false → RealType R) {σ : HSym} {A : HTree R} (hA : A.Fit cplx σ) {tr : Trans}
    (hsup : Supported R σ tr) (hN : A.label.symL ≠ .N) {l : HTree R} (hl : l ∈ (getLeavesH A).2) (α : R) {mu : ℕ}
    (hmu : 0 < mu) (x o : Buf R) :
    mirrorStepRM cplx tr A.label mu x α l.label o =
      fun p => o p + α * mirrorG tr A.label (colOf mu (p % mu) x) l (p / mu) := by
  apply buf_ext_col hmu
  intro c hc
  have hl1 : l ∈ A.leaves := symLeavesG_sub _ _ ((getLeavesG_perm _ _ A).2.mem_iff.1 hl)
  have hok := hA.leafOK l hl1
  unfold mirrorStepRM
  rw [colOf_at hc _ _ (leafVec cplx (A.label.transSym tr) α l.label ((colOf mu c x).from' (l.label.outOff tr - A.label.inOff tr)) 1)
    (fun o => by rw [leafRM_col hreal hok (Or.inl (hA.mirror l hl).1) _ _ _ hc, colOf_from])]
  have := mirrorStep_eq hA hsup hN hl α (colOf mu c x) (colOf mu c o)
  unfold mirrorStep at this
  rw [this]
  funext i
  conv_rhs => unfold colOf
  simp only [pos_mod hc, pos_div hc]
  rfl

end Htool
