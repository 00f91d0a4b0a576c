import Verif.LocalOp
import Verif.Props.HProd
import Verif.Props.HProdRM
import Verif.Props.HBuild

/-! # Property C21: products in user numbering -/

namespace Htool
variable {R : Type*} [CommRing R] [StarRing R]
open Finset

/-- The row of the user's output to which row `i` of the target cluster belongs. -/
def LocalOp.tu (A : LocalOp R) (i : ℕ) : ℕ := if A.tflag then userIdx A.tperm A.toff i else i
/-- The entry of the user's input (relative to the cluster) to which column `j` of the source cluster belongs. -/
def LocalOp.su (A : LocalOp R) (j : ℕ) : ℕ := if A.sflag then userIdx A.sperm A.soff j else j

/-- The permutations used are local to the clusters (always so for root clusters, and for clusters on a given partition, see C10). -/
structure LocalOp.PermOK (A : LocalOp R) : Prop where
  t : A.tflag = true → LocalPerm A.tperm A.toff A.tsz
  s : A.sflag = true → LocalPerm A.sperm A.soff A.ssz

/-- `N` is the matrix `M` renumbered from cluster numbering to the numbering of the caller. -/
def LocalOp.InUser (A : LocalOp R) (M N : ℕ → ℕ → R) : Prop := ∀ i < A.tsz, ∀ j < A.ssz, N (A.tu i) (A.su j) = M i j

theorem supported_N {σ : HSym} (h : σ ≠ .nul) : Supported R σ .N := by
  cases σ <;> simp [Supported] at h ⊢

/-- Every matrix can be written in the numbering of the caller. -/
theorem LocalOp.exists_inUser {A : LocalOp R} (h : A.PermOK) (M : ℕ → ℕ → R) : ∃ N, A.InUser M N := by
  have key : ∀ (b : Bool) (perm : List ℕ) (off size : ℕ), (b = true → LocalPerm perm off size) →
      ∃ inv : ℕ → ℕ, ∀ i < size, inv (if b then userIdx perm off i else i) = i := by
    intro b perm off size hb
    cases b with
    | false => exact ⟨id, fun i _ => rfl⟩
    | true =>
      have hl := hb rfl
      classical
      refine ⟨fun k => if h : k < size then Classical.choose (userIdx_surj hl h) else 0, fun i hi => ?_⟩
      obtain ⟨-, -, -, h4⟩ := userIdx_eq hl hi
      simp only [if_true]
      rw [dif_pos h4]
      obtain ⟨h5, h6⟩ := Classical.choose_spec (userIdx_surj hl h4)
      exact userIdx_inj hl h5 hi h6
  obtain ⟨f, hf⟩ := key A.tflag A.tperm A.toff A.tsz h.t
  obtain ⟨g, hg⟩ := key A.sflag A.sperm A.soff A.ssz h.s
  exact ⟨fun k l => M (f k) (g l), fun i hi j hj => by
    have a := hf i hi
    have b := hg j hj
    unfold LocalOp.tu LocalOp.su
    simp only [a, b]⟩

theorem LocalOp.sum_su {A : LocalOp R} (h : A.PermOK) (f : ℕ → R) :
    ∑ j ∈ range A.ssz, f (A.su j) = ∑ l ∈ range A.ssz, f l := by
  unfold LocalOp.su
  cases hs : A.sflag with
  | false => rfl
  | true => exact sum_userIdx (h.s hs) f

/-- **C21.** `add_vector_product_global_to_local`, with any combination of the two permutation flags: the output is
`β out + α N in` where `N` is the matrix of the operator in the numbering of the caller; nothing else is written. -/
theorem C21_vector_product {A : LocalOp R} {M N : ℕ → ℕ → R} (hK : A.KernelOK M) (hp : A.PermOK) (hsym : A.sym ≠ .nul)
    (hN : A.InUser M N) (α β : R) (x y : Buf R) (k : ℕ) :
    A.addVec α x β y k =
      if k < A.tsz then β * y k + α * ∑ l ∈ range A.ssz, N k l * x (A.soff + l) else y k := by
  have hv := hK.vec .N (by simp) (supported_N hsym)
  have hin : ∀ i < A.tsz, ∑ j ∈ range A.ssz, M i j *
      (if A.sflag then userToCluster A.sperm A.soff A.ssz (x.from' A.soff) (fun _ => 0) else x.from' A.soff) j =
      ∑ l ∈ range A.ssz, N (A.tu i) l * x (A.soff + l) := by
    intro i hi
    rw [← A.sum_su hp (fun l => N (A.tu i) l * x (A.soff + l))]
    apply Finset.sum_congr rfl
    intro j hj
    have hj := Finset.mem_range.1 hj
    rw [hN i hi j hj]
    congr 1
    unfold LocalOp.su
    split_ifs
    · exact (userToCluster_spec _ _ _ _ _).1 j hj
    · rfl
  unfold LocalOp.addVec
  cases ht : A.tflag with
  | false =>
    simp only [Bool.false_eq_true, if_false]
    rw [hv _ _ _ _ k]
    simp only [opRows, opCols, opE, if_true]
    by_cases hk : k < A.tsz
    · rw [if_pos hk, if_pos hk, hin k hk]
      have : A.tu k = k := by simp [LocalOp.tu, ht]
      rw [this]
    · rw [if_neg hk, if_neg hk]
  | true =>
    simp only [if_true]
    have hl := hp.t ht
    by_cases hk : k < A.tsz
    · rw [if_pos hk]
      obtain ⟨i, hi, rfl⟩ := userIdx_surj hl hk
      rw [(clusterToUser_spec hl _ _).1 i hi, hv _ _ _ _ i]
      simp only [opRows, opCols, opE, if_true, if_pos hi]
      rw [hin i hi, (userToCluster_spec _ _ _ _ _).1 i hi]
      have : A.tu i = userIdx A.tperm A.toff i := by simp [LocalOp.tu, ht]
      rw [this]
    · rw [if_neg hk]
      exact (clusterToUser_spec hl _ _).2 k (by omega)

/-- **C21.** `add_matrix_product_global_to_local` (row major, `mu` columns) without target permutation. -/
theorem C21_matrix_product_partial {A : LocalOp R} {M N : ℕ → ℕ → R} (hK : A.KernelOK M) (hp : A.PermOK) (hsym : A.sym ≠ .nul)
    (hN : A.InUser M N) (ht : A.tflag = false) (α β : R) (x y : Buf R) {mu c : ℕ} (hc : c < mu) (k : ℕ) :
    A.addMat α x β y mu (k * mu + c) =
      if k < A.tsz then β * y (k * mu + c) + α * ∑ l ∈ range A.ssz, N k l * x ((A.soff + l) * mu + c) else y (k * mu + c) := by
  have hv := hK.rm .N (by simp) (supported_N hsym)
  unfold LocalOp.addMat
  simp only [ht, Bool.false_eq_true, if_false]
  rw [hv _ _ _ _ mu (by omega) c hc k]
  simp only [opRows, opCols, opE, if_true]
  by_cases hk : k < A.tsz
  · rw [if_pos hk, if_pos hk]
    congr 2
    rw [← A.sum_su hp (fun l => N k l * x ((A.soff + l) * mu + c))]
    apply Finset.sum_congr rfl
    intro j hj
    have hj := Finset.mem_range.1 hj
    have hku : A.tu k = k := by simp [LocalOp.tu, ht]
    rw [← hN k hk j hj, hku]
    congr 1
    unfold LocalOp.su
    split_ifs with h1 h2
    · rw [toRM_get _ _ hc, if_pos hj, (userToCluster_spec _ _ _ _ _).1 j hj, Nat.add_comm c]
    · unfold copyN Buf.from'
      rw [if_pos, ← Nat.add_assoc, Nat.add_mul]
      calc j * mu + c < j * mu + mu := by omega
        _ = (j + 1) * mu := by ring
        _ ≤ A.ssz * mu := Nat.mul_le_mul_right _ hj
    · unfold Buf.from'
      rw [← Nat.add_assoc, Nat.add_mul]
  · rw [if_neg hk, if_neg hk]

/-- **C21 (defect).** With the target permutation flag the matrix product is lost: the output is never written. -/
theorem C21_matrix_product_with_target_permutation_is_lost (A : LocalOp R) (ht : A.tflag = true) (α β : R) (x y : Buf R) (mu : ℕ) :
    A.addMat α x β y mu = y := by
  unfold LocalOp.addMat
  simp [ht]

/-- **C21.** `add_vector_product_transp_local_to_global` without target permutation: the range of the source cluster of the output becomes
`β out + α N^T in`; nothing else is written. For hermitian operators the product with the transpose is not supported. -/
theorem C21_transposed_vector_product_partial {A : LocalOp R} {M N : ℕ → ℕ → R} (hK : A.KernelOK M) (hp : A.PermOK)
    (hsym : Supported R A.sym .T) (hN : A.InUser M N) (ht : A.tflag = false) (α β : R) (x y : Buf R) (k : ℕ) :
    A.addVecT α x β y k =
      if A.soff ≤ k ∧ k < A.soff + A.ssz then β * y k + α * ∑ i ∈ range A.tsz, N i (k - A.soff) * x i else y k := by
  have hv := hK.vec .T (by simp) hsym
  have hrow : ∀ j < A.ssz, ∑ i ∈ range A.tsz, M i j * x i = ∑ i ∈ range A.tsz, N i (A.su j) * x i := by
    intro j hj
    apply Finset.sum_congr rfl
    intro i hi
    have hku : A.tu i = i := by simp [LocalOp.tu, ht]
    rw [← hN i (Finset.mem_range.1 hi) j hj, hku]
  unfold LocalOp.addVecT
  cases hs : A.sflag with
  | false =>
    simp only [Bool.false_eq_true, if_false]
    unfold Buf.at'
    by_cases h1 : A.soff ≤ k
    · rw [if_pos h1, hv _ _ _ _ (k - A.soff)]
      simp only [opRows, opCols, opE, reduceCtorEq, if_false, h1, true_and]
      have e : (k - A.soff < A.ssz) ↔ (k < A.soff + A.ssz) := by omega
      by_cases h2 : k < A.soff + A.ssz
      · rw [if_pos (e.2 h2), if_pos h2, hrow _ (e.2 h2)]
        unfold Buf.from'
        rw [Nat.add_sub_cancel' h1]
        simp [LocalOp.su, hs]
      · rw [if_neg (fun h => h2 (e.1 h)), if_neg h2]
        unfold Buf.from'
        rw [Nat.add_sub_cancel' h1]
    · rw [if_neg h1, if_neg (fun h => h1 h.1)]
  | true =>
    simp only [if_true]
    have hl := hp.s hs
    unfold Buf.at'
    by_cases h1 : A.soff ≤ k
    · rw [if_pos h1]
      simp only [h1, true_and]
      have e : (k - A.soff < A.ssz) ↔ (k < A.soff + A.ssz) := by omega
      by_cases h2 : k < A.soff + A.ssz
      · rw [if_pos h2]
        obtain ⟨j, hj, he⟩ := userIdx_surj hl (e.2 h2)
        rw [← he, (clusterToUser_spec hl _ _).1 j hj, hv _ _ _ _ j]
        simp only [opRows, opCols, opE, reduceCtorEq, if_false, if_pos hj]
        rw [hrow j hj, (userToCluster_spec _ _ _ _ _).1 j hj]
        unfold Buf.from'
        rw [he, Nat.add_sub_cancel' h1]
        simp [LocalOp.su, hs, he]
      · rw [if_neg h2, (clusterToUser_spec hl _ _).2 _ (by omega)]
        unfold Buf.from'
        rw [Nat.add_sub_cancel' h1]
    · rw [if_neg h1, if_neg (fun h => h1 h.1)]

/-- **C21.** `add_matrix_product_transp_local_to_global` for non-hermitian operators: the range of the source cluster of the output is
*overwritten* by `α N^T in` whatever `β` and the previous content (see C42); nothing else is written. -/
theorem C21_transposed_matrix_product_partial {A : LocalOp R} {M N : ℕ → ℕ → R} (hK : A.KernelOK M) (hp : A.PermOK)
    (hsym : Supported R A.sym .T) (hH : A.sym ≠ .H) (hN : A.InUser M N) (ht : A.tflag = false) (α β : R) (x y : Buf R) {mu c : ℕ}
    (hc : c < mu) (k : ℕ) :
    A.addMatT α x β y mu (k * mu + c) =
      if A.soff ≤ k ∧ k < A.soff + A.ssz then α * ∑ i ∈ range A.tsz, N i (k - A.soff) * x (i * mu + c) else y (k * mu + c) := by
  have hv := hK.rm .T (by simp) hsym
  have hrow : ∀ j < A.ssz, A.prodRM .T α x β (fun _ => 0) mu (j * mu + c) = α * ∑ i ∈ range A.tsz, N i (A.su j) * x (i * mu + c) := by
    intro j hj
    rw [hv _ _ _ _ mu (by omega) c hc j]
    simp only [opRows, opCols, opE, reduceCtorEq, if_false, if_pos hj, mul_zero, zero_add]
    congr 1
    apply Finset.sum_congr rfl
    intro i hi
    have hku : A.tu i = i := by simp [LocalOp.tu, ht]
    rw [← hN i (Finset.mem_range.1 hi) j hj, hku]
  unfold LocalOp.addMatT
  simp only [hH, if_false]
  cases hs : A.sflag with
  | true =>
    simp only [if_true]
    have hl := hp.s hs
    obtain ⟨h1, h2⟩ := loop2_get mu A.ssz (fun i j => i + (A.soff + j) * mu)
      (fun i j => clusterToUser A.sperm A.soff A.ssz (fun j => A.prodRM .T α x β (fun _ => 0) mu (i + j * mu)) (fun _ => 0) j) y
      (fun i hi j _ i' hi' j' _ h => by have := rm_inj hi hi' h; omega)
    split_ifs with hk
    · obtain ⟨j, hj, he⟩ := userIdx_surj hl (show k - A.soff < A.ssz by omega)
      have := h1 c hc (k - A.soff) (by omega)
      simp only [Nat.add_sub_cancel' hk.1] at this
      rw [Nat.add_comm, this]
      conv_lhs => rw [← he]
      rw [(clusterToUser_spec hl _ _).1 j hj, Nat.add_comm c, hrow j hj]
      simp [LocalOp.su, hs, he]
    · apply h2
      intro i hi j hj he
      have := rm_inj hi hc (he.trans (Nat.add_comm _ _))
      omega
  | false =>
    simp only [Bool.false_eq_true, if_false]
    unfold Buf.at' copyN Buf.from'
    by_cases h1 : A.soff ≤ k
    · have e1 : A.soff * mu ≤ k * mu + c := (Nat.mul_le_mul_right _ h1).trans (Nat.le_add_right _ _)
      have e2 : k * mu + c - A.soff * mu = (k - A.soff) * mu + c := by
        rw [Nat.sub_mul]; have := Nat.mul_le_mul_right mu h1; omega
      simp only [e1, if_true, e2, pos_lt hc, h1, true_and]
      have e : (k - A.soff < A.ssz) ↔ (k < A.soff + A.ssz) := by omega
      by_cases h2 : k < A.soff + A.ssz
      · rw [if_pos (e.2 h2), if_pos h2, hrow _ (e.2 h2)]
        simp [LocalOp.su, hs]
      · rw [if_neg (fun h => h2 (e.1 h)), if_neg h2]
        congr 1; omega
    · have e1 : ¬ A.soff * mu ≤ k * mu + c := by
        have : (k + 1) * mu ≤ A.soff * mu := Nat.mul_le_mul_right _ (by omega)
        have : (k + 1) * mu = k * mu + mu := by ring
        omega
      rw [if_neg e1, if_neg (fun h => h1 h.1)]

/-! ## Local operators of the library -/

/-- A `LocalHMatrix` on an H-matrix fit for products has the kernels of the matrix the H-matrix represents, under any schedule of the
OpenMP products. -/
theorem LocalOp.kernelOK_hmatrix [DecidableEq R] {A : LocalOp R} {cplx : Bool} (hreal : cplx = false → RealType R) {H : HTree R}
    (hK : HMatrixKernel A.K cplx H) (hfit : H.Fit cplx A.sym) (ht : H.label.tsz = A.tsz) (hs : H.label.ssz = A.ssz) :
    A.KernelOK H.mat := by
  have v1 : ∀ tr, Supported R A.sym tr → ∀ α x β y z, (∃ T, 0 < T ∧ OmpVec T cplx tr α H x β y z) →
      IsVec tr A.tsz A.ssz H.mat α x β y z := by
    rintro tr hsup α x β y z ⟨T, hT, h⟩ i
    rw [C20_parallel_product_is_sequential hT hfit hsup h, C19_sequential_product hfit hsup, ht, hs]
  have v2 : ∀ tr, Supported R A.sym tr → ∀ α x β y mu z, 0 < mu → (∃ T, 0 < T ∧ OmpRM T cplx tr α H x β y mu z) →
      IsRM tr A.tsz A.ssz H.mat α x β y mu z := by
    rintro tr hsup α x β y mu z hmu ⟨T, hT, h⟩ c hc i
    rw [C20_parallel_row_major_product_is_sequential hT hreal hfit hsup hmu h, C22_row_major_product hreal hfit hsup _ _ _ _ hc, ht, hs]
  constructor
  · intro tr _ hsup α x β y
    unfold LocalOp.prodVec
    cases hsym : A.sym with
    | N => exact v1 tr hsup _ _ _ _ _ (hK.vec tr α x β y)
    | S => exact v1 tr hsup _ _ _ _ _ (hK.vecSym tr α x β y)
    | H => exact v1 tr hsup _ _ _ _ _ (hK.vecSym tr α x β y)
    | nul => rw [hsym] at hsup; exact hsup.elim
  · intro tr _ hsup α x β y mu hmu
    unfold LocalOp.prodRM
    cases hsym : A.sym with
    | N => exact v2 tr hsup _ _ _ _ _ _ hmu (hK.rm tr α x β y mu)
    | S => exact v2 tr hsup _ _ _ _ _ _ hmu (hK.rmSym tr α x β y mu)
    | H => exact v2 tr hsup _ _ _ _ _ _ hmu (hK.rmSym tr α x β y mu)
    | nul => rw [hsym] at hsup; exact hsup.elim

/-- The matrix of a `LocalDenseMatrix`: for symmetric and hermitian operators one triangle is referenced. -/
def denseMat (sym : HSym) (u : UploType) (D : ℕ → ℕ → R) : ℕ → ℕ → R :=
  match sym with
  | .S => symE u D
  | .H => herE u D
  | _ => D

/-- A `LocalDenseMatrix` (not empty; square with a real diagonal where required) has the kernels of its matrix. -/
theorem LocalOp.kernelOK_dense {A : LocalOp R} {cplx : Bool} (hreal : cplx = false → RealType R) {u : UploType} {D : ℕ → ℕ → R}
    (hK : A.K = denseKernel cplx A.sym u A.tsz A.ssz D) (h0 : 0 < A.tsz ∧ 0 < A.ssz) (hsq : A.sym ≠ .N → A.tsz = A.ssz)
    (hd : A.sym = .H → ∀ i < A.tsz, star (D i i) = D i i) : A.KernelOK (denseMat A.sym u D) := by
  constructor
  · intro tr htr hsup α x β y i
    unfold LocalOp.prodVec denseMat
    rw [hK]
    unfold denseKernel
    cases hsym : A.sym with
    | N =>
      simp only
      unfold gemv
      rw [if_neg (by omega), add_comm]
    | S =>
      have := hsq (by simp [hsym])
      simp only [if_true]
      unfold symv
      cases tr with
      | N => simp only [opRows, opCols, opE, if_true]; rw [this, add_comm]
      | T =>
        simp only [opRows, opCols, opE, reduceCtorEq, if_false]; rw [this, add_comm]
        simp only [symE_symm D i]
      | C => exact absurd rfl htr
    | H =>
      have := hsq (by simp [hsym])
      have hd := hd hsym
      simp only [reduceCtorEq, if_false, if_true]
      unfold hemv
      cases tr with
      | N => simp only [opRows, opCols, opE, if_true]; rw [this, add_comm]
      | T =>
        simp only [opRows, opCols, opE, reduceCtorEq, if_false]
        rw [hsym] at hsup
        have hr : RealType R := by simpa [Supported] using hsup
        rw [← this, add_comm]
        split_ifs with hi
        · congr 2
          apply Finset.sum_congr rfl
          intro j _
          rw [← herE_symm hd hi, hr]
        · rfl
      | C => exact absurd rfl htr
    | nul => rw [hsym] at hsup; exact hsup.elim
  · intro tr htr hsup α x β y mu hmu c hc i
    unfold LocalOp.prodRM denseMat
    rw [hK]
    unfold denseKernel
    cases hsym : A.sym with
    | N =>
      have := congrFun (matRM_col hreal tr α A.tsz A.ssz D x β y hc) i
      simp only [colOf] at this
      simp only
      rw [this, add_comm]
    | S =>
      have hq := hsq (by simp [hsym])
      have := congrFun (symRM_col u α A.tsz D x β y hc) i
      simp only [colOf] at this
      simp only [if_true]
      rw [this]
      cases tr with
      | N => simp only [opRows, opCols, opE, if_true]; rw [hq, add_comm]
      | T =>
        simp only [opRows, opCols, opE, reduceCtorEq, if_false]; rw [hq, add_comm]
        simp only [symE_symm D i]
      | C => exact absurd rfl htr
    | H =>
      have hq := hsq (by simp [hsym])
      have hd := hd hsym
      have := congrFun (herRM_col u α A.tsz D hd x β y hc) i
      simp only [colOf] at this
      simp only [reduceCtorEq, if_false, if_true]
      rw [← hq, this]
      cases tr with
      | N => simp only [opRows, opCols, opE, if_true]; rw [add_comm]
      | T =>
        simp only [opRows, opCols, opE, reduceCtorEq, if_false]
        rw [hsym] at hsup
        have hr : RealType R := by simpa [Supported] using hsup
        rw [add_comm]
        split_ifs with hi
        · congr 2
          apply Finset.sum_congr rfl
          intro j _
          rw [← herE_symm hd hi, hr]
        · rfl
      | C => exact absurd rfl htr
    | nul => rw [hsym] at hsup; exact hsup.elim

/-- **C21 (hermitian, dense).** The transposed *matrix* product of a hermitian `LocalDenseMatrix` is right: the input and the result are
conjugated around the product with `A`. -/
theorem C21_transposed_hermitian_matrix_product {A : LocalOp R} {u : UploType} {D : ℕ → ℕ → R}
    (hsym : A.sym = .H) (hK : A.K = denseKernel true .H u A.tsz A.ssz D) (hsq : A.tsz = A.ssz)
    (hd : ∀ i < A.tsz, star (D i i) = D i i) (hs : A.sflag = false) (β : R) (x y : Buf R) {mu c : ℕ} (hc : c < mu) (k : ℕ) :
    A.addMatT 1 x β y mu (k * mu + c) =
      if A.soff ≤ k ∧ k < A.soff + A.ssz then ∑ i ∈ range A.tsz, herE u D i (k - A.soff) * x (i * mu + c) else y (k * mu + c) := by
  set inp : Buf R := conjBuf (A.tsz * mu) (copyN (A.tsz * mu) x (fun _ => 0)) with hinp
  have hprod : ∀ j < A.ssz, A.prodRM .T 1 inp β (fun _ => 0) mu (j * mu + c) = star (∑ i ∈ range A.tsz, herE u D i j * x (i * mu + c)) := by
    intro j hj
    unfold LocalOp.prodRM
    rw [hsym, hK]
    unfold denseKernel
    simp only [reduceCtorEq, if_false, if_true]
    have := congrFun (herRM_col u 1 A.tsz D hd inp β (fun _ => 0) hc) j
    simp only [colOf] at this
    rw [← hsq, this, if_pos (by omega), star_sum, one_mul, mul_zero, add_zero]
    apply Finset.sum_congr rfl
    intro i hi
    have hi := Finset.mem_range.1 hi
    rw [star_mul', herE_symm hd (by omega)]
    congr 1
    rw [hinp]
    unfold conjBuf copyN
    rw [if_pos ((pos_lt hc).2 hi), if_pos ((pos_lt hc).2 hi)]
  unfold LocalOp.addMatT
  simp only [hsym, if_true, hs, Bool.false_eq_true, if_false, ← hinp]
  unfold Buf.at' conjBuf copyN Buf.from'
  by_cases h1 : A.soff ≤ k
  · have e1 : A.soff * mu ≤ k * mu + c := (Nat.mul_le_mul_right _ h1).trans (Nat.le_add_right _ _)
    have e2 : k * mu + c - A.soff * mu = (k - A.soff) * mu + c := by
      rw [Nat.sub_mul]; have := Nat.mul_le_mul_right mu h1; omega
    have e3 : A.soff * mu ≤ A.soff * mu + ((k - A.soff) * mu + c) := Nat.le_add_right _ _
    have e4 : A.soff * mu + ((k - A.soff) * mu + c) - A.soff * mu = (k - A.soff) * mu + c := by omega
    simp only [e1, if_true, e2, pos_lt hc, h1, true_and, e3, e4]
    have e : (k - A.soff < A.ssz) ↔ (k < A.soff + A.ssz) := by omega
    by_cases h2 : k < A.soff + A.ssz
    · rw [if_pos (e.2 h2), if_pos h2, if_pos (e.2 h2), hprod _ (e.2 h2), star_star]
    · rw [if_neg (fun h => h2 (e.1 h)), if_neg h2, if_neg (fun h => h2 (e.1 h))]
      congr 1; omega
  · have e1 : ¬ A.soff * mu ≤ k * mu + c := by
      have : (k + 1) * mu ≤ A.soff * mu := Nat.mul_le_mul_right _ (by omega)
      have : (k + 1) * mu = k * mu + mu := by ring
      omega
    rw [if_neg e1, if_neg e1, if_neg (fun h => h1 h.1)]

/-! ## Property C43: the sub-matrix product used for coarse spaces -/

/-- **C43 (partial).** `sub_matrix_product_to_local(in, out, mu, offset, size)` overwrites the output by the columns
`[offset, offset + size)` of the operator times `in`, when the source cluster is the root of its tree (offset 0, as in the operators built by
the library) and the range starts in it (columns beyond the cluster are dropped), no permutation is used, and, when the range is the whole cluster, the operator is not a symmetric
`LocalDenseMatrix` (`hfull`). What is missing: other source clusters, see `C43_partial_range_undefined`. -/
theorem C43_sub_matrix_product_partial {A : LocalOp R} {M : ℕ → ℕ → R} (hK : A.KernelOK M) (hsym : A.sym ≠ .nul)
    (hfull : ∀ α x β y mu, 0 < mu → IsRM .N A.tsz A.ssz M α x β y mu (A.K.rm .N α x β y mu)) (ht : A.tflag = false) (hs : A.sflag = false)
    (h0 : A.soff = 0) {mu offset size : ℕ} (hr : offset ≤ A.ssz) (x y : Buf R) :
    ∃ z, A.subMat x y mu offset size = some z ∧ ∀ c < mu, ∀ k,
      z (k * mu + c) = if k < A.tsz then ∑ l ∈ range (min size (A.ssz - offset)), M k (offset + l) * x (l * mu + c) else y (k * mu + c) := by
  unfold LocalOp.subMat
  rw [h0, if_neg (by omega)]
  by_cases hex : 0 = offset ∧ A.ssz + 0 = size + offset
  · rw [if_pos hex]
    refine ⟨_, rfl, fun c hc k => ?_⟩
    rw [hfull _ _ _ _ mu (by omega) c hc k]
    simp only [opRows, opCols, opE, if_true, zero_mul, zero_add, one_mul]
    obtain ⟨rfl, h2⟩ := hex
    have : size = A.ssz := by omega
    subst this
    simp only [Nat.zero_add, Nat.sub_zero, min_self]
  · rw [if_neg hex]
    simp only [Nat.not_lt_zero, if_false, Nat.max_zero, Nat.zero_sub, Nat.sub_zero, Nat.add_zero]
    have hsz : (if size + offset ≤ A.ssz then size else size - (size + offset - A.ssz)) = min size (A.ssz - offset) := by
      split_ifs <;> omega
    rw [hsz]
    clear hsz hex
    generalize hs' : min size (A.ssz - offset) = s
    have hr : offset + s ≤ A.ssz := by omega
    clear hs'
    rename' size => size0, s => size
    unfold LocalOp.localSub
    rw [if_neg]
    · refine ⟨_, rfl, fun c hc k => ?_⟩
      rw [C21_matrix_product_partial hK ⟨fun h => by simp [ht] at h, fun h => by simp [hs] at h⟩ hsym (N := M)
        (fun i _ j _ => by simp [LocalOp.tu, LocalOp.su, ht, hs]) ht _ _ _ _ hc]
      simp only [zero_mul, zero_add, one_mul, h0]
      by_cases hk : k < A.tsz
      · rw [if_pos hk, if_pos hk]
        have e : ∀ l, (Buf.at' (offset * mu) (copyN (size * mu) x) (fun _ => 0)) (l * mu + c) =
            if offset ≤ l ∧ l < offset + size then x ((l - offset) * mu + c) else 0 := by
          intro l
          unfold Buf.at' copyN Buf.from'
          by_cases h1 : offset ≤ l
          · have e1 : offset * mu ≤ l * mu + c := (Nat.mul_le_mul_right _ h1).trans (Nat.le_add_right _ _)
            have e2 : l * mu + c - offset * mu = (l - offset) * mu + c := by
              rw [Nat.sub_mul]; have := Nat.mul_le_mul_right mu h1; omega
            simp only [e1, if_true, e2, pos_lt hc, h1, true_and]
            exact if_congr (by omega) rfl rfl
          · have e1 : ¬ offset * mu ≤ l * mu + c := by
              have : (l + 1) * mu ≤ offset * mu := Nat.mul_le_mul_right _ (by omega)
              have : (l + 1) * mu = l * mu + mu := by ring
              omega
            rw [if_neg e1, if_neg (fun h => h1 h.1)]
        simp only [e, mul_ite, mul_zero]
        rw [← Finset.sum_filter]
        symm
        refine Finset.sum_nbij (fun l => offset + l) ?_ ?_ ?_ ?_
        · intro l hl; simp at hl ⊢; omega
        · intro a _ b _ h; simpa using h
        · intro l hl
          simp at hl
          exact ⟨l - offset, by simp; omega, by simp; omega⟩
        · intro l _
          simp
      · rw [if_neg hk, if_neg hk]
    · rw [← Nat.add_mul]
      have : (offset + size) * mu ≤ A.ssz * mu := Nat.mul_le_mul_right _ hr
      rw [h0]
      omega

/-- **C43 (exact range).** When the range is the source cluster itself, wherever it is, the result is the product with the whole block. -/
theorem C43_sub_matrix_product_exact_range {A : LocalOp R} {M : ℕ → ℕ → R}
    (hfull : ∀ α x β y mu, 0 < mu → IsRM .N A.tsz A.ssz M α x β y mu (A.K.rm .N α x β y mu)) (mu : ℕ) (x y : Buf R) :
    ∃ z, A.subMat x y mu A.soff A.ssz = some z ∧ ∀ c < mu, ∀ k,
      z (k * mu + c) = if k < A.tsz then ∑ l ∈ range A.ssz, M k l * x (l * mu + c) else y (k * mu + c) := by
  unfold LocalOp.subMat
  rw [if_neg (by omega), if_pos (by omega)]
  refine ⟨_, rfl, fun c hc k => ?_⟩
  rw [hfull _ _ _ _ mu (by omega) c hc k]
  simp only [opRows, opCols, opE, if_true, zero_mul, zero_add, one_mul]

/-- **C43 (defect).** For a source cluster which is not at offset 0, every range which meets the cluster but is not equal to it makes
`sub_matrix_product_to_local` access its temporary vector out of bounds. -/
theorem C43_partial_range_undefined (A : LocalOp R) (h0 : 0 < A.soff) (h1 : 0 < A.ssz) {mu offset size : ℕ} (hmu : 0 < mu)
    (hm : ∃ l, A.soff ≤ l ∧ l < A.soff + A.ssz ∧ offset ≤ l ∧ l < offset + size) (hne : ¬ (offset = A.soff ∧ size = A.ssz)) (x y : Buf R) :
    A.subMat x y mu offset size = none := by
  obtain ⟨l, m1, m2, m3, m4⟩ := hm
  unfold LocalOp.subMat
  rw [if_neg (by omega), if_neg (by omega)]
  simp only
  unfold LocalOp.localSub
  rw [if_pos]
  right
  have a := Nat.mul_pos h1 hmu
  have b := Nat.mul_pos h0 hmu
  omega

/-! ## From the user's generator to products in user numbering -/

/-- `InternalGeneratorWithPermutation` (hmatrix/interfaces/virtual_generator.hpp 34-50): the coefficient of rows and columns given in
cluster numbering. -/
def permutedGen (tperm sperm : List ℕ) (ug : ℕ → ℕ → R) (i j : ℕ) : R := ug (tperm.getD i 0) (sperm.getD j 0)

omit [CommRing R] [StarRing R] in
theorem getD_userIdx {perm : List ℕ} {off size i : ℕ} (h : LocalPerm perm off size) (hi : i < size) :
    perm.getD (off + i) 0 = off + userIdx perm off i := by
  obtain ⟨a1, a2, a3, a4⟩ := userIdx_eq h hi
  have : perm.getD (off + i) 0 = (slice perm off size)[i] := by
    have h1 := slice_getElem? perm off size i
    rw [if_pos hi, List.getElem?_eq_getElem a1] at h1
    rw [List.getD_eq_getElem?_getD, ← h1]; rfl
  omega

/-- **C21 (from generator to product).** Build an H-matrix from a generator in user numbering, under any schedule, and multiply through a
`LocalHMatrix` with both permutation flags, under any schedule: the output is `β out + α U in`, in user numbering, for one matrix `U` whose
entries are all `close` to the user's coefficients. -/
theorem C21_built_product [DecidableEq R] {G : Type*} {T : ℕ} (hT : 0 < T) {E : BEnv G} {cplx : Bool} (hreal : cplx = false → RealType R)
    {lr : LRGen R} {dg : Option (DenseGen R)} {fuel : ℕ} {t s r : CTree G} (hcov : Covered E t s r) {tperm sperm : List ℕ} {ug : ℕ → ℕ → R}
    (hgen : UserGen E cplx dg (permutedGen tperm sperm ug) r.iv) {close : R → R → Prop} (hcl : Closeness close)
    (hlr : UserLR close lr (permutedGen tperm sperm ug)) (hpt : LocalPerm tperm r.off r.sz) (hps : LocalPerm sperm s.off s.sz)
    {m m' : Mem R} {B' : Builder} {H : Tree ℕ} (h : BuildStep T E lr dg fuel t s (permutedGen tperm sperm ug) m Builder.empty m' B' H)
    {K : LocalKernel R} (hK : HMatrixKernel K cplx (H.map m'.heap)) :
    ∃ U : ℕ → ℕ → R, (∀ k < r.sz, ∀ l < s.sz, close (U k l) (ug (r.off + k) (s.off + l))) ∧
      ∀ (α β : R) (x y : Buf R) (k : ℕ),
        (LocalOp.mk tperm r.off r.sz sperm s.off s.sz E.sym.toH true true K).addVec α x β y k =
          if k < r.sz then β * y k + α * ∑ l ∈ range s.sz, U k l * x (s.off + l) else y k := by
  obtain ⟨hfit, hr, hs, hclose⟩ := C19_built_operator hT hcov hgen hcl hlr h
  have r1 : (H.map m'.heap).label.toff = r.off := congrArg Prod.fst hr
  have r2 : (H.map m'.heap).label.tsz = r.sz := congrArg Prod.snd hr
  have s1 : (H.map m'.heap).label.soff = s.off := congrArg Prod.fst hs
  have s2 : (H.map m'.heap).label.ssz = s.sz := congrArg Prod.snd hs
  set A : LocalOp R := LocalOp.mk tperm r.off r.sz sperm s.off s.sz E.sym.toH true true K with hA
  have hOK : A.KernelOK (HTree.mat (H.map m'.heap)) := LocalOp.kernelOK_hmatrix hreal hK hfit r2 s2
  have hp : A.PermOK := ⟨fun _ => hpt, fun _ => hps⟩
  obtain ⟨U, hU⟩ := LocalOp.exists_inUser hp (HTree.mat (H.map m'.heap))
  refine ⟨U, ?_, fun α β x y k => C21_vector_product hOK hp (by show E.sym.toH ≠ .nul; cases E.sym <;> simp [SymType.toH]) hU α β x y k⟩
  intro k hk l hl
  obtain ⟨i, hi, rfl⟩ := userIdx_surj hpt hk
  obtain ⟨j, hj, rfl⟩ := userIdx_surj hps hl
  have := hU i hi j hj
  simp only [LocalOp.tu, LocalOp.su, hA, if_true] at this
  rw [this]
  unfold HTree.mat
  rw [r1, s1]
  have hc := hclose (r.off + i) (s.off + j) (by unfold InIv Tree.iv; simp only; omega) (by unfold InIv Tree.iv; simp only; omega)
  unfold permutedGen at hc
  rw [getD_userIdx hpt hi, getD_userIdx hps hj] at hc
  exact hc

/-! ## Concrete cases -/

/-- A hermitian 3×3 local operator with permutations on both sides. -/
def exLocal : LocalOp GaussianInt :=
  ⟨[2, 0, 1], 0, 3, [1, 2, 0], 0, 3, .H, true, true,
    denseKernel true .H .L 3 3 (fun i j => if i = j then ⟨(i : ℤ) + 1, 0⟩ else ⟨i, (j : ℤ) + 2⟩)⟩

theorem exLocal_perm : exLocal.PermOK :=
  ⟨fun _ => by unfold LocalPerm exLocal; decide, fun _ => by unfold LocalPerm exLocal; decide⟩

theorem exLocal_kernel : exLocal.KernelOK (denseMat .H .L (fun i j => if i = j then ⟨(i : ℤ) + 1, 0⟩ else ⟨i, (j : ℤ) + 2⟩)) :=
  LocalOp.kernelOK_dense (cplx := true) (by simp) rfl (by simp [exLocal]) (fun _ => rfl)
    (fun _ i _ => by simp [GaussianInt, Zsqrtd.ext_iff])

/-- The hypotheses of `C21_vector_product` are met by a hermitian operator with two different permutations, and the result is not the one
of the unpermuted matrix. -/
example : ∃ N, exLocal.InUser (denseMat .H .L (fun i j => if i = j then ⟨(i : ℤ) + 1, 0⟩ else ⟨i, (j : ℤ) + 2⟩)) N ∧
    exLocal.PermOK ∧ exLocal.sym ≠ .nul := by
  obtain ⟨N, hN⟩ := LocalOp.exists_inUser exLocal_perm _
  exact ⟨N, hN, exLocal_perm, by decide⟩

example : (List.range 4).map (exLocal.addVec 1 (fun i => ⟨i, 0⟩) 0 (fun _ => 7)) =
    (List.range 4).map (fun k => if k < 3 then ∑ l ∈ range 3,
      denseMat .H .L (fun i j => if i = j then (⟨(i : ℤ) + 1, 0⟩ : GaussianInt) else ⟨i, (j : ℤ) + 2⟩) (if k = 2 then 0 else k + 1)
        (if l = 0 then 2 else l - 1) * ⟨l, 0⟩ else 7) := by
  decide +kernel

/-- **C21 (defect).** The transposed product of a hermitian complex local operator is wrong: the kernel is called with `trans = 'T'`,
which `LocalDenseMatrix` ignores (and H-matrices do not support, see `C19_unsupported_combinations_wrong`), so `A x` is returned instead of
`A^T x`. -/
theorem C21_transposed_hermitian_vector_product_wrong :
    ∃ A : LocalOp GaussianInt, A.tflag = false ∧ A.sflag = false ∧
      A.KernelOK (denseMat .H .L (fun i j => if i = j then ⟨(i : ℤ) + 1, 0⟩ else ⟨i, (j : ℤ) + 2⟩)) ∧
      A.tsz = 2 ∧ A.ssz = 2 ∧ A.soff = 0 ∧
      A.addVecT 1 (fun _ => 1) 1 (fun _ => 0) 0 ≠
        ∑ i ∈ range 2, denseMat .H .L (fun i j => if i = j then (⟨(i : ℤ) + 1, 0⟩ : GaussianInt) else ⟨i, (j : ℤ) + 2⟩) i 0 * 1 := by
  refine ⟨⟨[0, 1], 0, 2, [0, 1], 0, 2, .H, false, false,
    denseKernel true .H .L 2 2 (fun i j => if i = j then ⟨(i : ℤ) + 1, 0⟩ else ⟨i, (j : ℤ) + 2⟩)⟩, rfl, rfl, ?_, rfl, rfl, rfl, ?_⟩
  · exact LocalOp.kernelOK_dense (cplx := true) (by simp) rfl (by simp) (fun _ => rfl) (fun _ i _ => by simp [GaussianInt, Zsqrtd.ext_iff])
  · decide +kernel

/-- **C21 (defect).** The transposed vector product ignores the target permutation flag: its input is read in cluster numbering. -/
theorem C21_transposed_product_ignores_target_permutation :
    ∃ A : LocalOp ℤ, A.tflag = true ∧ A.PermOK ∧ A.KernelOK (fun i _ => (i : ℤ)) ∧ A.tsz = 2 ∧ A.ssz = 1 ∧ A.soff = 0 ∧
      ∃ N, A.InUser (fun i _ => (i : ℤ)) N ∧
      A.addVecT 1 (fun i => i) 1 (fun _ => 0) 0 ≠ ∑ i ∈ range 2, N i 0 * (i : ℤ) := by
  refine ⟨⟨[1, 0], 0, 2, [0], 0, 1, .N, true, false, denseKernel false .N .N 2 1 (fun i _ => (i : ℤ))⟩, rfl, ?_, ?_, rfl, rfl, rfl,
    fun i _ => 1 - (i : ℤ), ?_, ?_⟩
  · exact ⟨fun _ => by unfold LocalPerm; decide, fun h => by simp at h⟩
  · exact LocalOp.kernelOK_dense (cplx := false) (u := .N) (fun _ x => by simp) rfl (by simp) (fun h => absurd rfl h) (fun h => by simp at h)
  · intro i hi j hj
    have : i = 0 ∨ i = 1 := by simp at hi; omega
    rcases this with rfl | rfl <;> simp [LocalOp.tu, userIdx]
  · decide +kernel

/-- Concrete sub-matrix products: columns 1 and 2 of a 2×4 operator; a range inside an operator whose columns start at 1 is undefined. -/
example : ((LocalOp.mk [0, 1] 0 2 [0, 1, 2, 3] 0 4 .N false false (denseKernel false .N .N 2 4 (fun i j => ((i : ℤ) + 1) * j))).subMat
      (fun p => p + 1) (fun _ => 9) 2 1 2).map (fun z => (List.range 5).map z) = some [1 * 1 + 2 * 3, 1 * 2 + 2 * 4, 2 * 1 + 4 * 3, 2 * 2 + 4 * 4, 9] ∧
    ((LocalOp.mk [0, 1] 0 2 [0, 1, 2, 3] 1 2 .N false false (denseKernel false .N .N 2 2 (fun i j => ((i : ℤ) + 1) * j))).subMat
      (fun p => p + 1) (fun _ => 9) 2 1 1).isNone := by
  constructor <;> decide +kernel

end Htool
