import Verif.Numbering
import Verif.HProdRM

/-! # Local operators

Model of `include/htool/local_operators/local_operator.hpp`, `local_hmatrix.hpp` and `local_dense_matrix.hpp`: the part of a distributed
operator living on one rank. A call returns the new content of its output buffer. `std::vector<T> v(n)` is the zero buffer. Except for
`sub_matrix_product_to_local`, sizes of temporaries are not tracked. -/

namespace Htool
variable {R : Type*}

/-! ## Loops -/

/-- `for i < m, for j < n: out[idx i j] = val i j`. The values come from other buffers than `out`. -/
def loop2 (m n : ℕ) (idx : ℕ → ℕ → ℕ) (val : ℕ → ℕ → R) (out : Buf R) : Buf R :=
  (List.range m).foldl (fun o i => (List.range n).foldl (fun o j => Function.update o (idx i j) (val i j)) o) out

/-- Column major to row major: `out[i + j * mu] = cols i [j]` for `i < mu`, `j < n`. -/
def toRM (mu n : ℕ) (cols : ℕ → Buf R) (out : Buf R) : Buf R := loop2 mu n (fun i j => i + j * mu) (fun i j => cols i j) out

/-- Row major to column major: `out[j + i * n] = b[i + j * mu]` for `i < mu`, `j < n`. -/
def toCM (mu n : ℕ) (b : Buf R) (out : Buf R) : Buf R := loop2 mu n (fun i j => j + i * n) (fun i j => b (i + j * mu)) out

/-- `std::copy_n(src, n, dst)`. -/
def copyN (n : ℕ) (src dst : Buf R) : Buf R := fun i => if i < n then src i else dst i

theorem loop2_get (m n : ℕ) (idx : ℕ → ℕ → ℕ) (val : ℕ → ℕ → R) (out : Buf R)
    (hinj : ∀ i < m, ∀ j < n, ∀ i' < m, ∀ j' < n, idx i j = idx i' j' → i = i' ∧ j = j') :
    (∀ i < m, ∀ j < n, loop2 m n idx val out (idx i j) = val i j) ∧
    (∀ k, (∀ i < m, ∀ j < n, idx i j ≠ k) → loop2 m n idx val out k = out k) := by
  unfold loop2
  induction m with
  | zero => simp
  | succ m ih =>
    obtain ⟨h1, h2⟩ := ih (fun i hi j hj i' hi' j' hj' => hinj i (by omega) j hj i' (by omega) j' hj')
    rw [List.range_succ, List.foldl_append]
    simp only [List.foldl_cons, List.foldl_nil]
    obtain ⟨g1, g2⟩ := foldl_update_get (idx m) (val m)
      ((List.range m).foldl (fun o i => (List.range n).foldl (fun o j => Function.update o (idx i j) (val i j)) o) out) n
      (fun j hj j' hj' he => (hinj m (by omega) j hj m (by omega) j' hj' he).2)
    constructor
    · intro i hi j hj
      by_cases he : i = m
      · subst he; exact g1 j hj
      · rw [g2 _ (fun j' hj' e => he (hinj m (by omega) j' hj' i hi j hj e).1.symm)]
        exact h1 i (by omega) j hj
    · intro k hk
      rw [g2 _ (fun j' hj' => hk m (by omega) j' hj')]
      exact h2 k (fun i hi => hk i (by omega))

theorem rm_inj {mu i i' j j' : ℕ} (hi : i < mu) (hi' : i' < mu) (h : i + j * mu = i' + j' * mu) : i = i' ∧ j = j' := by
  have h1 : (i + j * mu) % mu = i := by rw [Nat.add_mul_mod_self_right, Nat.mod_eq_of_lt hi]
  have h2 : (i' + j' * mu) % mu = i' := by rw [Nat.add_mul_mod_self_right, Nat.mod_eq_of_lt hi']
  have e : i = i' := by rw [← h1, ← h2, h]
  have e2 : j * mu = j' * mu := by omega
  exact ⟨e, Nat.eq_of_mul_eq_mul_right (Nat.lt_of_le_of_lt (Nat.zero_le _) hi) e2⟩

theorem toRM_get {mu n : ℕ} (cols : ℕ → Buf R) (out : Buf R) {c j : ℕ} (hc : c < mu) :
    toRM mu n cols out (j * mu + c) = if j < n then cols c j else out (j * mu + c) := by
  obtain ⟨h1, h2⟩ := loop2_get mu n (fun i j => i + j * mu) (fun i j => cols i j) out
    (fun i hi j _ i' hi' j' _ h => rm_inj hi hi' h)
  split_ifs with hj
  · rw [Nat.add_comm]; exact h1 c hc j hj
  · apply h2
    intro i hi j' hj' he
    have := rm_inj hi hc (he.trans (Nat.add_comm _ _))
    omega

theorem toCM_get {mu n : ℕ} (b out : Buf R) {c j : ℕ} (hj : j < n) :
    toCM mu n b out (c * n + j) = if c < mu then b (j * mu + c) else out (c * n + j) := by
  obtain ⟨h1, h2⟩ := loop2_get mu n (fun i j => j + i * n) (fun i j => b (i + j * mu)) out
    (fun i _ j hj i' _ j' hj' h => (rm_inj hj hj' h).symm)
  split_ifs with hc
  · rw [Nat.add_comm (c * n), Nat.add_comm (j * mu)]; exact h1 c hc j hj
  · apply h2
    intro i hi j' hj' he
    have := rm_inj hj' hj (he.trans (Nat.add_comm _ _))
    omega

theorem toCM_frame {mu n : ℕ} (b out : Buf R) {k : ℕ} (hk : mu * n ≤ k) : toCM mu n b out k = out k := by
  rcases Nat.eq_zero_or_pos n with hn | hn
  · subst hn
    exact (loop2_get mu 0 (fun i j => j + i * 0) (fun i j => b (i + j * mu)) out (by simp)).2 k (by simp)
  · have := toCM_get (mu := mu) b out (c := k / n) (j := k % n) (Nat.mod_lt _ hn)
    rw [Nat.mul_comm, Nat.div_add_mod] at this
    rw [this, if_neg]
    have := (Nat.le_div_iff_mul_le hn).2 hk
    omega

/-! ## The code -/

/-- The four pure virtual products of `LocalOperator` (local_operator.hpp 33-36); `UPLO` and `symmetry`, passed to the symmetric
variants, are members of the operator. -/
structure LocalKernel (R : Type*) where
  vec : Trans → R → Buf R → R → Buf R → Buf R
  vecSym : Trans → R → Buf R → R → Buf R → Buf R
  rm : Trans → R → Buf R → R → Buf R → ℕ → Buf R
  rmSym : Trans → R → Buf R → R → Buf R → ℕ → Buf R

/-- Members of `LocalOperator` (local_operator.hpp 16-24). `tperm` and `sperm`: the permutations of the trees the clusters belong to. -/
structure LocalOp (R : Type*) where
  tperm : List ℕ
  toff : ℕ
  tsz : ℕ
  sperm : List ℕ
  soff : ℕ
  ssz : ℕ
  sym : HSym
  tflag : Bool
  sflag : Bool
  K : LocalKernel R

/-- The choice between the plain and the symmetric kernel (local_operator.hpp 74-80, 146-153); another symmetry only logs an error. -/
def LocalOp.prodVec (A : LocalOp R) (tr : Trans) (α : R) (x : Buf R) (β : R) (y : Buf R) : Buf R :=
  match A.sym with
  | .N => A.K.vec tr α x β y
  | .S | .H => A.K.vecSym tr α x β y
  | .nul => y

/-- Same choice for row-major products (local_operator.hpp 117-124, 177-184). -/
def LocalOp.prodRM (A : LocalOp R) (tr : Trans) (α : R) (x : Buf R) (β : R) (y : Buf R) (mu : ℕ) : Buf R :=
  match A.sym with
  | .N => A.K.rm tr α x β y mu
  | .S | .H => A.K.rmSym tr α x β y mu
  | .nul => y

section code
variable [CommRing R] [StarRing R]

/-- `add_vector_product_global_to_local` (local_operator.hpp 47-87). -/
def LocalOp.addVec (A : LocalOp R) (α : R) (inp : Buf R) (β : R) (out : Buf R) : Buf R :=
  let bin := if A.sflag then userToCluster A.sperm A.soff A.ssz (inp.from' A.soff) (fun _ => 0) else inp.from' A.soff
  let bout := if A.tflag then userToCluster A.tperm A.toff A.tsz out (fun _ => 0) else out
  let r := A.prodVec .N α bin β bout
  if A.tflag then clusterToUser A.tperm A.toff A.tsz r out else r

/-- `add_matrix_product_global_to_local` (local_operator.hpp 88-136). With the target flag the product goes to a zeroed buffer which is
dropped (the final permutation is commented out, lines 130-135). -/
def LocalOp.addMat (A : LocalOp R) (α : R) (inp : Buf R) (β : R) (out : Buf R) (mu : ℕ) : Buf R :=
  let input :=
    if A.sflag then
      toRM mu A.ssz (fun i => userToCluster A.sperm A.soff A.ssz (fun j => inp (i + (A.soff + j) * mu)) (fun _ => 0)) (fun _ => 0)
    else if A.sym = .H then copyN (A.ssz * mu) (inp.from' (A.soff * mu)) (fun _ => 0)
    else inp.from' (A.soff * mu)
  let r := A.prodRM .N α input β (if A.tflag then (fun _ => 0) else out) mu
  if A.tflag then out else r

/-- `add_vector_product_transp_local_to_global` (local_operator.hpp 138-160). -/
def LocalOp.addVecT (A : LocalOp R) (α : R) (inp : Buf R) (β : R) (out : Buf R) : Buf R :=
  if A.sflag then
    let r := A.prodVec .T α inp β (userToCluster A.sperm A.soff A.ssz (out.from' A.soff) (fun _ => 0))
    Buf.at' A.soff (clusterToUser A.sperm A.soff A.ssz r) out
  else Buf.at' A.soff (A.prodVec .T α inp β) out

/-- `add_matrix_product_transp_local_to_global` (local_operator.hpp 162-209). -/
def LocalOp.addMatT (A : LocalOp R) (α : R) (inp : Buf R) (β : R) (out : Buf R) (mu : ℕ) : Buf R :=
  let input := if A.sym = .H then conjBuf (A.tsz * mu) (copyN (A.tsz * mu) inp (fun _ => 0)) else inp
  let op := A.prodRM .T α input β (fun _ => 0) mu
  let out1 :=
    if A.sflag then
      loop2 mu A.ssz (fun i j => i + (A.soff + j) * mu)
        (fun i j => clusterToUser A.sperm A.soff A.ssz (fun j => op (i + j * mu)) (fun _ => 0) j) out
    else Buf.at' (A.soff * mu) (copyN (A.ssz * mu) op) out
  if A.sym = .H then Buf.at' (A.soff * mu) (conjBuf (A.ssz * mu)) out1 else out1

/-- `local_sub_matrix_vector_product` (local_operator.hpp 38-42). `none`: `std::copy_n` writes past the end of `temp`, which has
`source_size * mu` entries, or the product, which reads `source_size * mu` entries from `temp + source_offset * mu`, reads past it. -/
def LocalOp.localSub (A : LocalOp R) (inp out : Buf R) (mu offset size : ℕ) : Option (Buf R) :=
  if A.ssz * mu < offset * mu + size * mu ∨ (0 < A.ssz * mu ∧ A.ssz * mu < A.soff * mu + A.ssz * mu) then none
  else some (A.addMat 1 (Buf.at' (offset * mu) (copyN (size * mu) inp) (fun _ => 0)) 0 out mu)

/-- `sub_matrix_product_to_local` (local_operator.hpp 211-236). Truncated subtraction is `std::max(.., 0)`; the differences in `temp_size`
which are not under a `max` are non-negative. -/
def LocalOp.subMat (A : LocalOp R) (inp out : Buf R) (mu offset size : ℕ) : Option (Buf R) :=
  if offset + size < A.soff ∨ A.soff + A.ssz < offset then some out
  else if A.soff = offset ∧ A.ssz + A.soff = size + offset then some (A.K.rm .N 1 inp 0 out mu)
  else
    let tempOffset := max offset A.soff
    let tempIn := if offset < A.soff then inp.from' (A.soff - offset) else inp
    let tempSize := if size + offset ≤ A.ssz + A.soff then size - (A.soff - offset)
      else size - (A.soff - offset) - (size + offset - A.soff - A.ssz)
    A.localSub tempIn out mu tempOffset tempSize

/-- The overrides of `LocalDenseMatrix` (local_dense_matrix.hpp 31-51) for an `nr × nc` matrix `D`. The symmetric variants ignore `trans`. -/
def denseKernel (cplx : Bool) (sym : HSym) (u : UploType) (nr nc : ℕ) (D : ℕ → ℕ → R) : LocalKernel R where
  vec := fun tr α x β y => gemv tr nr nc α D x β y
  vecSym := fun _ α x β y => if sym = .S then symv u nr α D x β y else if sym = .H then hemv u nr α D x β y else y
  rm := fun tr α x β y mu => matRM cplx tr α nr nc D x β y mu
  rmSym := fun _ α x β y mu => if sym = .S then symRM u α nr D x β y mu else if sym = .H then herRM u α nr nc D x β y mu else y

/-- The overrides of `LocalHMatrix` (local_hmatrix.hpp 27-30): each call returns the result of one execution of the OpenMP product, with any
number of threads and any schedule. -/
structure HMatrixKernel [DecidableEq R] (K : LocalKernel R) (cplx : Bool) (A : HTree R) : Prop where
  vec : ∀ tr α x β y, ∃ T, 0 < T ∧ OmpVec T cplx tr α A x β y (K.vec tr α x β y)
  vecSym : ∀ tr α x β y, ∃ T, 0 < T ∧ OmpVec T cplx tr α A x β y (K.vecSym tr α x β y)
  rm : ∀ tr α x β y mu, ∃ T, 0 < T ∧ OmpRM T cplx tr α A x β y mu (K.rm tr α x β y mu)
  rmSym : ∀ tr α x β y mu, ∃ T, 0 < T ∧ OmpRM T cplx tr α A x β y mu (K.rmSym tr α x β y mu)

end code

/-! ## Specification of a local product -/

section spec
variable [CommRing R] [StarRing R]
open Finset

/-- `z` is `β y + α op(M) x` for the `nr × nc` matrix `M`, and nothing else of `y` has changed. -/
def IsVec (tr : Trans) (nr nc : ℕ) (M : ℕ → ℕ → R) (α : R) (x : Buf R) (β : R) (y z : Buf R) : Prop :=
  ∀ i, z i = if i < opRows tr nr nc then β * y i + α * ∑ j ∈ range (opCols tr nr nc), opE tr M i j * x j else y i

/-- The same for every column of row-major buffers with `mu` columns. -/
def IsRM (tr : Trans) (nr nc : ℕ) (M : ℕ → ℕ → R) (α : R) (x : Buf R) (β : R) (y : Buf R) (mu : ℕ) (z : Buf R) : Prop :=
  ∀ c < mu, ∀ i, z (i * mu + c) = if i < opRows tr nr nc then
    β * y (i * mu + c) + α * ∑ j ∈ range (opCols tr nr nc), opE tr M i j * x (j * mu + c) else y (i * mu + c)

/-- The kernels of the operator are those of the matrix `M` (cluster numbering), for the values of `trans` the local operator uses and
which are supported with its symmetry. -/
structure LocalOp.KernelOK (A : LocalOp R) (M : ℕ → ℕ → R) : Prop where
  vec : ∀ tr, tr ≠ .C → Supported R A.sym tr → ∀ α x β y, IsVec tr A.tsz A.ssz M α x β y (A.prodVec tr α x β y)
  rm : ∀ tr, tr ≠ .C → Supported R A.sym tr → ∀ α x β y mu, 0 < mu → IsRM tr A.tsz A.ssz M α x β y mu (A.prodRM tr α x β y mu)

end spec

/-! ## Sums over renumbered indices -/

theorem sum_userIdx [AddCommMonoid R] {perm : List ℕ} {off size : ℕ} (h : LocalPerm perm off size) (f : ℕ → R) :
    ∑ j ∈ Finset.range size, f (userIdx perm off j) = ∑ l ∈ Finset.range size, f l := by
  refine Finset.sum_nbij (userIdx perm off) ?_ ?_ ?_ (fun _ _ => rfl)
  · intro i hi
    obtain ⟨-, -, -, h4⟩ := userIdx_eq h (Finset.mem_range.1 hi)
    exact Finset.mem_range.2 h4
  · intro i hi j hj he
    exact userIdx_inj h (Finset.mem_range.1 hi) (Finset.mem_range.1 hj) he
  · intro k hk
    obtain ⟨i, hi, he⟩ := userIdx_surj h (Finset.mem_range.1 hk)
    exact ⟨i, Finset.mem_coe.2 (Finset.mem_range.2 hi), he⟩

end Htool
