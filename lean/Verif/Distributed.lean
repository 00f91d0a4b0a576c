import Verif.LocalOp

/-! # Distributed operators

Model of `include/htool/distributed_operator/distributed_operator.hpp` with the partition of `implementations/partition_from_cluster.hpp`.
A public function is a collective call: the model maps the buffers of all `P` ranks to the buffers of all ranks (`ℕ → Buf R`, rank first).
MPI collectives are their contracts. Timings and messages are left out. `std::vector<T> v(n)` is the zero buffer; `work` buffers given by
the caller are arbitrary. -/

namespace Htool
variable {R : Type*}

/-! ## MPI -/

/-- Prefix sums, the loops computing `displs` from `recvcounts` (for instance distributed_operator.hpp 114-124). -/
def displs (cnt : ℕ → ℕ) : ℕ → ℕ
  | 0 => 0
  | i + 1 => displs cnt i + cnt i

/-- `MPI_Allgatherv`: the receive buffer of any rank. -/
def allgatherv (P : ℕ) (cnt : ℕ → ℕ) (send : ℕ → Buf R) (out : Buf R) : Buf R :=
  (List.range P).foldl (fun o r => Buf.at' (displs cnt r) (copyN (cnt r) (send r)) o) out

/-- `MPI_Alltoallv` on rank `r`: rank `i` sends its data from `sdispls r`, and it is stored at `rdispls i`. The counts of sender and
receiver agree in the calls of the code. -/
def alltoallv (P : ℕ) (scnt : ℕ → ℕ) (send : ℕ → Buf R) (r : ℕ) (rcnt : ℕ → ℕ) (out : Buf R) : Buf R :=
  (List.range P).foldl (fun o i => Buf.at' (displs rcnt i) (copyN (rcnt i) ((send i).from' (displs scnt r))) o) out

/-! ## Interfaces -/

/-- `VirtualLocalOperator` (local_operators/virtual_local_operator.hpp 6-13). -/
structure VLO (R : Type*) where
  vec : R → Buf R → R → Buf R → Buf R
  mat : R → Buf R → R → Buf R → ℕ → Buf R
  vecT : R → Buf R → R → Buf R → Buf R
  matT : R → Buf R → R → Buf R → ℕ → Buf R
  sub : Buf R → Buf R → ℕ → ℕ → ℕ → Option (Buf R)

/-- A `LocalOperator` as a `VirtualLocalOperator`. -/
def LocalOp.toVLO [CommRing R] [StarRing R] (A : LocalOp R) : VLO R := ⟨A.addVec, A.addMat, A.addVecT, A.addMatT, A.subMat⟩

/-- `PartitionFromCluster` (partition_from_cluster.hpp 11-49): permutation, global size, and (offset, size) of the clusters on the
partition. -/
structure Part where
  perm : List ℕ
  n : ℕ
  parts : List (ℕ × ℕ)

namespace Part
/-- `get_offset_of_partition` (partition_from_cluster.hpp 24). -/
def off (p : Part) (r : ℕ) : ℕ := (p.parts.getD r (0, 0)).1
/-- `get_size_of_partition` (partition_from_cluster.hpp 23). -/
def size (p : Part) (r : ℕ) : ℕ := (p.parts.getD r (0, 0)).2
/-- `global_to_partition_numbering` (partition_from_cluster.hpp 28-30). -/
def g2p (p : Part) (inp out : Buf R) : Buf R := userToCluster p.perm 0 p.n inp out
/-- `partition_to_global_numbering` (partition_from_cluster.hpp 31-33). -/
def p2g (p : Part) (inp out : Buf R) : Buf R := clusterToUser p.perm 0 p.n inp out
/-- `local_to_local_partition_numbering` (partition_from_cluster.hpp 35-37). -/
def l2p (p : Part) (r : ℕ) (inp out : Buf R) : Buf R := userToCluster p.perm (p.off r) (p.size r) inp out
/-- `local_partition_to_local_numbering` (partition_from_cluster.hpp 38-40). -/
def p2l (p : Part) (r : ℕ) (inp out : Buf R) : Buf R := clusterToUser p.perm (p.off r) (p.size r) inp out
end Part

/-- A `DistributedOperator` (distributed_operator.hpp 21-50) seen from all ranks: `ops r` are the local operators added on rank `r`. -/
structure DOp (R : Type*) where
  P : ℕ
  tgt : Part
  src : Part
  ops : ℕ → List (VLO R)
  usePerm : Bool
  sym : HSym

/-- `std::fill_n(out, n, 0)`. -/
def fill0 [Zero R] (n : ℕ) (out : Buf R) : Buf R := fun i => if i < n then 0 else out i

/-- `std::transform(out, out + n, x, out, std::plus)`. -/
def addN [Add R] (n : ℕ) (x out : Buf R) : Buf R := fun i => if i < n then out i + x i else out i

section code
variable [CommRing R] [StarRing R]
namespace DOp
variable (D : DOp R)
open Finset

/-- Loop on the local operators of a rank (distributed_operator.hpp 514-516). -/
def opsVec (r : ℕ) (x y : Buf R) : Buf R := (D.ops r).foldl (fun o A => A.vec 1 x 1 o) y
/-- distributed_operator.hpp 524-526. -/
def opsMat (r : ℕ) (x y : Buf R) (mu : ℕ) : Buf R := (D.ops r).foldl (fun o A => A.mat 1 x 1 o mu) y
/-- distributed_operator.hpp 536-538, 597-599. -/
def opsVecT (r : ℕ) (x y : Buf R) : Buf R := (D.ops r).foldl (fun o A => A.vecT 1 x 1 o) y
/-- distributed_operator.hpp 550-552, 641-643. -/
def opsMatT (r : ℕ) (x y : Buf R) (mu : ℕ) : Buf R := (D.ops r).foldl (fun o A => A.matT 1 x 1 o mu) y

/-- `internal_vector_product_global_to_local` on rank `r` (distributed_operator.hpp 508-517). -/
def vecG2L (r : ℕ) (inp out : Buf R) : Buf R := D.opsVec r inp (fill0 (D.tgt.size r) out)

/-- `internal_matrix_product_global_to_local` on rank `r` (distributed_operator.hpp 518-527). -/
def matG2L (r : ℕ) (inp out : Buf R) (mu : ℕ) : Buf R := D.opsMat r inp (fill0 (D.tgt.size r * mu) out) mu

/-- `internal_vector_product_transp_local_to_global` (distributed_operator.hpp 529-541) with `MPI_Allreduce` in place. -/
def vecTL2G (inp out : ℕ → Buf R) : ℕ → Buf R := fun r k =>
  if k < D.src.n then ∑ p ∈ range D.P, D.opsVecT p (inp p) (fill0 D.src.n (out p)) k
  else D.opsVecT r (inp r) (fill0 D.src.n (out r)) k

/-- `internal_matrix_product_transp_local_to_global` (distributed_operator.hpp 543-554). -/
def matTL2G (inp out : ℕ → Buf R) (mu : ℕ) : ℕ → Buf R := fun r k =>
  if k < D.src.n * mu then ∑ p ∈ range D.P, D.opsMatT p (inp p) (fill0 (D.src.n * mu) (out p)) mu k
  else D.opsMatT r (inp r) (fill0 (D.src.n * mu) (out r)) mu k

/-- `vector_product_global_to_global` (distributed_operator.hpp 92-137). -/
def vecG2G (inp out : ℕ → Buf R) : ℕ → Buf R := fun r =>
  let outPerm := fun p => D.vecG2L p (if D.usePerm then D.src.g2p (inp p) (fun _ => 0) else inp p) (fun _ => 0)
  if D.usePerm then D.tgt.p2g (allgatherv D.P D.tgt.size outPerm (fun _ => 0)) (out r)
  else allgatherv D.P D.tgt.size outPerm (out r)

/-- `matrix_product_global_to_global` (distributed_operator.hpp 139-210). The two halves of `out_perm` and of `output_buffer` are separate
buffers here. -/
def matG2G (inp out : ℕ → Buf R) (mu : ℕ) : ℕ → Buf R := fun r =>
  let nc := D.src.n
  let nr := D.tgt.n
  let inputBuffer := fun p => toRM mu nc (fun i =>
    if D.usePerm then D.src.g2p ((inp p).from' (i * nc)) (fun _ => 0) else (inp p).from' (i * nc)) (fun _ => 0)
  let outPerm := fun p => toCM mu (D.tgt.size p) (D.matG2L p (inputBuffer p) (fun _ => 0) mu) (fun _ => 0)
  let recv := fun i => D.tgt.size i * mu
  let ob := allgatherv D.P recv outPerm (fun _ => 0)
  (List.range mu).foldl (fun o i =>
    if D.usePerm then
      let col := (List.range D.P).foldl (fun c j => Buf.at' (displs recv j / mu)
        (copyN (recv j / mu) (ob.from' (displs recv j + i * recv j / mu))) c) (fun _ => 0)
      Buf.at' (i * nr) (D.tgt.p2g col) o
    else
      (List.range D.P).foldl (fun c j => Buf.at' (i * nr + displs recv j / mu)
        (copyN (recv j / mu) (ob.from' (displs recv j + i * recv j / mu))) c) o) (out r)

/-- `vector_product_transp_global_to_global` (distributed_operator.hpp 212-252). -/
def vecTG2G (inp out : ℕ → Buf R) : ℕ → Buf R :=
  match D.sym with
  | .S => D.vecG2G inp out
  | .H => fun r => conjBuf D.src.n (D.vecG2G (fun p => conjBuf D.tgt.n (inp p)) out r)
  | _ =>
    let input := fun p => if D.usePerm then D.tgt.g2p (inp p) (fun _ => 0) else inp p
    if D.usePerm then fun r => D.src.p2g (D.vecTL2G (fun p => (input p).from' (D.tgt.off p)) (fun _ _ => 0) r) (out r)
    else D.vecTL2G (fun p => (input p).from' (D.tgt.off p)) out

/-- `matrix_product_transp_global_to_global` (distributed_operator.hpp 254-309). The two parts of `in_perm` are separate buffers here. -/
def matTG2G (inp out : ℕ → Buf R) (mu : ℕ) : ℕ → Buf R :=
  match D.sym with
  | .S => D.matG2G inp out mu
  | .H => fun r => conjBuf (mu * D.src.n) (D.matG2G (fun p => conjBuf (D.tgt.n * mu) (inp p)) out mu r)
  | _ =>
    let nr := D.tgt.n
    let nc := D.src.n
    let inPerm := fun p => toRM mu (D.tgt.size p) (fun i =>
      (if D.usePerm then D.tgt.g2p ((inp p).from' (i * nr)) (fun _ => 0) else (inp p).from' (i * nr)).from' (D.tgt.off p)) (fun _ => 0)
    let prod := D.matTL2G inPerm (fun _ _ => 0) mu
    fun r => if D.usePerm then
      (List.range mu).foldl (fun o i => Buf.at' (i * nc) (D.src.p2g (fun j => prod r (i + j * mu))) o) (out r)
    else toCM mu nc (prod r) (out r)

/-- `local_to_global_source` (distributed_operator.hpp 694-711): the output buffer of every rank. -/
def l2gSource (inp out : ℕ → Buf R) (mu : ℕ) : ℕ → Buf R := fun r => allgatherv D.P (fun i => D.src.size i * mu) inp (out r)

/-- `local_to_global_target` (distributed_operator.hpp 674-692). -/
def l2gTarget (inp out : ℕ → Buf R) (mu : ℕ) : ℕ → Buf R := fun r => allgatherv D.P (fun i => D.tgt.size i * mu) inp (out r)

/-- `internal_vector_product_local_to_local` (distributed_operator.hpp 556-564). -/
def intVecL2L (inp out work : ℕ → Buf R) : ℕ → Buf R := fun r => D.vecG2L r (D.l2gSource inp work 1 r) (out r)

/-- `internal_matrix_product_local_to_local` (distributed_operator.hpp 566-574). -/
def intMatL2L (inp out work : ℕ → Buf R) (mu : ℕ) : ℕ → Buf R := fun r => D.matG2L r (D.l2gSource inp work mu r) (out r) mu

/-- `vector_product_local_to_local` (distributed_operator.hpp 311-340). -/
def vecL2L (inp out work : ℕ → Buf R) : ℕ → Buf R :=
  if D.usePerm then
    fun r => D.tgt.p2l r (D.intVecL2L (fun p => D.src.l2p p (inp p) (fun _ => 0)) (fun _ _ => 0) work r) (out r)
  else D.intVecL2L inp out work

/-- `matrix_product_local_to_local` (distributed_operator.hpp 342-393). -/
def matL2L (inp out work : ℕ → Buf R) (mu : ℕ) : ℕ → Buf R :=
  let input := fun p => toRM mu (D.src.size p) (fun i =>
    if D.usePerm then D.src.l2p p ((inp p).from' (i * D.src.size p)) (fun _ => 0) else (inp p).from' (i * D.src.size p)) (fun _ => 0)
  let prod := D.intMatL2L input (fun _ _ => 0) work mu
  fun r => if D.usePerm then
    (List.range mu).foldl (fun o i => Buf.at' (i * D.tgt.size r) (D.tgt.p2l r (fun j => prod r (i + j * mu))) o) (out r)
  else toCM mu (D.tgt.size r) (prod r) (out r)

/-- The exchange ending the transposed local-to-local products: `MPI_Alltoallv` then sums (distributed_operator.hpp 601-619, 645-663). -/
def exchange (buf work : ℕ → Buf R) (out : ℕ → Buf R) (mu : ℕ) : ℕ → Buf R := fun r =>
  let rcnt := fun _ => D.src.size r * mu
  let rbuf := alltoallv D.P (fun i => D.src.size i * mu) buf r rcnt (work r)
  (List.range D.P).foldl (fun o i => addN (D.src.size r * mu) (rbuf.from' (displs rcnt i)) o) (out r)

/-- `internal_vector_product_transp_local_to_local` (distributed_operator.hpp 576-620). `work` is the part `rbuf` of the buffer. -/
def intVecTL2L (inp out work : ℕ → Buf R) : ℕ → Buf R :=
  if D.sym = .S ∨ D.sym = .H then D.intVecL2L inp out work
  else D.exchange (fun p => D.opsVecT p (inp p) (fill0 D.src.n (work p))) work (fun r => fill0 (D.src.size r) (out r)) 1

/-- `internal_matrix_product_transp_local_to_local` (distributed_operator.hpp 622-664). The output is not cleared. -/
def intMatTL2L (inp out work : ℕ → Buf R) (mu : ℕ) : ℕ → Buf R :=
  if D.sym = .S ∨ D.sym = .H then D.intMatL2L inp out work mu
  else D.exchange (fun p => D.opsMatT p (inp p) (fill0 (D.src.n * mu) (work p)) mu) work out mu

/-- `vector_product_transp_local_to_local` (distributed_operator.hpp 395-438). -/
def vecTL2L (inp out work : ℕ → Buf R) : ℕ → Buf R :=
  match D.sym with
  | .S => D.vecL2L inp out work
  | .H => fun r => conjBuf (D.src.size r) (D.vecL2L (fun p => conjBuf (D.tgt.size p) (inp p)) out work r)
  | _ =>
    if D.usePerm then
      fun r => D.src.p2l r (D.intVecTL2L (fun p => D.tgt.l2p p (inp p) (fun _ => 0)) (fun _ _ => 0) work r) (out r)
    else D.intVecTL2L inp out work

/-- `matrix_product_transp_local_to_local` (distributed_operator.hpp 439-505). -/
def matTL2L (inp out work : ℕ → Buf R) (mu : ℕ) : ℕ → Buf R :=
  match D.sym with
  | .S => D.matL2L inp out work mu
  | .H => fun r => conjBuf (D.src.size r * mu) (D.matL2L (fun p => conjBuf (D.tgt.size p * mu) (inp p)) out work mu r)
  | _ =>
    let input := fun p => toRM mu (D.tgt.size p) (fun i =>
      if D.usePerm then D.tgt.l2p p ((inp p).from' (i * D.tgt.size p)) (fun _ => 0) else (inp p).from' (i * D.tgt.size p)) (fun _ => 0)
    let prod := D.intMatTL2L input (fun _ _ => 0) work mu
    fun r => if D.usePerm then
      (List.range mu).foldl (fun o i => Buf.at' (i * D.src.size r) (D.src.p2l r (fun j => prod r (i + j * mu))) o) (out r)
    else toCM mu (D.src.size r) (prod r) (out r)

/-- `internal_sub_matrix_product_to_local` on rank `r` (distributed_operator.hpp 666-671). -/
def subMat (r : ℕ) (inp out : Buf R) (mu offset size : ℕ) : Option (Buf R) :=
  (D.ops r).foldlM (fun o A => A.sub inp o mu offset size) out

end DOp
end code

/-! ## Collectives -/

theorem displs_mono (cnt : ℕ → ℕ) {r s : ℕ} (h : r ≤ s) : displs cnt r ≤ displs cnt s := by
  induction s with
  | zero => rw [Nat.le_zero.1 h]
  | succ s ih =>
    rcases Nat.lt_or_ge r (s + 1) with h1 | h1
    · exact (ih (by omega)).trans (Nat.le_add_right _ _)
    · rw [Nat.le_antisymm h h1]

theorem displs_lt (cnt : ℕ → ℕ) {r s : ℕ} (h : r < s) : displs cnt r + cnt r ≤ displs cnt s :=
  displs_mono cnt (Nat.succ_le_of_lt h)

theorem displs_mul (cnt : ℕ → ℕ) (mu r : ℕ) : displs (fun i => cnt i * mu) r = displs cnt r * mu := by
  induction r with
  | zero => simp [displs]
  | succ r ih => simp only [displs, ih, Nat.add_mul]

theorem displs_const (n r : ℕ) : displs (fun _ => n) r = r * n := by
  induction r with
  | zero => simp [displs]
  | succ r ih => simp only [displs, ih, Nat.add_mul, Nat.one_mul]

theorem displs_cover (cnt : ℕ → ℕ) {P k : ℕ} (h : k < displs cnt P) : ∃ r < P, ∃ i < cnt r, k = displs cnt r + i := by
  induction P with
  | zero => simp [displs] at h
  | succ P ih =>
    rcases Nat.lt_or_ge k (displs cnt P) with h1 | h1
    · obtain ⟨r, hr, i, hi, he⟩ := ih h1
      exact ⟨r, by omega, i, hi, he⟩
    · exact ⟨P, by omega, k - displs cnt P, by simp only [displs] at h; omega, by omega⟩

/-- Blocks written one after the other at the positions of the prefix sums, shifted by `base`. -/
theorem foldl_blocks (P : ℕ) (cnt : ℕ → ℕ) (send : ℕ → Buf R) (base : ℕ) (out : Buf R) :
    (∀ r < P, ∀ i < cnt r, (List.range P).foldl (fun o r => Buf.at' (base + displs cnt r) (copyN (cnt r) (send r)) o) out
      (base + displs cnt r + i) = send r i) ∧
    (∀ k, (k < base ∨ base + displs cnt P ≤ k) →
      (List.range P).foldl (fun o r => Buf.at' (base + displs cnt r) (copyN (cnt r) (send r)) o) out k = out k) := by
  induction P with
  | zero => simp
  | succ P ih =>
    rw [List.range_succ, List.foldl_append]
    simp only [List.foldl_cons, List.foldl_nil]
    obtain ⟨h1, h2⟩ := ih
    constructor
    · intro r hr i hi
      unfold Buf.at' copyN Buf.from'
      by_cases he : r = P
      · subst he
        rw [if_pos (Nat.le_add_right _ _), Nat.add_sub_cancel_left, if_pos hi]
      · have := displs_lt cnt (show r < P by omega)
        rw [if_neg (by omega)]
        exact h1 r (by omega) i hi
    · intro k hk
      simp only [displs] at hk
      have h4 := h2 k (by omega)
      unfold Buf.at' copyN Buf.from' at *
      by_cases h3 : base + displs cnt P ≤ k
      · rw [if_pos h3, if_neg (by omega), Nat.add_sub_cancel' h3, h4]
      · rw [if_neg h3]
        exact h4

theorem allgatherv_get {P : ℕ} {cnt : ℕ → ℕ} (send : ℕ → Buf R) (out : Buf R) {r i : ℕ} (hr : r < P) (hi : i < cnt r) :
    allgatherv P cnt send out (displs cnt r + i) = send r i := by
  have := (foldl_blocks P cnt send 0 out).1 r hr i hi
  simp only [Nat.zero_add] at this
  exact this

theorem allgatherv_frame {P : ℕ} {cnt : ℕ → ℕ} (send : ℕ → Buf R) (out : Buf R) {k : ℕ} (hk : displs cnt P ≤ k) :
    allgatherv P cnt send out k = out k := by
  have := (foldl_blocks P cnt send 0 out).2 k (Or.inr (by omega))
  simp only [Nat.zero_add] at this
  exact this

theorem alltoallv_get {P : ℕ} {scnt : ℕ → ℕ} (send : ℕ → Buf R) {r : ℕ} {rcnt : ℕ → ℕ} (out : Buf R) {i j : ℕ} (hi : i < P)
    (hj : j < rcnt i) : alltoallv P scnt send r rcnt out (displs rcnt i + j) = send i (displs scnt r + j) := by
  have := (foldl_blocks P rcnt (fun i => (send i).from' (displs scnt r)) 0 out).1 i hi j hj
  simp only [Nat.zero_add] at this
  exact this

/-! ## Partitions -/

/-- The parts are consecutive intervals covering `[0, n)`, one for each of the `P` ranks, and `perm` is a permutation of `[0, n)`. -/
structure Part.OK (p : Part) (P : ℕ) : Prop where
  len : p.parts.length = P
  tiles : Tiles 0 p.n p.parts
  perm : LocalPerm p.perm 0 p.n

/-- The permutation is local to each part. -/
def Part.Local (p : Part) (P : ℕ) : Prop := ∀ r < P, LocalPerm p.perm (p.off r) (p.size r)

theorem tiles_displs {l : List (ℕ × ℕ)} {a b : ℕ} (h : Tiles a b l) :
    (∀ r < l.length, a + displs (fun i => (l.getD i (0, 0)).2) r = (l.getD r (0, 0)).1) ∧
    a + displs (fun i => (l.getD i (0, 0)).2) l.length = b := by
  induction l generalizing a with
  | nil => cases h; simp [displs]
  | cons x l ih =>
    obtain ⟨o, s⟩ := x
    obtain ⟨rfl, h2⟩ := h
    obtain ⟨i1, i2⟩ := ih h2
    have sh : ∀ r, displs (fun i => (((o, s) :: l).getD i (0, 0)).2) (r + 1) = s + displs (fun i => (l.getD i (0, 0)).2) r := by
      intro r
      induction r with
      | zero => simp [displs]
      | succ r ih => rw [displs, ih, displs]; simp [Nat.add_assoc]
    constructor
    · intro r hr
      cases r with
      | zero => simp [displs]
      | succ r =>
        rw [sh, ← Nat.add_assoc, i1 r (by simpa using hr)]
        simp
    · rw [List.length_cons, sh, ← Nat.add_assoc]
      exact i2

theorem Part.OK.off_eq {p : Part} {P : ℕ} (h : p.OK P) {r : ℕ} (hr : r < P) : displs p.size r = p.off r := by
  have := (tiles_displs h.tiles).1 r (by rw [h.len]; exact hr)
  rw [Nat.zero_add] at this
  exact this

theorem Part.OK.total {p : Part} {P : ℕ} (h : p.OK P) : displs p.size P = p.n := by
  have := (tiles_displs h.tiles).2
  rw [h.len, Nat.zero_add] at this
  exact this

theorem Part.OK.bound {p : Part} {P : ℕ} (h : p.OK P) {r : ℕ} (hr : r < P) : p.off r + p.size r ≤ p.n := by
  rw [← h.off_eq hr, ← h.total]
  exact displs_lt _ hr

theorem Part.OK.cover {p : Part} {P : ℕ} (h : p.OK P) {k : ℕ} (hk : k < p.n) : ∃ r < P, ∃ i < p.size r, k = p.off r + i := by
  obtain ⟨r, hr, i, hi, he⟩ := displs_cover p.size (P := P) (by rw [h.total]; exact hk)
  exact ⟨r, hr, i, hi, by rw [← h.off_eq hr]; exact he⟩

end Htool
