import Verif.Distributed
import Verif.Props.LocalOp

/-! # Properties C39 to C43: distributed operators -/

namespace Htool
variable {R : Type*} [CommRing R] [StarRing R]
open Finset

/-! ## Specification -/

namespace DOp
variable (D : DOp R)

/-- The local operators of each rank multiply, together, like the rows of `M` (cluster numbering) owned by the rank. -/
def ActsVec (M : ℕ → ℕ → R) : Prop := ∀ r < D.P, ∀ x y : Buf R, (∀ i < D.tgt.size r, y i = 0) → ∀ i,
  D.opsVec r x y i = if i < D.tgt.size r then ∑ j ∈ range D.src.n, M (D.tgt.off r + i) j * x j else y i

/-- The same for row-major products with several columns. -/
def ActsMat (M : ℕ → ℕ → R) : Prop := ∀ r < D.P, ∀ (mu : ℕ) (x y : Buf R), (∀ p < D.tgt.size r * mu, y p = 0) → ∀ c < mu, ∀ i,
  D.opsMat r x y mu (i * mu + c) =
    if i < D.tgt.size r then ∑ j ∈ range D.src.n, M (D.tgt.off r + i) j * x (j * mu + c) else y (i * mu + c)

/-- The same for products with the transpose. -/
def ActsVecT (M : ℕ → ℕ → R) : Prop := ∀ r < D.P, ∀ x y : Buf R, (∀ j < D.src.n, y j = 0) → ∀ j,
  D.opsVecT r x y j = if j < D.src.n then ∑ i ∈ range (D.tgt.size r), M (D.tgt.off r + i) j * x i else y j

/-- The same for row-major products with the transpose. -/
def ActsMatT (M : ℕ → ℕ → R) : Prop := ∀ r < D.P, ∀ (mu : ℕ) (x y : Buf R), (∀ p < D.src.n * mu, y p = 0) → ∀ c < mu, ∀ j,
  D.opsMatT r x y mu (j * mu + c) =
    if j < D.src.n then ∑ i ∈ range (D.tgt.size r), M (D.tgt.off r + i) j * x (i * mu + c) else y (j * mu + c)

/-- The number, for the caller, of row `i` of the operator. -/
def tnum (i : ℕ) : ℕ := if D.usePerm then D.tgt.perm.getD i 0 else i
/-- The number, for the caller, of column `j` of the operator. -/
def snum (j : ℕ) : ℕ := if D.usePerm then D.src.perm.getD j 0 else j

/-- `U` is the matrix `M` in the numbering of the caller. -/
def InUser (M U : ℕ → ℕ → R) : Prop := ∀ i < D.tgt.n, ∀ j < D.src.n, U (D.tnum i) (D.snum j) = M i j

/-- Both partitions are valid for the number of ranks. -/
structure OK : Prop where
  tgt : D.tgt.OK D.P
  src : D.src.OK D.P

/-- Permutations, if used, are local to the parts. -/
structure Local : Prop where
  tgt : D.usePerm = true → D.tgt.Local D.P
  src : D.usePerm = true → D.src.Local D.P

end DOp

/-! ## Lemmas -/

omit [CommRing R] [StarRing R] in
theorem userIdx_zero (perm : List ℕ) (i : ℕ) : userIdx perm 0 i = perm.getD i 0 := by simp [userIdx]

variable {D : DOp R}

theorem DOp.sum_snum (h : D.OK) (f : ℕ → R) : ∑ j ∈ range D.src.n, f (D.snum j) = ∑ l ∈ range D.src.n, f l := by
  unfold DOp.snum
  cases D.usePerm with
  | false => rfl
  | true =>
    have := sum_userIdx h.src.perm f
    simp only [userIdx_zero] at this
    exact this

theorem DOp.sum_tnum (h : D.OK) (f : ℕ → R) : ∑ j ∈ range D.tgt.n, f (D.tnum j) = ∑ l ∈ range D.tgt.n, f l := by
  unfold DOp.tnum
  cases D.usePerm with
  | false => rfl
  | true =>
    have := sum_userIdx h.tgt.perm f
    simp only [userIdx_zero] at this
    exact this

theorem DOp.user_sum (h : D.OK) {M U : ℕ → ℕ → R} (hU : D.InUser M U) (f : ℕ → R) {i : ℕ} (hi : i < D.tgt.n) :
    ∑ j ∈ range D.src.n, M i j * f (D.snum j) = ∑ l ∈ range D.src.n, U (D.tnum i) l * f l := by
  rw [← DOp.sum_snum h (fun l => U (D.tnum i) l * f l)]
  exact Finset.sum_congr rfl (fun j hj => by rw [hU i hi j (Finset.mem_range.1 hj)])

theorem DOp.user_sumT (h : D.OK) {M U : ℕ → ℕ → R} (hU : D.InUser M U) (f : ℕ → R) {j : ℕ} (hj : j < D.src.n) :
    ∑ i ∈ range D.tgt.n, M i j * f (D.tnum i) = ∑ k ∈ range D.tgt.n, U k (D.snum j) * f k := by
  rw [← DOp.sum_tnum h (fun k => U k (D.snum j) * f k)]
  exact Finset.sum_congr rfl (fun i hi => by rw [hU i (Finset.mem_range.1 hi) j hj])

omit [StarRing R] in
theorem sum_displs (cnt : ℕ → ℕ) (g : ℕ → R) (P : ℕ) :
    ∑ p ∈ range P, ∑ i ∈ range (cnt p), g (displs cnt p + i) = ∑ k ∈ range (displs cnt P), g k := by
  induction P with
  | zero => simp [displs]
  | succ P ih => rw [Finset.sum_range_succ, ih, displs, Finset.sum_range_add]

omit [StarRing R] in
theorem Part.OK.sum {p : Part} {P : ℕ} (h : p.OK P) (g : ℕ → R) :
    ∑ r ∈ range P, ∑ i ∈ range (p.size r), g (p.off r + i) = ∑ k ∈ range p.n, g k := by
  rw [← h.total, ← sum_displs]
  exact Finset.sum_congr rfl (fun r hr => by rw [h.off_eq (Finset.mem_range.1 hr)])

omit [CommRing R] [StarRing R] in
theorem Part.OK.gather {p : Part} {P : ℕ} (h : p.OK P) {send : ℕ → Buf R} {f : ℕ → R}
    (hs : ∀ r < P, ∀ i < p.size r, send r i = f (p.off r + i)) (out : Buf R) (k : ℕ) :
    allgatherv P p.size send out k = if k < p.n then f k else out k := by
  split_ifs with hk
  · obtain ⟨r, hr, i, hi, rfl⟩ := h.cover hk
    rw [← hs r hr i hi, ← h.off_eq hr, allgatherv_get send out hr hi]
  · exact allgatherv_frame send out (by rw [h.total]; omega)

omit [CommRing R] [StarRing R] in
/-- Row-major blocks. -/
theorem Part.OK.gatherRM {p : Part} {P : ℕ} (h : p.OK P) {send : ℕ → Buf R} {f : ℕ → ℕ → R} {mu : ℕ}
    (hs : ∀ r < P, ∀ i < p.size r, ∀ c < mu, send r (i * mu + c) = f (p.off r + i) c) (out : Buf R) {k c : ℕ} (hc : c < mu) (hk : k < p.n) :
    allgatherv P (fun i => p.size i * mu) send out (k * mu + c) = f k c := by
  obtain ⟨r, hr, i, hi, rfl⟩ := h.cover hk
  rw [← hs r hr i hi c hc]
  have : (p.off r + i) * mu + c = displs (fun i => p.size i * mu) r + (i * mu + c) := by
    rw [displs_mul, h.off_eq hr, Nat.add_mul, Nat.add_assoc]
  rw [this, allgatherv_get send out hr ((pos_lt hc).2 hi)]

omit [CommRing R] [StarRing R] in
theorem Part.OK.p2g_get {p : Part} {P : ℕ} (h : p.OK P) (b out : Buf R) :
    (∀ i < p.n, p.p2g b out (p.perm.getD i 0) = b i) ∧ (∀ k, p.n ≤ k → p.p2g b out k = out k) := by
  have := clusterToUser_spec h.perm b out
  simp only [userIdx_zero] at this
  exact this

omit [CommRing R] [StarRing R] in
theorem Part.OK.surj {p : Part} {P : ℕ} (h : p.OK P) {k : ℕ} (hk : k < p.n) : ∃ i < p.n, p.perm.getD i 0 = k := by
  have := userIdx_surj h.perm hk
  simpa only [userIdx_zero] using this

omit [CommRing R] [StarRing R] in
theorem Part.g2p_get (p : Part) (b out : Buf R) {i : ℕ} (hi : i < p.n) : p.g2p b out i = b (p.perm.getD i 0) := by
  have := (userToCluster_spec p.perm 0 p.n b out).1 i hi
  simp only [userIdx_zero] at this
  exact this

omit [CommRing R] [StarRing R] in
theorem at_copyN (a n : ℕ) (v o : Buf R) (k : ℕ) :
    Buf.at' a (copyN n v) o k = if a ≤ k ∧ k < a + n then v (k - a) else o k := by
  unfold Buf.at' copyN Buf.from'
  by_cases h1 : a ≤ k
  · rw [if_pos h1]
    by_cases h2 : k < a + n
    · rw [if_pos (by omega), if_pos ⟨h1, h2⟩]
    · rw [if_neg (by omega), if_neg (by omega), Nat.add_sub_cancel' h1]
  · rw [if_neg h1, if_neg (by omega)]

omit [CommRing R] [StarRing R] in
/-- Columns written one after the other. -/
theorem foldl_cols {mu n : ℕ} {g : ℕ → Buf R → Buf R} {v : ℕ → ℕ → R} (hv : ∀ i < mu, ∀ o k, k < n → g i o k = v i k)
    (hf : ∀ i < mu, ∀ o k, n ≤ k → g i o k = o k) (out : Buf R) :
    (∀ i < mu, ∀ k < n, (List.range mu).foldl (fun o i => Buf.at' (i * n) (g i) o) out (i * n + k) = v i k) ∧
    (∀ k, mu * n ≤ k → (List.range mu).foldl (fun o i => Buf.at' (i * n) (g i) o) out k = out k) := by
  have e : ∀ (l : List ℕ), (∀ i ∈ l, i < mu) → ∀ out : Buf R, l.foldl (fun o i => Buf.at' (i * n) (g i) o) out =
      l.foldl (fun o i => Buf.at' (0 + displs (fun _ => n) i) (copyN ((fun _ => n) i) (v i)) o) out := by
    intro l hl
    induction l with
    | nil => intro out; rfl
    | cons a l ih =>
      intro out
      simp only [List.foldl_cons]
      have : Buf.at' (a * n) (g a) out = Buf.at' (0 + displs (fun _ => n) a) (copyN n (v a)) out := by
        funext k
        rw [displs_const, Nat.zero_add]
        unfold Buf.at' copyN
        split_ifs with h1 h2
        · exact hv a (hl a (by simp)) _ _ h2
        · exact hf a (hl a (by simp)) _ _ (by omega)
        · rfl
      rw [this, ih (fun i hi => hl i (by simp [hi]))]
  obtain ⟨h1, h2⟩ := foldl_blocks mu (fun _ => n) v 0 out
  rw [e _ (fun i hi => List.mem_range.1 hi)]
  constructor
  · intro i hi k hk
    have := h1 i hi k hk
    simp only [Nat.zero_add, displs_const] at this ⊢
    exact this
  · intro k hk
    exact h2 k (Or.inr (by rw [displs_const]; omega))

omit [CommRing R] [StarRing R] in
theorem col_decomp {mu n k : ℕ} (hk : k < mu * n) : ∃ c < mu, ∃ l < n, k = c * n + l := by
  have hn : 0 < n := by rcases Nat.eq_zero_or_pos n with h | h; · subst h; omega
                        · exact h
  exact ⟨k / n, (Nat.div_lt_iff_lt_mul hn).2 hk, k % n, Nat.mod_lt _ hn, by rw [Nat.mul_comm, Nat.div_add_mod]⟩

omit [StarRing R] in
theorem fill0_zero (n : ℕ) (y : Buf R) : ∀ i < n, fill0 n y i = 0 := fun i hi => by simp [fill0, hi]

omit [StarRing R] in
theorem fill0_frame {n : ℕ} (y : Buf R) {i : ℕ} (hi : n ≤ i) : fill0 n y i = y i := by
  unfold fill0; rw [if_neg (by omega)]

theorem DOp.vecG2L_get {M : ℕ → ℕ → R} (hA : D.ActsVec M) {r : ℕ} (hr : r < D.P) (x y : Buf R) (i : ℕ) :
    D.vecG2L r x y i = if i < D.tgt.size r then ∑ j ∈ range D.src.n, M (D.tgt.off r + i) j * x j else y i := by
  unfold DOp.vecG2L
  rw [hA r hr x _ (fill0_zero _ _) i]
  split_ifs with h
  · rfl
  · exact fill0_frame _ (by omega)

theorem DOp.matG2L_get {M : ℕ → ℕ → R} (hA : D.ActsMat M) {r : ℕ} (hr : r < D.P) (x y : Buf R) {mu c : ℕ} (hc : c < mu) (i : ℕ) :
    D.matG2L r x y mu (i * mu + c) =
      if i < D.tgt.size r then ∑ j ∈ range D.src.n, M (D.tgt.off r + i) j * x (j * mu + c) else y (i * mu + c) := by
  unfold DOp.matG2L
  rw [hA r hr mu x _ (fill0_zero _ _) c hc i]
  split_ifs with h
  · rfl
  · apply fill0_frame
    have := (pos_lt hc (i := i) (n := D.tgt.size r)).not.2 h
    omega

/-! ## C39: global to global -/

/-- **C39.** `vector_product_global_to_global`: when every rank passes the same vector, every rank gets the whole product in the numbering of
the caller, for any number of ranks and any partitions (parts may be empty). Nothing else is written. -/
theorem C39_vector_product_global_to_global (h : D.OK) {M U : ℕ → ℕ → R} (hA : D.ActsVec M) (hU : D.InUser M U) {x : ℕ → R}
    {inp : ℕ → Buf R} (hx : ∀ r < D.P, ∀ l < D.src.n, inp r l = x l) (out : ℕ → Buf R) (r k : ℕ) :
    D.vecG2G inp out r k = if k < D.tgt.n then ∑ l ∈ range D.src.n, U k l * x l else out r k := by
  have key : ∀ o k, allgatherv D.P D.tgt.size
      (fun p => D.vecG2L p (if D.usePerm then D.src.g2p (inp p) (fun _ => 0) else inp p) (fun _ => 0)) o k =
      if k < D.tgt.n then ∑ l ∈ range D.src.n, U (D.tnum k) l * x l else o k := by
    intro o k
    apply h.tgt.gather
    intro p hp i hi
    rw [DOp.vecG2L_get hA hp, if_pos hi, ← DOp.user_sum h hU x (by have := h.tgt.bound hp; omega)]
    apply Finset.sum_congr rfl
    intro j hj
    have hj := Finset.mem_range.1 hj
    congr 1
    unfold DOp.snum
    split_ifs with hp'
    · rw [Part.g2p_get _ _ _ hj]
      apply hx p hp
      obtain ⟨-, -, -, h4⟩ := userIdx_eq h.src.perm hj
      simpa only [userIdx_zero] using h4
    · exact hx p hp j hj
  unfold DOp.vecG2G
  cases hp : D.usePerm with
  | false =>
    simp only [hp, Bool.false_eq_true, if_false] at key ⊢
    rw [key]
    simp [DOp.tnum, hp]
  | true =>
    simp only [hp, if_true] at key ⊢
    split_ifs with hk
    · obtain ⟨i, hi, rfl⟩ := h.tgt.surj hk
      rw [(h.tgt.p2g_get _ _).1 i hi, key, if_pos hi]
      simp [DOp.tnum, hp]
    · exact (h.tgt.p2g_get _ _).2 k (by omega)

/-- **C39.** `matrix_product_global_to_global` (column major, `mu` columns). -/
theorem C39_matrix_product_global_to_global (h : D.OK) {M U : ℕ → ℕ → R} (hA : D.ActsMat M) (hU : D.InUser M U) {mu : ℕ} {x : ℕ → R}
    {inp : ℕ → Buf R} (hx : ∀ r < D.P, ∀ p < mu * D.src.n, inp r p = x p) (out : ℕ → Buf R) (r : ℕ) :
    (∀ c < mu, ∀ k < D.tgt.n, D.matG2G inp out mu r (c * D.tgt.n + k) = ∑ l ∈ range D.src.n, U k l * x (c * D.src.n + l)) ∧
    (∀ p, mu * D.tgt.n ≤ p → D.matG2G inp out mu r p = out r p) := by
  set nc := D.src.n with hnc
  set nr := D.tgt.n with hnr
  set ib : ℕ → Buf R := fun p => toRM mu nc (fun i =>
    if D.usePerm then D.src.g2p ((inp p).from' (i * nc)) (fun _ => 0) else (inp p).from' (i * nc)) (fun _ => 0) with hib
  set op : ℕ → Buf R := fun p => toCM mu (D.tgt.size p) (D.matG2L p (ib p) (fun _ => 0) mu) (fun _ => 0) with hop
  set recv : ℕ → ℕ := fun i => D.tgt.size i * mu with hrecv
  set ob := allgatherv D.P recv op (fun _ => 0) with hob
  -- the input
  have hin : ∀ p < D.P, ∀ c < mu, ∀ j < nc, ib p (j * mu + c) = x (c * nc + D.snum j) := by
    intro p hp c hc j hj
    rw [hib]
    simp only
    rw [toRM_get _ _ hc, if_pos hj]
    have hb : ∀ j' < nc, inp p (c * nc + j') = x (c * nc + j') := by
      intro j' hj'
      apply hx p hp
      calc c * nc + j' < c * nc + nc := by omega
        _ = (c + 1) * nc := by ring
        _ ≤ mu * nc := Nat.mul_le_mul_right _ hc
    unfold DOp.snum
    split_ifs with hp'
    · rw [Part.g2p_get _ _ _ hj]
      apply hb
      obtain ⟨-, -, -, h4⟩ := userIdx_eq h.src.perm hj
      simpa only [userIdx_zero] using h4
    · exact hb j hj
  -- the local results
  have hloc : ∀ p < D.P, ∀ c < mu, ∀ i < D.tgt.size p, op p (c * D.tgt.size p + i) =
      ∑ l ∈ range nc, U (D.tnum (D.tgt.off p + i)) l * x (c * nc + l) := by
    intro p hp c hc i hi
    rw [hop]
    simp only
    rw [toCM_get _ _ hi, if_pos hc, DOp.matG2L_get hA hp _ _ hc, if_pos hi,
      ← DOp.user_sum h hU (fun l => x (c * nc + l)) (by have := h.tgt.bound hp; omega)]
    exact Finset.sum_congr rfl (fun j hj => by rw [hin p hp c hc j (Finset.mem_range.1 hj)])
  rcases Nat.eq_zero_or_pos mu with hmu | hmu
  · subst hmu
    refine ⟨by simp, fun p _ => ?_⟩
    unfold DOp.matG2G
    simp
  have hd : ∀ j, displs recv j / mu = displs D.tgt.size j := fun j => by
    rw [hrecv, displs_mul, Nat.mul_div_cancel _ hmu]
  have hr1 : ∀ j, recv j / mu = D.tgt.size j := fun j => by rw [hrecv]; exact Nat.mul_div_cancel _ hmu
  have hr2 : ∀ i j, i * recv j / mu = i * D.tgt.size j := fun i j => by
    rw [hrecv]; simp only; rw [← Nat.mul_assoc, Nat.mul_div_cancel _ hmu]
  have hcol : ∀ c < mu, ∀ j < D.P, ∀ i < D.tgt.size j, (ob.from' (displs recv j + c * recv j / mu)) i =
      ∑ l ∈ range nc, U (D.tnum (D.tgt.off j + i)) l * x (c * nc + l) := by
    intro c hc j hj i hi
    unfold Buf.from'
    rw [hr2, Nat.add_assoc, hob, allgatherv_get op _ hj, hloc j hj c hc i hi]
    rw [hrecv]
    calc c * D.tgt.size j + i < c * D.tgt.size j + D.tgt.size j := by omega
      _ = (c + 1) * D.tgt.size j := by ring
      _ ≤ mu * D.tgt.size j := Nat.mul_le_mul_right _ hc
      _ = D.tgt.size j * mu := Nat.mul_comm _ _
  have hblk : ∀ c < mu, ∀ base (o : Buf R),
      (∀ k < nr, (List.range D.P).foldl (fun b j => Buf.at' (base + displs recv j / mu)
        (copyN (recv j / mu) (ob.from' (displs recv j + c * recv j / mu))) b) o (base + k) =
        ∑ l ∈ range nc, U (D.tnum k) l * x (c * nc + l)) ∧
      (∀ k, (k < base ∨ base + nr ≤ k) → (List.range D.P).foldl (fun b j => Buf.at' (base + displs recv j / mu)
        (copyN (recv j / mu) (ob.from' (displs recv j + c * recv j / mu))) b) o k = o k) := by
    intro c hc base o
    simp only [hd, hr1]
    obtain ⟨h1, h2⟩ := foldl_blocks D.P D.tgt.size (fun j => ob.from' (displs recv j + c * recv j / mu)) base o
    rw [h.tgt.total] at h2
    refine ⟨fun k hk => ?_, h2⟩
    obtain ⟨j, hj, i, hi, rfl⟩ := h.tgt.cover hk
    rw [← h.tgt.off_eq hj, ← Nat.add_assoc, h1 j hj i hi, hcol c hc j hj i hi, h.tgt.off_eq hj]
  have hres : D.matG2G inp out mu r = (List.range mu).foldl (fun o i => Buf.at' (i * nr) (fun b =>
      if D.usePerm then D.tgt.p2g ((List.range D.P).foldl (fun c j => Buf.at' (displs recv j / mu)
        (copyN (recv j / mu) (ob.from' (displs recv j + i * recv j / mu))) c) (fun _ => 0)) b
      else copyN nr (fun k => ∑ l ∈ range nc, U k l * x (i * nc + l)) b) o) (out r) := by
    unfold DOp.matG2G
    simp only [← hnc, ← hnr]
    apply List.foldl_ext
    intro o i hi
    have hi := List.mem_range.1 hi
    cases hp : D.usePerm with
    | true => simp only [if_true, hob, hop, hib, hp]; rfl
    | false =>
      simp only [Bool.false_eq_true, if_false]
      obtain ⟨b1, b2⟩ := hblk i hi (i * nr) o
      have e : ∀ k, D.tnum k = k := fun k => by simp [DOp.tnum, hp]
      simp only [e] at b1
      have hob' : ob = allgatherv D.P recv (fun p => toCM mu (D.tgt.size p) (D.matG2L p
          (toRM mu nc (fun i => (inp p).from' (i * nc)) (fun _ => 0)) (fun _ => 0) mu) (fun _ => 0)) (fun _ => 0) := by
        rw [hob, hop, hib]; simp only [hp, Bool.false_eq_true, if_false]
      rw [← hob']
      funext k
      rw [at_copyN]
      by_cases h1 : i * nr ≤ k ∧ k < i * nr + nr
      · rw [if_pos h1]
        have := b1 (k - i * nr) (by omega)
        rw [Nat.add_sub_cancel' h1.1] at this
        exact this
      · rw [if_neg h1]
        exact b2 k (by omega)
  rw [hres]
  obtain ⟨f1, f2⟩ := foldl_cols (mu := mu) (n := nr) (v := fun i k => ∑ l ∈ range nc, U k l * x (i * nc + l))
    (g := fun i b => if D.usePerm then D.tgt.p2g ((List.range D.P).foldl (fun c j => Buf.at' (displs recv j / mu)
        (copyN (recv j / mu) (ob.from' (displs recv j + i * recv j / mu))) c) (fun _ => 0)) b
      else copyN nr (fun k => ∑ l ∈ range nc, U k l * x (i * nc + l)) b) (by
      intro i hi o k hk
      cases hp : D.usePerm with
      | true =>
        simp only [if_true]
        obtain ⟨k', hk', rfl⟩ := h.tgt.surj hk
        rw [(h.tgt.p2g_get _ _).1 k' hk']
        have := (hblk i hi 0 (fun _ => 0)).1 k' hk'
        simp only [Nat.zero_add] at this
        rw [this]
        simp [DOp.tnum, hp]
      | false =>
        simp only [Bool.false_eq_true, if_false]
        unfold copyN
        rw [if_pos hk]) (by
      intro i hi o k hk
      split_ifs
      · exact (h.tgt.p2g_get _ _).2 k hk
      · unfold copyN
        rw [if_neg (by omega)]) (out r)
  exact ⟨f1, f2⟩

end Htool
