import Verif.Props.Distributed

/-! # Properties C40 and C41: transposed and local products of distributed operators -/

namespace Htool
variable {R : Type*} [CommRing R] [StarRing R]
open Finset
variable {D : DOp R}

/-! ## Specification -/

/-- What the symmetry attribute of a distributed operator says of its matrix in the numbering of the caller. -/
structure DOp.SymOK (D : DOp R) (U : ℕ → ℕ → R) : Prop where
  sym : D.sym = .S → D.tgt.n = D.src.n ∧ ∀ k < D.tgt.n, ∀ l < D.src.n, U k l = U l k
  her : D.sym = .H → D.tgt.n = D.src.n ∧ ∀ k < D.tgt.n, ∀ l < D.src.n, U k l = star (U l k)

/-- The local operators provide the product the attribute selects: the plain one for `'S'` and `'H'`, the transposed one otherwise. -/
def DOp.ActsForVecT (D : DOp R) (M : ℕ → ℕ → R) : Prop := if D.sym = .S ∨ D.sym = .H then D.ActsVec M else D.ActsVecT M
/-- The same for products with several columns. -/
def DOp.ActsForMatT (D : DOp R) (M : ℕ → ℕ → R) : Prop := if D.sym = .S ∨ D.sym = .H then D.ActsMat M else D.ActsMatT M

/-! ## Lemmas -/

theorem DOp.vecTL2G_get (h : D.OK) {M : ℕ → ℕ → R} (hA : D.ActsVecT M) {f : ℕ → R} {inp : ℕ → Buf R}
    (hx : ∀ p < D.P, ∀ i < D.tgt.size p, inp p i = f (D.tgt.off p + i)) (out : ℕ → Buf R) {r : ℕ} (hr : r < D.P) (k : ℕ) :
    D.vecTL2G inp out r k = if k < D.src.n then ∑ i ∈ range D.tgt.n, M i k * f i else out r k := by
  unfold DOp.vecTL2G
  split_ifs with hk
  · rw [← h.tgt.sum (fun i => M i k * f i)]
    apply Finset.sum_congr rfl
    intro p hp
    have hp := Finset.mem_range.1 hp
    rw [hA p hp _ _ (fill0_zero _ _), if_pos hk]
    exact Finset.sum_congr rfl (fun i hi => by rw [hx p hp i (Finset.mem_range.1 hi)])
  · rw [hA r hr _ _ (fill0_zero _ _), if_neg hk]
    exact fill0_frame _ (by omega)

theorem DOp.matTL2G_get (h : D.OK) {M : ℕ → ℕ → R} (hA : D.ActsMatT M) {mu : ℕ} {f : ℕ → ℕ → R} {inp : ℕ → Buf R}
    (hx : ∀ p < D.P, ∀ i < D.tgt.size p, ∀ c < mu, inp p (i * mu + c) = f (D.tgt.off p + i) c) (out : ℕ → Buf R) (r : ℕ) {k c : ℕ}
    (hc : c < mu) (hk : k < D.src.n) :
    D.matTL2G inp out mu r (k * mu + c) = ∑ i ∈ range D.tgt.n, M i k * f i c := by
  unfold DOp.matTL2G
  rw [if_pos ((pos_lt hc).2 hk), ← h.tgt.sum (fun i => M i k * f i c)]
  apply Finset.sum_congr rfl
  intro p hp
  have hp := Finset.mem_range.1 hp
  rw [hA p hp mu _ _ (fill0_zero _ _) c hc, if_pos hk]
  exact Finset.sum_congr rfl (fun i hi => by rw [hx p hp i (Finset.mem_range.1 hi) c hc])

omit [CommRing R] [StarRing R] in
theorem DOp.snum_lt {D : DOp R} (h : D.src.OK D.P) {i : ℕ} (hi : i < D.src.n) : D.snum i < D.src.n := by
  unfold DOp.snum
  split_ifs
  · obtain ⟨-, -, -, h4⟩ := userIdx_eq h.perm hi
    simpa only [userIdx_zero] using h4
  · exact hi

omit [CommRing R] [StarRing R] in
theorem DOp.tnum_lt {D : DOp R} (h : D.tgt.OK D.P) {i : ℕ} (hi : i < D.tgt.n) : D.tnum i < D.tgt.n := by
  unfold DOp.tnum
  split_ifs
  · obtain ⟨-, -, -, h4⟩ := userIdx_eq h.perm hi
    simpa only [userIdx_zero] using h4
  · exact hi

theorem DOp.g2p_tnum {D : DOp R} (b : Buf R) {i : ℕ} (hi : i < D.tgt.n) :
    (if D.usePerm then D.tgt.g2p b (fun _ => 0) else b) i = b (D.tnum i) := by
  unfold DOp.tnum
  split_ifs
  · exact Part.g2p_get _ _ _ hi
  · rfl

theorem conjBuf_get (n : ℕ) (b : Buf R) (k : ℕ) : conjBuf n b k = if k < n then star (b k) else b k := rfl

/-! ## C40: transposed products, global to global -/

/-- **C40.** `vector_product_transp_global_to_global`: every rank gets the product of the transposed matrix with the common input, in the
numbering of the caller, for each value of the symmetry attribute; nothing else is written. -/
theorem C40_transposed_vector_product_global_to_global (h : D.OK) {M U : ℕ → ℕ → R} (hA : D.ActsForVecT M) (hU : D.InUser M U)
    (hS : D.SymOK U) {x : ℕ → R} {inp : ℕ → Buf R} (hx : ∀ r < D.P, ∀ l < D.tgt.n, inp r l = x l) (out : ℕ → Buf R) {r : ℕ} (hr : r < D.P)
    (k : ℕ) : D.vecTG2G inp out r k = if k < D.src.n then ∑ l ∈ range D.tgt.n, U l k * x l else out r k := by
  have main : D.ActsVecT M → (if D.usePerm then fun r => D.src.p2g (D.vecTL2G (fun p =>
      (if D.usePerm then D.tgt.g2p (inp p) (fun _ => 0) else inp p).from' (D.tgt.off p)) (fun _ _ => 0) r) (out r)
      else D.vecTL2G (fun p => (if D.usePerm then D.tgt.g2p (inp p) (fun _ => 0) else inp p).from' (D.tgt.off p)) out) r k =
      if k < D.src.n then ∑ l ∈ range D.tgt.n, U l k * x l else out r k := by
    intro hA
    have key : ∀ (o : ℕ → Buf R) k, D.vecTL2G (fun p =>
        (if D.usePerm then D.tgt.g2p (inp p) (fun _ => 0) else inp p).from' (D.tgt.off p)) o r k =
        if k < D.src.n then ∑ l ∈ range D.tgt.n, U l (D.snum k) * x l else o r k := by
      intro o k
      rw [DOp.vecTL2G_get h hA (f := fun i => x (D.tnum i)) _ o hr]
      · refine if_ctx_congr Iff.rfl (fun hk => DOp.user_sumT h hU x hk) (fun _ => rfl)
      · intro p hp i hi
        unfold Buf.from'
        have : D.tgt.off p + i < D.tgt.n := by have := h.tgt.bound hp; omega
        rw [DOp.g2p_tnum _ this]
        exact hx p hp _ (DOp.tnum_lt h.tgt this)
    cases hp : D.usePerm with
    | false =>
      simp only [hp, Bool.false_eq_true, if_false] at key ⊢
      rw [key]
      simp [DOp.snum, hp]
    | true =>
      simp only [hp, if_true] at key ⊢
      split_ifs with hk
      · obtain ⟨i, hi, rfl⟩ := h.src.surj hk
        rw [(h.src.p2g_get _ _).1 i hi, key, if_pos hi]
        simp [DOp.snum, hp]
      · exact (h.src.p2g_get _ _).2 k (by omega)
  unfold DOp.ActsForVecT at hA
  unfold DOp.vecTG2G
  cases hs : D.sym with
  | N => exact main (by simpa [hs] using hA)
  | nul => exact main (by simpa [hs] using hA)
  | S =>
    simp only
    obtain ⟨e, hsy⟩ := hS.sym hs
    rw [if_pos (Or.inl hs)] at hA
    rw [C39_vector_product_global_to_global h hA hU (x := x) (by rw [← e]; exact hx), e]
    refine if_ctx_congr Iff.rfl (fun hk => Finset.sum_congr rfl (fun l hl => ?_)) (fun _ => rfl)
    rw [hsy k (by omega) l (Finset.mem_range.1 hl)]
  | H =>
    simp only
    obtain ⟨e, hsy⟩ := hS.her hs
    rw [if_pos (Or.inr hs)] at hA
    have := C39_vector_product_global_to_global h hA hU (x := fun l => star (x l)) (inp := fun p => conjBuf D.tgt.n (inp p))
      (by intro r hr l hl; rw [conjBuf_get, if_pos (by omega), hx r hr l (by omega)]) out r k
    rw [conjBuf_get, this, e]
    by_cases hk : k < D.src.n
    · rw [if_pos hk, if_pos hk, if_pos hk, star_sum]
      refine Finset.sum_congr rfl (fun l hl => ?_)
      rw [star_mul', star_star, hsy k (by omega) l (Finset.mem_range.1 hl), star_star]
    · rw [if_neg hk, if_neg hk, if_neg hk]

/-- **C40.** `matrix_product_transp_global_to_global` (column major, `mu` columns). -/
theorem C40_transposed_matrix_product_global_to_global (h : D.OK) {M U : ℕ → ℕ → R} (hA : D.ActsForMatT M) (hU : D.InUser M U)
    (hS : D.SymOK U) {mu : ℕ} {x : ℕ → R} {inp : ℕ → Buf R} (hx : ∀ r < D.P, ∀ p < mu * D.tgt.n, inp r p = x p) (out : ℕ → Buf R) (r : ℕ) :
    (∀ c < mu, ∀ k < D.src.n, D.matTG2G inp out mu r (c * D.src.n + k) = ∑ l ∈ range D.tgt.n, U l k * x (c * D.tgt.n + l)) ∧
    (∀ p, mu * D.src.n ≤ p → D.matTG2G inp out mu r p = out r p) := by
  have main : D.ActsMatT M → ∀ q, q = (fun p => toRM mu (D.tgt.size p) (fun i =>
      (if D.usePerm then D.tgt.g2p ((inp p).from' (i * D.tgt.n)) (fun _ => 0) else (inp p).from' (i * D.tgt.n)).from' (D.tgt.off p)) (fun _ => 0)) →
      ∀ z : Buf R, z = (if D.usePerm then
        (List.range mu).foldl (fun o i => Buf.at' (i * D.src.n) (D.src.p2g (fun j => D.matTL2G q (fun _ _ => 0) mu r (i + j * mu))) o) (out r)
        else toCM mu D.src.n (D.matTL2G q (fun _ _ => 0) mu r) (out r)) →
      (∀ c < mu, ∀ k < D.src.n, z (c * D.src.n + k) = ∑ l ∈ range D.tgt.n, U l k * x (c * D.tgt.n + l)) ∧
      (∀ p, mu * D.src.n ≤ p → z p = out r p) := by
    intro hA q hq z hz
    have hin : ∀ p < D.P, ∀ i < D.tgt.size p, ∀ c < mu, q p (i * mu + c) = x (c * D.tgt.n + D.tnum (D.tgt.off p + i)) := by
      intro p hp i hi c hc
      rw [hq]
      simp only
      rw [toRM_get _ _ hc, if_pos hi]
      have hlt : D.tgt.off p + i < D.tgt.n := by have := h.tgt.bound hp; omega
      show (if D.usePerm then D.tgt.g2p ((inp p).from' (c * D.tgt.n)) (fun _ => 0) else (inp p).from' (c * D.tgt.n)) (D.tgt.off p + i) = _
      rw [DOp.g2p_tnum _ hlt]
      apply hx p hp
      have := DOp.tnum_lt h.tgt hlt
      calc c * D.tgt.n + D.tnum (D.tgt.off p + i) < c * D.tgt.n + D.tgt.n := by omega
        _ = (c + 1) * D.tgt.n := by ring
        _ ≤ mu * D.tgt.n := Nat.mul_le_mul_right _ hc
    have hprod : ∀ k < D.src.n, ∀ c < mu, D.matTL2G q (fun _ _ => 0) mu r (k * mu + c) =
        ∑ l ∈ range D.tgt.n, U l (D.snum k) * x (c * D.tgt.n + l) := by
      intro k hk c hc
      rw [DOp.matTL2G_get h hA (f := fun i c => x (c * D.tgt.n + D.tnum i)) hin _ r hc hk]
      exact DOp.user_sumT h hU (fun l => x (c * D.tgt.n + l)) hk
    cases hp : D.usePerm with
    | false =>
      simp only [hp, Bool.false_eq_true, if_false] at hz
      rw [hz]
      refine ⟨fun c hc k hk => ?_, fun p hp => toCM_frame _ _ hp⟩
      rw [toCM_get _ _ hk, if_pos hc, hprod k hk c hc]
      simp [DOp.snum, hp]
    | true =>
      simp only [hp, if_true] at hz
      rw [hz]
      refine foldl_cols (v := fun c k => ∑ l ∈ range D.tgt.n, U l k * x (c * D.tgt.n + l)) ?_ ?_ (out r)
      · intro c hc o k hk
        obtain ⟨i, hi, rfl⟩ := h.src.surj hk
        rw [(h.src.p2g_get _ _).1 i hi, Nat.add_comm, hprod i hi c hc]
        simp [DOp.snum, hp]
      · intro c hc o k hk
        exact (h.src.p2g_get _ _).2 k hk
  unfold DOp.ActsForMatT at hA
  unfold DOp.matTG2G
  cases hs : D.sym with
  | N => exact main (by simpa [hs] using hA) _ rfl _ rfl
  | nul => exact main (by simpa [hs] using hA) _ rfl _ rfl
  | S =>
    simp only
    obtain ⟨e, hsy⟩ := hS.sym hs
    rw [if_pos (Or.inl hs)] at hA
    obtain ⟨g1, g2⟩ := C39_matrix_product_global_to_global h hA hU (mu := mu) (x := x) (by rw [← e]; exact hx) out r
    rw [e] at g1 g2 ⊢
    refine ⟨fun c hc k hk => ?_, g2⟩
    rw [g1 c hc k hk]
    refine Finset.sum_congr rfl (fun l hl => ?_)
    rw [hsy k (by omega) l (Finset.mem_range.1 hl)]
  | H =>
    simp only
    obtain ⟨e, hsy⟩ := hS.her hs
    rw [if_pos (Or.inr hs)] at hA
    obtain ⟨g1, g2⟩ := C39_matrix_product_global_to_global h hA hU (mu := mu) (x := fun l => star (x l))
      (inp := fun p => conjBuf (D.tgt.n * mu) (inp p))
      (by intro r hr l hl; rw [conjBuf_get, if_pos (by rw [e, Nat.mul_comm]; exact hl), hx r hr l (by rw [e]; exact hl)]) out r
    rw [e] at g1 g2 ⊢
    constructor
    · intro c hc k hk
      have hlt : c * D.src.n + k < mu * D.src.n := by
        calc c * D.src.n + k < c * D.src.n + D.src.n := by omega
          _ = (c + 1) * D.src.n := by ring
          _ ≤ mu * D.src.n := Nat.mul_le_mul_right _ hc
      rw [conjBuf_get, if_pos hlt, g1 c hc k hk, star_sum]
      refine Finset.sum_congr rfl (fun l hl => ?_)
      rw [star_mul', star_star, hsy k (by omega) l (Finset.mem_range.1 hl), star_star]
    · intro p hp
      rw [conjBuf_get, if_neg (by omega), g2 p hp]

/-! ## C41: local to local -/

omit [CommRing R] [StarRing R] in
theorem Part.l2p_get {p : Part} {P r : ℕ} (h : p.Local P) (hr : r < P) {b : Buf R} {x : ℕ → R} (hx : ∀ l < p.size r, b l = x (p.off r + l))
    (o : Buf R) {i : ℕ} (hi : i < p.size r) : p.l2p r b o i = x (p.perm.getD (p.off r + i) 0) := by
  unfold Part.l2p
  rw [(userToCluster_spec _ _ _ _ _).1 i hi, getD_userIdx (h r hr) hi]
  obtain ⟨-, -, -, h4⟩ := userIdx_eq (h r hr) hi
  exact hx _ h4

omit [CommRing R] [StarRing R] in
theorem Part.p2l_get {p : Part} {P r : ℕ} (h : p.Local P) (hr : r < P) {b : Buf R} {x : ℕ → R}
    (hb : ∀ i < p.size r, b i = x (p.perm.getD (p.off r + i) 0)) (o : Buf R) (k : ℕ) :
    p.p2l r b o k = if k < p.size r then x (p.off r + k) else o k := by
  unfold Part.p2l
  obtain ⟨h1, h2⟩ := clusterToUser_spec (h r hr) b o
  split_ifs with hk
  · obtain ⟨i, hi, rfl⟩ := userIdx_surj (h r hr) hk
    rw [h1 i hi, hb i hi, getD_userIdx (h r hr) hi]
  · exact h2 k (by omega)

/-- Each rank holds its part of a vector `x`, in the numbering of the caller. -/
def Part.Holds (p : Part) (P : ℕ) (x : ℕ → R) (b : ℕ → Buf R) : Prop := ∀ r < P, ∀ l < p.size r, b r l = x (p.off r + l)

/-- Each rank holds its part of the `mu` columns of a matrix, column major. -/
def Part.HoldsCols (p : Part) (P mu : ℕ) (x : ℕ → ℕ → R) (b : ℕ → Buf R) : Prop :=
  ∀ r < P, ∀ c < mu, ∀ l < p.size r, b r (c * p.size r + l) = x (p.off r + l) c

theorem DOp.intVecL2L_get (h : D.OK) {M : ℕ → ℕ → R} (hA : D.ActsVec M) {f : ℕ → R} {inp : ℕ → Buf R} (hx : D.src.Holds D.P f inp)
    (out work : ℕ → Buf R) {r : ℕ} (hr : r < D.P) (k : ℕ) :
    D.intVecL2L inp out work r k = if k < D.tgt.size r then ∑ j ∈ range D.src.n, M (D.tgt.off r + k) j * f j else out r k := by
  unfold DOp.intVecL2L DOp.l2gSource
  rw [DOp.vecG2L_get hA hr]
  refine if_congr Iff.rfl (Finset.sum_congr rfl (fun j hj => ?_)) rfl
  simp only [Nat.mul_one]
  rw [h.src.gather (f := f) hx, if_pos (Finset.mem_range.1 hj)]

theorem DOp.intMatL2L_get (h : D.OK) {M : ℕ → ℕ → R} (hA : D.ActsMat M) {mu : ℕ} {f : ℕ → ℕ → R} {inp : ℕ → Buf R}
    (hx : ∀ p < D.P, ∀ i < D.src.size p, ∀ c < mu, inp p (i * mu + c) = f (D.src.off p + i) c)
    (out work : ℕ → Buf R) {r : ℕ} (hr : r < D.P) {c : ℕ} (hc : c < mu) (k : ℕ) :
    D.intMatL2L inp out work mu r (k * mu + c) =
      if k < D.tgt.size r then ∑ j ∈ range D.src.n, M (D.tgt.off r + k) j * f j c else out r (k * mu + c) := by
  unfold DOp.intMatL2L DOp.l2gSource
  rw [DOp.matG2L_get hA hr _ _ hc]
  refine if_congr Iff.rfl (Finset.sum_congr rfl (fun j hj => ?_)) rfl
  rw [h.src.gatherRM (f := f) hx _ hc (Finset.mem_range.1 hj)]

omit [CommRing R] [StarRing R] in
theorem Part.OK.gatherRM_all {p : Part} {P : ℕ} (h : p.OK P) (send : ℕ → Buf R) (out : Buf R) (mu : ℕ) :
    (∀ q < P, ∀ i < p.size q, ∀ c < mu, allgatherv P (fun i => p.size i * mu) send out ((p.off q + i) * mu + c) = send q (i * mu + c)) ∧
    (∀ k, p.n * mu ≤ k → allgatherv P (fun i => p.size i * mu) send out k = out k) := by
  refine ⟨fun q hq i hi c hc => ?_, fun k hk => allgatherv_frame send out ?_⟩
  · have : (p.off q + i) * mu + c = displs (fun i => p.size i * mu) q + (i * mu + c) := by
      rw [displs_mul, h.off_eq hq, Nat.add_mul, Nat.add_assoc]
    rw [this, allgatherv_get send out hq ((pos_lt hc).2 hi)]
  · rw [displs_mul, h.total]; exact hk

/-- **C41.** `local_to_global_source` and `local_to_global_target`: every rank ends with the rows of all ranks, `mu` values each, one after the other in the
order of the partition; nothing is written behind them. -/
theorem C41_local_to_global (h : D.OK) (inp out : ℕ → Buf R) (mu r : ℕ) :
    ((∀ p < D.P, ∀ i < D.src.size p, ∀ c < mu, D.l2gSource inp out mu r ((D.src.off p + i) * mu + c) = inp p (i * mu + c)) ∧
      ∀ k, D.src.n * mu ≤ k → D.l2gSource inp out mu r k = out r k) ∧
    ((∀ p < D.P, ∀ i < D.tgt.size p, ∀ c < mu, D.l2gTarget inp out mu r ((D.tgt.off p + i) * mu + c) = inp p (i * mu + c)) ∧
      ∀ k, D.tgt.n * mu ≤ k → D.l2gTarget inp out mu r k = out r k) :=
  ⟨h.src.gatherRM_all inp (out r) mu, h.tgt.gatherRM_all inp (out r) mu⟩

/-- **C41.** `vector_product_local_to_local`: when each rank passes its part of a vector, it gets its part of the product, in the local
numbering of the caller. Nothing else is written, and the content of the work buffer does not matter. -/
theorem C41_vector_product_local_to_local (h : D.OK) (hl : D.Local) {M U : ℕ → ℕ → R} (hA : D.ActsVec M) (hU : D.InUser M U) {x : ℕ → R}
    {inp : ℕ → Buf R} (hx : D.src.Holds D.P x inp) (out work : ℕ → Buf R) {r : ℕ} (hr : r < D.P) (k : ℕ) :
    D.vecL2L inp out work r k =
      if k < D.tgt.size r then ∑ l ∈ range D.src.n, U (D.tgt.off r + k) l * x l else out r k := by
  have hb := h.tgt.bound hr
  unfold DOp.vecL2L
  cases hp : D.usePerm with
  | false =>
    simp only [Bool.false_eq_true, if_false]
    rw [DOp.intVecL2L_get h hA hx out work hr]
    refine if_ctx_congr Iff.rfl (fun hk => ?_) (fun _ => rfl)
    have := DOp.user_sum h hU x (i := D.tgt.off r + k) (by omega)
    simpa [DOp.snum, DOp.tnum, hp] using this
  | true =>
    simp only [if_true]
    rw [Part.p2l_get (hl.tgt hp) hr (x := fun i => ∑ l ∈ range D.src.n, U i l * x l)]
    intro i hi
    rw [DOp.intVecL2L_get h hA (f := fun j => x (D.snum j)) _ _ work hr, if_pos hi, DOp.user_sum h hU x (by omega)]
    · simp [DOp.tnum, hp]
    · intro p hp' l hl'
      simp only
      rw [Part.l2p_get (hl.src hp) hp' (hx p hp') _ hl']
      simp [DOp.snum, hp]

/-- **C41.** `matrix_product_local_to_local` (column major, `mu` columns). -/
theorem C41_matrix_product_local_to_local (h : D.OK) (hl : D.Local) {M U : ℕ → ℕ → R} (hA : D.ActsMat M) (hU : D.InUser M U) {mu : ℕ}
    {x : ℕ → ℕ → R} {inp : ℕ → Buf R} (hx : D.src.HoldsCols D.P mu x inp) (out work : ℕ → Buf R) {r : ℕ} (hr : r < D.P) :
    (∀ c < mu, ∀ k < D.tgt.size r, D.matL2L inp out work mu r (c * D.tgt.size r + k) =
      ∑ l ∈ range D.src.n, U (D.tgt.off r + k) l * x l c) ∧
    (∀ p, mu * D.tgt.size r ≤ p → D.matL2L inp out work mu r p = out r p) := by
  have hb := h.tgt.bound hr
  have hin : ∀ p < D.P, ∀ i < D.src.size p, ∀ c < mu, toRM mu (D.src.size p) (fun i =>
      if D.usePerm then D.src.l2p p ((inp p).from' (i * D.src.size p)) (fun _ => 0) else (inp p).from' (i * D.src.size p)) (fun _ => 0)
      (i * mu + c) = x (D.snum (D.src.off p + i)) c := by
    intro p hp i hi c hc
    rw [toRM_get _ _ hc, if_pos hi]
    unfold DOp.snum
    split_ifs with hu
    · exact Part.l2p_get (hl.src hu) hp (x := fun i => x i c) (fun l hl' => hx p hp c hc l hl') _ hi
    · exact hx p hp c hc i hi
  have hprod := fun c (hc : c < mu) k => DOp.intMatL2L_get h hA (f := fun j c => x (D.snum j) c) hin (fun _ _ => 0) work hr hc k
  have hval : ∀ c < mu, ∀ k < D.tgt.size r, ∑ j ∈ range D.src.n, M (D.tgt.off r + k) j * x (D.snum j) c =
      ∑ l ∈ range D.src.n, U (D.tnum (D.tgt.off r + k)) l * x l c :=
    fun c _ k hk => DOp.user_sum h hU (fun l => x l c) (by omega)
  unfold DOp.matL2L
  cases hp : D.usePerm with
  | false =>
    simp only [hp, Bool.false_eq_true, if_false] at hprod ⊢
    refine ⟨fun c hc k hk => ?_, fun p hp => toCM_frame _ _ hp⟩
    rw [toCM_get _ _ hk, if_pos hc, hprod c hc k, if_pos hk, hval c hc k hk]
    simp [DOp.tnum, hp]
  | true =>
    simp only [hp, if_true] at hprod ⊢
    refine foldl_cols (v := fun c k => ∑ l ∈ range D.src.n, U (D.tgt.off r + k) l * x l c) ?_ ?_ (out r)
    · intro c hc o k hk
      rw [Part.p2l_get (hl.tgt hp) hr (x := fun i => ∑ l ∈ range D.src.n, U i l * x l c), if_pos hk]
      intro i hi
      rw [Nat.add_comm, hprod c hc i, if_pos hi, hval c hc i hi]
      simp [DOp.tnum, hp]
    · intro c hc o k hk
      exact (clusterToUser_spec (hl.tgt hp r hr) _ o).2 k hk

/-! ### Transposed local products -/

theorem DOp.exchange_get (h : D.OK) (buf work out : ℕ → Buf R) (mu : ℕ) {r : ℕ} (hr : r < D.P) (k : ℕ) :
    D.exchange buf work out mu r k =
      if k < D.src.size r * mu then out r k + ∑ p ∈ range D.P, buf p (D.src.off r * mu + k) else out r k := by
  have e : D.exchange buf work out mu r = (List.range D.P).foldl (fun o i => addN (D.src.size r * mu)
      ((alltoallv D.P (fun i => D.src.size i * mu) buf r (fun _ => D.src.size r * mu) (work r)).from'
        (displs (fun _ => D.src.size r * mu) i)) o) (out r) := rfl
  rw [e]
  have key : ∀ P, P ≤ D.P → ∀ k, (List.range P).foldl (fun o i => addN (D.src.size r * mu)
      ((alltoallv D.P (fun i => D.src.size i * mu) buf r (fun _ => D.src.size r * mu) (work r)).from'
        (displs (fun _ => D.src.size r * mu) i)) o) (out r) k =
      if k < D.src.size r * mu then out r k + ∑ p ∈ range P, buf p (D.src.off r * mu + k) else out r k := by
    intro P
    induction P with
    | zero => intro _ k; simp
    | succ P ih =>
      intro hP k
      rw [List.range_succ, List.foldl_append]
      simp only [List.foldl_cons, List.foldl_nil]
      unfold addN
      have ih' := ih (by omega) k
      unfold addN at ih'
      rw [ih']
      by_cases hk : k < D.src.size r * mu
      · rw [if_pos hk, if_pos hk, if_pos hk, Finset.sum_range_succ, ← add_assoc]
        congr 1
        unfold Buf.from'
        rw [alltoallv_get buf _ (show P < D.P by omega) hk, displs_mul, h.src.off_eq hr]
      · rw [if_neg hk, if_neg hk, if_neg hk]
  exact key D.P le_rfl k

theorem DOp.intVecTL2L_get (h : D.OK) (hs : D.sym ≠ .S ∧ D.sym ≠ .H) {M : ℕ → ℕ → R} (hA : D.ActsVecT M) {f : ℕ → R} {inp : ℕ → Buf R}
    (hx : D.tgt.Holds D.P f inp) (out work : ℕ → Buf R) {r : ℕ} (hr : r < D.P) (k : ℕ) :
    D.intVecTL2L inp out work r k =
      if k < D.src.size r then ∑ i ∈ range D.tgt.n, M i (D.src.off r + k) * f i else out r k := by
  unfold DOp.intVecTL2L
  rw [if_neg (by simp [hs.1, hs.2]), DOp.exchange_get h _ _ _ _ hr, Nat.mul_one, Nat.mul_one]
  by_cases hk : k < D.src.size r
  · have hb := h.src.bound hr
    rw [if_pos hk, if_pos hk, fill0_zero _ _ k hk, zero_add, ← h.tgt.sum (fun i => M i (D.src.off r + k) * f i)]
    apply Finset.sum_congr rfl
    intro p hp
    have hp := Finset.mem_range.1 hp
    rw [hA p hp _ _ (fill0_zero _ _), if_pos (by omega)]
    exact Finset.sum_congr rfl (fun i hi => by rw [hx p hp i (Finset.mem_range.1 hi)])
  · rw [if_neg hk, if_neg hk, fill0_frame _ (by omega)]

theorem DOp.intMatTL2L_get (h : D.OK) (hs : D.sym ≠ .S ∧ D.sym ≠ .H) {M : ℕ → ℕ → R} (hA : D.ActsMatT M) {mu : ℕ} {f : ℕ → ℕ → R}
    {inp : ℕ → Buf R} (hx : ∀ p < D.P, ∀ i < D.tgt.size p, ∀ c < mu, inp p (i * mu + c) = f (D.tgt.off p + i) c)
    (out work : ℕ → Buf R) {r : ℕ} (hr : r < D.P) {c : ℕ} (hc : c < mu) (k : ℕ) :
    D.intMatTL2L inp out work mu r (k * mu + c) =
      if k < D.src.size r then out r (k * mu + c) + ∑ i ∈ range D.tgt.n, M i (D.src.off r + k) * f i c else out r (k * mu + c) := by
  unfold DOp.intMatTL2L
  rw [if_neg (by simp [hs.1, hs.2]), DOp.exchange_get h _ _ _ _ hr]
  refine if_ctx_congr (pos_lt hc) (fun hk => ?_) (fun _ => rfl)
  have hb := h.src.bound hr
  rw [← h.tgt.sum (fun i => M i (D.src.off r + k) * f i c)]
  congr 1
  apply Finset.sum_congr rfl
  intro p hp
  have hp := Finset.mem_range.1 hp
  rw [show D.src.off r * mu + (k * mu + c) = (D.src.off r + k) * mu + c by ring, hA p hp mu _ _ (fill0_zero _ _) c hc, if_pos (by omega)]
  exact Finset.sum_congr rfl (fun i hi => by rw [hx p hp i (Finset.mem_range.1 hi) c hc])

/-- Rows and columns of a symmetric operator are distributed in the same way. -/
def DOp.SameParts (D : DOp R) : Prop := D.sym = .S ∨ D.sym = .H → D.tgt.parts = D.src.parts

theorem DOp.SameParts.eq (h : D.SameParts) (hs : D.sym = .S ∨ D.sym = .H) :
    (∀ r, D.tgt.off r = D.src.off r) ∧ (∀ r, D.tgt.size r = D.src.size r) := by
  have := h hs
  exact ⟨fun r => by unfold Part.off; rw [this], fun r => by unfold Part.size; rw [this]⟩

/-- **C41.** `vector_product_transp_local_to_local`: each rank gets its part of the product with the transpose. -/
theorem C41_transposed_vector_product_local_to_local (h : D.OK) (hl : D.Local) {M U : ℕ → ℕ → R} (hA : D.ActsForVecT M) (hU : D.InUser M U)
    (hS : D.SymOK U) (hp : D.SameParts) {x : ℕ → R} {inp : ℕ → Buf R} (hx : D.tgt.Holds D.P x inp) (out work : ℕ → Buf R) {r : ℕ}
    (hr : r < D.P) (k : ℕ) :
    D.vecTL2L inp out work r k =
      if k < D.src.size r then ∑ l ∈ range D.tgt.n, U l (D.src.off r + k) * x l else out r k := by
  have hb := h.src.bound hr
  have main : (D.sym ≠ .S ∧ D.sym ≠ .H) → D.ActsVecT M → (if D.usePerm then
      fun r => D.src.p2l r (D.intVecTL2L (fun p => D.tgt.l2p p (inp p) (fun _ => 0)) (fun _ _ => 0) work r) (out r)
      else D.intVecTL2L inp out work) r k =
      if k < D.src.size r then ∑ l ∈ range D.tgt.n, U l (D.src.off r + k) * x l else out r k := by
    intro hs hA
    cases hu : D.usePerm with
    | false =>
      simp only [Bool.false_eq_true, if_false]
      rw [DOp.intVecTL2L_get h hs hA hx out work hr]
      refine if_ctx_congr Iff.rfl (fun hk => ?_) (fun _ => rfl)
      have := DOp.user_sumT h hU x (j := D.src.off r + k) (by omega)
      simpa [DOp.snum, DOp.tnum, hu] using this
    | true =>
      simp only [if_true]
      rw [Part.p2l_get (hl.src hu) hr (x := fun i => ∑ l ∈ range D.tgt.n, U l i * x l)]
      intro i hi
      rw [DOp.intVecTL2L_get h hs hA (f := fun j => x (D.tnum j)) _ _ work hr, if_pos hi, DOp.user_sumT h hU x (by omega)]
      · simp [DOp.snum, hu]
      · intro p hp' l hl'
        simp only
        rw [Part.l2p_get (hl.tgt hu) hp' (hx p hp') _ hl']
        simp [DOp.tnum, hu]
  unfold DOp.ActsForVecT at hA
  unfold DOp.vecTL2L
  cases hs : D.sym with
  | N => exact main (by simp [hs]) (by simpa [hs] using hA)
  | nul => exact main (by simp [hs]) (by simpa [hs] using hA)
  | S =>
    simp only
    obtain ⟨e, hsy⟩ := hS.sym hs
    obtain ⟨e1, e2⟩ := hp.eq (Or.inl hs)
    rw [if_pos (Or.inl hs)] at hA
    rw [C41_vector_product_local_to_local h hl hA hU (x := x) (fun r hr l hl' => by rw [← e1]; exact hx r hr l (by rw [e2]; exact hl')) out work hr,
      e1, e2, e]
    refine if_ctx_congr Iff.rfl (fun hk => Finset.sum_congr rfl (fun l hl => ?_)) (fun _ => rfl)
    rw [hsy _ (by omega) l (Finset.mem_range.1 hl)]
  | H =>
    simp only
    obtain ⟨e, hsy⟩ := hS.her hs
    obtain ⟨e1, e2⟩ := hp.eq (Or.inr hs)
    rw [if_pos (Or.inr hs)] at hA
    have := C41_vector_product_local_to_local h hl hA hU (x := fun l => star (x l)) (inp := fun p => conjBuf (D.tgt.size p) (inp p))
      (fun r hr l hl' => by beta_reduce; rw [conjBuf_get, if_pos (by rw [e2]; exact hl'), ← e1, hx r hr l (by rw [e2]; exact hl')]) out work hr k
    rw [conjBuf_get, this, e1, e2, e]
    by_cases hk : k < D.src.size r
    · rw [if_pos hk, if_pos hk, if_pos hk, star_sum]
      refine Finset.sum_congr rfl (fun l hl => ?_)
      rw [star_mul', star_star, hsy _ (by omega) l (Finset.mem_range.1 hl), star_star]
    · rw [if_neg hk, if_neg hk, if_neg hk]

/-- **C41.** `matrix_product_transp_local_to_local` (column major, `mu` columns). -/
theorem C41_transposed_matrix_product_local_to_local (h : D.OK) (hl : D.Local) {M U : ℕ → ℕ → R} (hA : D.ActsForMatT M) (hU : D.InUser M U)
    (hS : D.SymOK U) (hp : D.SameParts) {mu : ℕ} {x : ℕ → ℕ → R} {inp : ℕ → Buf R} (hx : D.tgt.HoldsCols D.P mu x inp)
    (out work : ℕ → Buf R) {r : ℕ} (hr : r < D.P) :
    (∀ c < mu, ∀ k < D.src.size r, D.matTL2L inp out work mu r (c * D.src.size r + k) =
      ∑ l ∈ range D.tgt.n, U l (D.src.off r + k) * x l c) ∧
    (∀ p, mu * D.src.size r ≤ p → D.matTL2L inp out work mu r p = out r p) := by
  have hb := h.src.bound hr
  have main : (D.sym ≠ .S ∧ D.sym ≠ .H) → D.ActsMatT M → ∀ q, q = (fun p => toRM mu (D.tgt.size p) (fun i =>
      if D.usePerm then D.tgt.l2p p ((inp p).from' (i * D.tgt.size p)) (fun _ => 0) else (inp p).from' (i * D.tgt.size p)) (fun _ => 0)) →
      ∀ z : Buf R, z = (if D.usePerm then
        (List.range mu).foldl (fun o i => Buf.at' (i * D.src.size r)
          (D.src.p2l r (fun j => D.intMatTL2L q (fun _ _ => 0) work mu r (i + j * mu))) o) (out r)
        else toCM mu (D.src.size r) (D.intMatTL2L q (fun _ _ => 0) work mu r) (out r)) →
      (∀ c < mu, ∀ k < D.src.size r, z (c * D.src.size r + k) = ∑ l ∈ range D.tgt.n, U l (D.src.off r + k) * x l c) ∧
      (∀ p, mu * D.src.size r ≤ p → z p = out r p) := by
    intro hs hA q hq z hz
    have hin : ∀ p < D.P, ∀ i < D.tgt.size p, ∀ c < mu, q p (i * mu + c) = x (D.tnum (D.tgt.off p + i)) c := by
      intro p hp i hi c hc
      rw [hq]
      simp only
      rw [toRM_get _ _ hc, if_pos hi]
      unfold DOp.tnum
      split_ifs with hu
      · exact Part.l2p_get (hl.tgt hu) hp (x := fun i => x i c) (fun l hl' => hx p hp c hc l hl') _ hi
      · exact hx p hp c hc i hi
    have hprod : ∀ k < D.src.size r, ∀ c < mu, D.intMatTL2L q (fun _ _ => 0) work mu r (k * mu + c) =
        ∑ l ∈ range D.tgt.n, U l (D.snum (D.src.off r + k)) * x l c := by
      intro k hk c hc
      rw [DOp.intMatTL2L_get h hs hA (f := fun i c => x (D.tnum i) c) hin (fun _ _ => 0) work hr hc, if_pos hk, zero_add]
      exact DOp.user_sumT h hU (fun l => x l c) (by omega)
    cases hu : D.usePerm with
    | false =>
      simp only [hu, Bool.false_eq_true, if_false] at hz
      rw [hz]
      refine ⟨fun c hc k hk => ?_, fun p hp => toCM_frame _ _ hp⟩
      rw [toCM_get _ _ hk, if_pos hc, hprod k hk c hc]
      simp [DOp.snum, hu]
    | true =>
      simp only [hu, if_true] at hz
      rw [hz]
      refine foldl_cols (v := fun c k => ∑ l ∈ range D.tgt.n, U l (D.src.off r + k) * x l c) ?_ ?_ (out r)
      · intro c hc o k hk
        rw [Part.p2l_get (hl.src hu) hr (x := fun i => ∑ l ∈ range D.tgt.n, U l i * x l c), if_pos hk]
        intro i hi
        rw [Nat.add_comm, hprod i hi c hc]
        simp [DOp.snum, hu]
      · intro c hc o k hk
        exact (clusterToUser_spec (hl.src hu r hr) _ o).2 k hk
  unfold DOp.ActsForMatT at hA
  unfold DOp.matTL2L
  cases hs : D.sym with
  | N => exact main (by simp [hs]) (by simpa [hs] using hA) _ rfl _ rfl
  | nul => exact main (by simp [hs]) (by simpa [hs] using hA) _ rfl _ rfl
  | S =>
    simp only
    obtain ⟨e, hsy⟩ := hS.sym hs
    obtain ⟨e1, e2⟩ := hp.eq (Or.inl hs)
    rw [if_pos (Or.inl hs)] at hA
    obtain ⟨g1, g2⟩ := C41_matrix_product_local_to_local h hl hA hU (mu := mu) (x := x) (inp := inp)
      (fun r hr c hc l hl' => by rw [← e1, ← e2]; exact hx r hr c hc l (by rw [e2]; exact hl')) out work hr
    rw [e1, e2] at g1
    rw [e2] at g2
    refine ⟨fun c hc k hk => ?_, g2⟩
    rw [g1 c hc k hk, e]
    refine Finset.sum_congr rfl (fun l hl => ?_)
    rw [hsy _ (by omega) l (Finset.mem_range.1 hl)]
  | H =>
    simp only
    obtain ⟨e, hsy⟩ := hS.her hs
    obtain ⟨e1, e2⟩ := hp.eq (Or.inr hs)
    rw [if_pos (Or.inr hs)] at hA
    have lt : ∀ (n c k : ℕ), c < mu → k < n → c * n + k < n * mu := by
      intro n c k hc hk
      calc c * n + k < c * n + n := by omega
        _ = (c + 1) * n := by ring
        _ ≤ mu * n := Nat.mul_le_mul_right _ hc
        _ = n * mu := Nat.mul_comm _ _
    obtain ⟨g1, g2⟩ := C41_matrix_product_local_to_local h hl hA hU (mu := mu) (x := fun l c => star (x l c))
      (inp := fun p => conjBuf (D.tgt.size p * mu) (inp p))
      (fun r hr c hc l hl' => by
        beta_reduce
        rw [conjBuf_get, if_pos (by rw [e2]; exact lt _ _ _ hc hl'), ← e1, ← e2, hx r hr c hc l (by rw [e2]; exact hl')]) out work hr
    rw [e1, e2] at g1
    rw [e2] at g2
    constructor
    · intro c hc k hk
      rw [conjBuf_get, if_pos (lt _ _ _ hc hk), g1 c hc k hk, star_sum, e]
      refine Finset.sum_congr rfl (fun l hl => ?_)
      rw [star_mul', star_star, hsy _ (by omega) l (Finset.mem_range.1 hl), star_star]
    · intro p hp
      rw [conjBuf_get, if_neg (by rw [Nat.mul_comm]; omega), g2 p hp]

end Htool
