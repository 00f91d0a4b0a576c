import Verif.Props.DistributedT

/-! # Properties C42 and C43: several local operators -/

namespace Htool
variable {R : Type*} [CommRing R] [StarRing R]
open Finset

/-! ## Specification -/

/-- The columns `[soff, soff + ssz)` of a block hold `N`, the others are zero. -/
def blockOf (soff ssz : ℕ) (N : ℕ → ℕ → R) (i j : ℕ) : R := if soff ≤ j ∧ j < soff + ssz then N i (j - soff) else 0

/-- The matrix of a list of local operators (each with its matrix in the numbering of its caller): the sum of the blocks. -/
def sumBlocks (L : List (LocalOp R × (ℕ → ℕ → R))) (i j : ℕ) : R := (L.map (fun p => blockOf p.1.soff p.1.ssz p.2 i j)).sum

/-- The local operators of rank `r`, each with its matrix: they have the kernels of their matrices, cover the rows of the rank and lie
within the columns. -/
structure DOp.RankOps (D : DOp R) (r : ℕ) (L : List (LocalOp R × (ℕ → ℕ → R))) : Prop where
  eq : D.ops r = L.map (fun p => p.1.toVLO)
  kernel : ∀ p ∈ L, ∃ M, p.1.KernelOK M ∧ p.1.InUser M p.2
  perm : ∀ p ∈ L, p.1.PermOK
  sym : ∀ p ∈ L, p.1.sym ≠ .nul
  rows : ∀ p ∈ L, p.1.tsz = D.tgt.size r
  cols : ∀ p ∈ L, p.1.soff + p.1.ssz ≤ D.src.n

/-- `M` is, rank by rank, the sum of the blocks of the local operators. -/
def DOp.IsSum (D : DOp R) (L : ℕ → List (LocalOp R × (ℕ → ℕ → R))) (M : ℕ → ℕ → R) : Prop :=
  ∀ r < D.P, ∀ i < D.tgt.size r, ∀ j < D.src.n, M (D.tgt.off r + i) j = sumBlocks (L r) i j

/-! ## Lemmas -/

omit [StarRing R] in
theorem sum_blockOf {soff ssz n : ℕ} (h : soff + ssz ≤ n) (N : ℕ → ℕ → R) (i : ℕ) (f : ℕ → R) :
    ∑ j ∈ range n, blockOf soff ssz N i j * f j = ∑ l ∈ range ssz, N i l * f (soff + l) := by
  obtain ⟨m, rfl⟩ := Nat.exists_eq_add_of_le h
  rw [Finset.sum_range_add, Finset.sum_range_add]
  have h1 : ∑ j ∈ range soff, blockOf soff ssz N i j * f j = 0 :=
    Finset.sum_eq_zero (fun j hj => by
      have := Finset.mem_range.1 hj
      unfold blockOf; rw [if_neg (by omega), zero_mul])
  have h3 : ∑ j ∈ range m, blockOf soff ssz N i (soff + ssz + j) * f (soff + ssz + j) = 0 :=
    Finset.sum_eq_zero (fun j hj => by unfold blockOf; rw [if_neg (by omega), zero_mul])
  rw [h1, h3, zero_add, add_zero]
  refine Finset.sum_congr rfl (fun l hl => ?_)
  have := Finset.mem_range.1 hl
  unfold blockOf
  rw [if_pos (by omega), Nat.add_sub_cancel_left]

theorem sum_sumBlocks (L : List (LocalOp R × (ℕ → ℕ → R))) {n : ℕ} (h : ∀ p ∈ L, p.1.soff + p.1.ssz ≤ n) (i : ℕ) (f : ℕ → R) :
    ∑ j ∈ range n, sumBlocks L i j * f j = (L.map (fun p => ∑ l ∈ range p.1.ssz, p.2 i l * f (p.1.soff + l))).sum := by
  induction L with
  | nil => simp [sumBlocks]
  | cons p L ih =>
    have : ∀ j, sumBlocks (p :: L) i j * f j = blockOf p.1.soff p.1.ssz p.2 i j * f j + sumBlocks L i j * f j := by
      intro j; simp [sumBlocks, add_mul]
    simp only [this, Finset.sum_add_distrib, List.map_cons, List.sum_cons]
    rw [ih (fun q hq => h q (by simp [hq])), sum_blockOf (h p (by simp))]

variable {D : DOp R}

/-! ## C42 -/

theorem DOp.RankOps.opsVec {r : ℕ} {L : List (LocalOp R × (ℕ → ℕ → R))} (h : D.RankOps r L) (x y : Buf R) (i : ℕ) :
    D.opsVec r x y i = if i < D.tgt.size r then y i + ∑ j ∈ range D.src.n, sumBlocks L i j * x j else y i := by
  rw [sum_sumBlocks L h.cols]
  have key : ∀ l : List (LocalOp R × (ℕ → ℕ → R)), (∀ p ∈ l, p ∈ L) → ∀ y : Buf R,
      (l.map (fun p => p.1.toVLO)).foldl (fun o A => A.vec 1 x 1 o) y i =
      if i < D.tgt.size r then y i + (l.map (fun p => ∑ k ∈ range p.1.ssz, p.2 i k * x (p.1.soff + k))).sum else y i := by
    intro l
    induction l with
    | nil => intro _ y; simp
    | cons p l ih =>
      intro hl y
      simp only [List.map_cons, List.foldl_cons, List.sum_cons]
      rw [ih (fun q hq => hl q (by simp [hq]))]
      have hp := hl p (by simp)
      obtain ⟨M, hk, hu⟩ := h.kernel p hp
      have e := C21_vector_product hk (h.perm p hp) (h.sym p hp) hu 1 1 x y i
      rw [h.rows p hp] at e
      show (if i < D.tgt.size r then p.1.addVec 1 x 1 y i + _ else p.1.addVec 1 x 1 y i) = _
      rw [e]
      by_cases hi : i < D.tgt.size r
      · simp only [if_pos hi]; ring
      · simp only [if_neg hi]
  unfold DOp.opsVec
  rw [h.eq]
  exact key L (fun _ h => h) y

theorem DOp.RankOps.opsMat {r : ℕ} {L : List (LocalOp R × (ℕ → ℕ → R))} (h : D.RankOps r L) (hf : ∀ p ∈ L, p.1.tflag = false) (x y : Buf R)
    {mu c : ℕ} (hc : c < mu) (i : ℕ) :
    D.opsMat r x y mu (i * mu + c) =
      if i < D.tgt.size r then y (i * mu + c) + ∑ j ∈ range D.src.n, sumBlocks L i j * x (j * mu + c) else y (i * mu + c) := by
  rw [sum_sumBlocks L h.cols _ (fun j => x (j * mu + c))]
  have key : ∀ l : List (LocalOp R × (ℕ → ℕ → R)), (∀ p ∈ l, p ∈ L) → ∀ y : Buf R,
      (l.map (fun p => p.1.toVLO)).foldl (fun o A => A.mat 1 x 1 o mu) y (i * mu + c) =
      if i < D.tgt.size r then y (i * mu + c) + (l.map (fun p => ∑ k ∈ range p.1.ssz, p.2 i k * x ((p.1.soff + k) * mu + c))).sum
      else y (i * mu + c) := by
    intro l
    induction l with
    | nil => intro _ y; simp
    | cons p l ih =>
      intro hl y
      simp only [List.map_cons, List.foldl_cons, List.sum_cons]
      rw [ih (fun q hq => hl q (by simp [hq]))]
      have hp := hl p (by simp)
      obtain ⟨M, hk, hu⟩ := h.kernel p hp
      have e := C21_matrix_product_partial hk (h.perm p hp) (h.sym p hp) hu (hf p hp) 1 1 x y hc i
      rw [h.rows p hp] at e
      show (if i < D.tgt.size r then p.1.addMat 1 x 1 y mu (i * mu + c) + _ else p.1.addMat 1 x 1 y mu (i * mu + c)) = _
      rw [e]
      by_cases hi : i < D.tgt.size r
      · simp only [if_pos hi]; ring
      · simp only [if_neg hi]
  unfold DOp.opsMat
  rw [h.eq]
  exact key L (fun _ h => h) y

theorem sum_sumBlocks_col (L : List (LocalOp R × (ℕ → ℕ → R))) (n j : ℕ) (f : ℕ → R) :
    ∑ i ∈ range n, sumBlocks L i j * f i =
      (L.map (fun p => if p.1.soff ≤ j ∧ j < p.1.soff + p.1.ssz then ∑ i ∈ range n, p.2 i (j - p.1.soff) * f i else 0)).sum := by
  induction L with
  | nil => simp [sumBlocks]
  | cons p L ih =>
    have : ∀ i, sumBlocks (p :: L) i j * f i = blockOf p.1.soff p.1.ssz p.2 i j * f i + sumBlocks L i j * f i := by
      intro j; simp [sumBlocks, add_mul]
    simp only [this, Finset.sum_add_distrib, List.map_cons, List.sum_cons]
    rw [ih]
    congr 1
    unfold blockOf
    split_ifs
    · rfl
    · simp

theorem DOp.RankOps.opsVecT {r : ℕ} {L : List (LocalOp R × (ℕ → ℕ → R))} (h : D.RankOps r L) (hf : ∀ p ∈ L, p.1.tflag = false)
    (hs : ∀ p ∈ L, Supported R p.1.sym .T) (x y : Buf R) (j : ℕ) :
    D.opsVecT r x y j = if j < D.src.n then y j + ∑ i ∈ range (D.tgt.size r), sumBlocks L i j * x i else y j := by
  rw [sum_sumBlocks_col]
  have key : ∀ l : List (LocalOp R × (ℕ → ℕ → R)), (∀ p ∈ l, p ∈ L) → ∀ y : Buf R,
      (l.map (fun p => p.1.toVLO)).foldl (fun o A => A.vecT 1 x 1 o) y j =
      y j + (l.map (fun p => if p.1.soff ≤ j ∧ j < p.1.soff + p.1.ssz then
        ∑ i ∈ range (D.tgt.size r), p.2 i (j - p.1.soff) * x i else 0)).sum := by
    intro l
    induction l with
    | nil => intro _ y; simp
    | cons p l ih =>
      intro hl y
      simp only [List.map_cons, List.foldl_cons, List.sum_cons]
      rw [ih (fun q hq => hl q (by simp [hq]))]
      have hp := hl p (by simp)
      obtain ⟨M, hk, hu⟩ := h.kernel p hp
      have e := C21_transposed_vector_product_partial hk (h.perm p hp) (hs p hp) hu (hf p hp) 1 1 x y j
      rw [h.rows p hp] at e
      show p.1.addVecT 1 x 1 y j + _ = _
      rw [e]
      split_ifs <;> ring
  unfold DOp.opsVecT
  rw [h.eq, key L (fun _ h => h) y]
  split_ifs with hj
  · rfl
  · rw [List.sum_eq_zero, add_zero]
    intro v hv
    obtain ⟨p, hp, rfl⟩ := List.mem_map.1 hv
    have := h.cols p hp
    rw [if_neg (by omega)]

/-- **C42 (vector product).** With any list of local operators added on each rank, the products of the distributed operator are those of
the sum of their blocks. (The conclusion is the hypothesis of C39 and C41.) -/
theorem C42_vector_product_sums {L : ℕ → List (LocalOp R × (ℕ → ℕ → R))} (h : ∀ r < D.P, D.RankOps r (L r)) {M : ℕ → ℕ → R}
    (hM : D.IsSum L M) : D.ActsVec M := by
  intro r hr x y hy i
  rw [(h r hr).opsVec]
  refine if_ctx_congr Iff.rfl (fun hi => ?_) (fun _ => rfl)
  rw [hy i hi, zero_add]
  exact Finset.sum_congr rfl (fun j hj => by rw [hM r hr i hi j (Finset.mem_range.1 hj)])

/-- **C42 (matrix product).** The same with several columns, for operators without target permutation (with one the product is lost, see
`C21_matrix_product_with_target_permutation_is_lost`). -/
theorem C42_matrix_product_sums {L : ℕ → List (LocalOp R × (ℕ → ℕ → R))} (h : ∀ r < D.P, D.RankOps r (L r))
    (hf : ∀ r < D.P, ∀ p ∈ L r, p.1.tflag = false) {M : ℕ → ℕ → R} (hM : D.IsSum L M) : D.ActsMat M := by
  intro r hr mu x y hy c hc i
  rw [(h r hr).opsMat (hf r hr) x y hc]
  refine if_ctx_congr Iff.rfl (fun hi => ?_) (fun _ => rfl)
  rw [hy _ ((pos_lt hc).2 hi), zero_add]
  exact Finset.sum_congr rfl (fun j hj => by rw [hM r hr i hi j (Finset.mem_range.1 hj)])

/-- **C42 (transposed vector product).** For operators without target permutation and which support the product with the transpose. -/
theorem C42_transposed_vector_product_sums {L : ℕ → List (LocalOp R × (ℕ → ℕ → R))} (h : ∀ r < D.P, D.RankOps r (L r))
    (hf : ∀ r < D.P, ∀ p ∈ L r, p.1.tflag = false) (hs : ∀ r < D.P, ∀ p ∈ L r, Supported R p.1.sym .T) {M : ℕ → ℕ → R} (hM : D.IsSum L M) :
    D.ActsVecT M := by
  intro r hr x y hy j
  rw [(h r hr).opsVecT (hf r hr) (hs r hr)]
  refine if_ctx_congr Iff.rfl (fun hj => ?_) (fun _ => rfl)
  rw [hy j hj, zero_add]
  exact Finset.sum_congr rfl (fun i hi => by rw [hM r hr i (Finset.mem_range.1 hi) j hj])

theorem DOp.RankOps.opsMatT {r : ℕ} {L : List (LocalOp R × (ℕ → ℕ → R))} (h : D.RankOps r L) (hf : ∀ p ∈ L, p.1.tflag = false)
    (hs : ∀ p ∈ L, Supported R p.1.sym .T ∧ p.1.sym ≠ .H)
    (hd : L.Pairwise (fun p q => p.1.soff + p.1.ssz ≤ q.1.soff ∨ q.1.soff + q.1.ssz ≤ p.1.soff)) (x y : Buf R) {mu c : ℕ} (hc : c < mu)
    {j : ℕ} (hy : y (j * mu + c) = 0) :
    D.opsMatT r x y mu (j * mu + c) = ∑ i ∈ range (D.tgt.size r), sumBlocks L i j * x (i * mu + c) := by
  rw [sum_sumBlocks_col L _ j (fun i => x (i * mu + c))]
  have key : ∀ l : List (LocalOp R × (ℕ → ℕ → R)), (∀ p ∈ l, p ∈ L) →
      l.Pairwise (fun p q => p.1.soff + p.1.ssz ≤ q.1.soff ∨ q.1.soff + q.1.ssz ≤ p.1.soff) → ∀ y : Buf R,
      (l.map (fun p => p.1.toVLO)).foldl (fun o A => A.matT 1 x 1 o mu) y (j * mu + c) =
      if (∃ p ∈ l, p.1.soff ≤ j ∧ j < p.1.soff + p.1.ssz) then
        (l.map (fun p => if p.1.soff ≤ j ∧ j < p.1.soff + p.1.ssz then
          ∑ i ∈ range (D.tgt.size r), p.2 i (j - p.1.soff) * x (i * mu + c) else 0)).sum else y (j * mu + c) := by
    intro l
    induction l with
    | nil => intro _ _ y; simp
    | cons p l ih =>
      intro hl hpw y
      obtain ⟨hp1, hp2⟩ := List.pairwise_cons.1 hpw
      simp only [List.map_cons, List.foldl_cons, List.sum_cons]
      rw [ih (fun q hq => hl q (by simp [hq])) hp2]
      have hp := hl p (by simp)
      obtain ⟨M, hk, hu⟩ := h.kernel p hp
      have e := C21_transposed_matrix_product_partial hk (h.perm p hp) (hs p hp).1 (hs p hp).2 hu (hf p hp) 1 1 x y hc j
      rw [h.rows p hp, one_mul] at e
      have e' : p.1.toVLO.matT 1 x 1 y mu (j * mu + c) = _ := e
      rw [e']
      by_cases hin : p.1.soff ≤ j ∧ j < p.1.soff + p.1.ssz
      · have hno : ¬ ∃ q ∈ l, q.1.soff ≤ j ∧ j < q.1.soff + q.1.ssz := by
          rintro ⟨q, hq, hq1, hq2⟩
          have := hp1 q hq
          omega
        rw [if_neg hno, if_pos hin, if_pos ⟨p, by simp, hin⟩, if_pos hin, List.sum_eq_zero, add_zero]
        intro v hv
        obtain ⟨q, hq, rfl⟩ := List.mem_map.1 hv
        exact if_neg (fun hh => hno ⟨q, hq, hh⟩)
      · rw [if_neg hin, if_neg hin, zero_add]
        refine if_congr ⟨?_, ?_⟩ rfl rfl
        · rintro ⟨q, hq, hh⟩; exact ⟨q, by simp [hq], hh⟩
        · rintro ⟨q, hq, hh⟩
          rcases List.mem_cons.1 hq with rfl | hq
          · exact absurd hh hin
          · exact ⟨q, hq, hh⟩
  unfold DOp.opsMatT
  rw [h.eq, key L (fun _ h => h) hd y]
  split_ifs with hex
  · rfl
  · rw [hy, List.sum_eq_zero]
    intro v hv
    obtain ⟨p, hp, rfl⟩ := List.mem_map.1 hv
    exact if_neg (fun hh => hex ⟨p, hp, hh⟩)

theorem DOp.RankOps.opsMatT_frame {r : ℕ} {L : List (LocalOp R × (ℕ → ℕ → R))} (h : D.RankOps r L) (hf : ∀ p ∈ L, p.1.tflag = false)
    (hs : ∀ p ∈ L, Supported R p.1.sym .T ∧ p.1.sym ≠ .H) (x y : Buf R) {mu c : ℕ} (hc : c < mu) {j : ℕ} (hj : D.src.n ≤ j) :
    D.opsMatT r x y mu (j * mu + c) = y (j * mu + c) := by
  have key : ∀ l : List (LocalOp R × (ℕ → ℕ → R)), (∀ p ∈ l, p ∈ L) → ∀ y : Buf R,
      (l.map (fun p => p.1.toVLO)).foldl (fun o A => A.matT 1 x 1 o mu) y (j * mu + c) = y (j * mu + c) := by
    intro l
    induction l with
    | nil => intro _ y; rfl
    | cons p l ih =>
      intro hl y
      simp only [List.map_cons, List.foldl_cons]
      rw [ih (fun q hq => hl q (by simp [hq]))]
      have hp := hl p (by simp)
      obtain ⟨M, hk, hu⟩ := h.kernel p hp
      have e := C21_transposed_matrix_product_partial hk (h.perm p hp) (hs p hp).1 (hs p hp).2 hu (hf p hp) 1 1 x y hc j
      rw [if_neg (by have := h.cols p hp; omega)] at e
      exact e
  unfold DOp.opsMatT
  rw [h.eq]
  exact key L (fun _ h => h) y

/-- **C42 (transposed matrix product), partial.** Only when the column ranges of the local operators of a rank are pairwise disjoint: the
operators overwrite their range instead of adding to it. Missing: overlapping ranges, for which the claim is false, see
`C42_transposed_matrix_product_overwrites`. -/
theorem C42_transposed_matrix_product_sums_partial {L : ℕ → List (LocalOp R × (ℕ → ℕ → R))} (h : ∀ r < D.P, D.RankOps r (L r))
    (hf : ∀ r < D.P, ∀ p ∈ L r, p.1.tflag = false) (hs : ∀ r < D.P, ∀ p ∈ L r, Supported R p.1.sym .T ∧ p.1.sym ≠ .H)
    (hd : ∀ r < D.P, (L r).Pairwise (fun p q => p.1.soff + p.1.ssz ≤ q.1.soff ∨ q.1.soff + q.1.ssz ≤ p.1.soff))
    {M : ℕ → ℕ → R} (hM : D.IsSum L M) : D.ActsMatT M := by
  intro r hr mu x y hy c hc j
  split_ifs with hj
  · rw [(h r hr).opsMatT (hf r hr) (hs r hr) (hd r hr) x y hc (hy _ ((pos_lt hc).2 hj))]
    exact Finset.sum_congr rfl (fun i hi => by rw [hM r hr i (Finset.mem_range.1 hi) j hj])
  · exact (h r hr).opsMatT_frame (hf r hr) (hs r hr) x y hc (by omega)

/-! ## Defects and concrete cases -/

/-- A local operator holding an unsymmetric dense matrix, source cluster at offset `soff`. -/
def denseOp (tsz soff ssz : ℕ) (N : ℕ → ℕ → ℤ) : LocalOp ℤ :=
  ⟨[], 0, tsz, [], soff, ssz, .N, false, false, denseKernel false .N .N tsz ssz N⟩

theorem denseOp_ok {tsz soff ssz : ℕ} (h : 0 < tsz ∧ 0 < ssz) (N : ℕ → ℕ → ℤ) :
    (denseOp tsz soff ssz N).KernelOK N ∧ (denseOp tsz soff ssz N).InUser N N ∧ (denseOp tsz soff ssz N).PermOK :=
  ⟨LocalOp.kernelOK_dense (A := denseOp tsz soff ssz N) (cplx := false) (u := .N) (fun _ x => by simp) rfl h (fun h => absurd rfl h)
    (fun h => by simp [denseOp] at h), fun i _ j _ => rfl, ⟨fun h => by simp [denseOp] at h, fun h => by simp [denseOp] at h⟩⟩

/-- Three ranks with parts of 2, 0 and 1 rows, non-trivial numberings, and one or two operators on each rank. -/
def exDOp : DOp ℤ where
  P := 3
  tgt := ⟨[1, 2, 0], 3, [(0, 2), (2, 0), (2, 1)]⟩
  src := ⟨[3, 0, 2, 1], 4, [(0, 1), (1, 2), (3, 1)]⟩
  ops := fun r => match r with
    | 0 => [(denseOp 2 0 4 (fun i j => (i : ℤ) + 2 * j)).toVLO, (denseOp 2 1 2 (fun i j => 5 * (i : ℤ) - j)).toVLO]
    | 2 => [(denseOp 1 0 2 (fun _ j => 3 + (j : ℤ))).toVLO, (denseOp 1 2 2 (fun _ j => 7 * (j : ℤ) + 1)).toVLO]
    | _ => []
  usePerm := true
  sym := .N

/-- The operators of `exDOp` with their matrices. -/
def exOps : ℕ → List (LocalOp ℤ × (ℕ → ℕ → ℤ))
  | 0 => [(denseOp 2 0 4 (fun i j => (i : ℤ) + 2 * j), fun i j => (i : ℤ) + 2 * j),
          (denseOp 2 1 2 (fun i j => 5 * (i : ℤ) - j), fun i j => 5 * (i : ℤ) - j)]
  | 2 => [(denseOp 1 0 2 (fun _ j => 3 + (j : ℤ)), fun _ j => 3 + (j : ℤ)), (denseOp 1 2 2 (fun _ j => 7 * (j : ℤ) + 1), fun _ j => 7 * (j : ℤ) + 1)]
  | _ => []

theorem exDOp_ok : exDOp.OK := by
  refine ⟨⟨rfl, by simp [exDOp, Tiles], ?_⟩, ⟨rfl, by simp [exDOp, Tiles], ?_⟩⟩ <;> (unfold LocalPerm exDOp; decide)

theorem exDOp_rankOps : ∀ r < exDOp.P, exDOp.RankOps r (exOps r) := by
  intro r hr
  have hr : r < 3 := hr
  have key : ∀ (L : List (LocalOp ℤ × (ℕ → ℕ → ℤ))), exDOp.ops r = L.map (fun p => p.1.toVLO) →
      (∀ p ∈ L, ∃ soff ssz, p.1 = denseOp (exDOp.tgt.size r) soff ssz p.2 ∧ 0 < ssz ∧ soff + ssz ≤ 4 ∧ 0 < exDOp.tgt.size r) → exDOp.RankOps r L := by
    intro L hL hp
    refine ⟨hL, ?_, ?_, ?_, ?_, ?_⟩ <;> intro p hpL <;> obtain ⟨a, b, h1, h2, h3, h4⟩ := hp p hpL <;> rw [h1]
    · exact ⟨p.2, (denseOp_ok ⟨h4, h2⟩ p.2).1, (denseOp_ok ⟨h4, h2⟩ p.2).2.1⟩
    · exact (denseOp_ok ⟨h4, h2⟩ p.2).2.2
    · simp [denseOp]
    · rfl
    · exact h3
  obtain rfl | rfl | rfl : r = 0 ∨ r = 1 ∨ r = 2 := by omega
  · refine key _ rfl ?_
    intro p hp
    simp only [exOps, List.mem_cons, List.not_mem_nil, or_false] at hp
    rcases hp with rfl | rfl
    · exact ⟨0, 4, rfl, by decide, by decide, by decide⟩
    · exact ⟨1, 2, rfl, by decide, by decide, by decide⟩
  · exact key _ rfl (by simp [exOps])
  · refine key _ rfl ?_
    intro p hp
    simp only [exOps, List.mem_cons, List.not_mem_nil, or_false] at hp
    rcases hp with rfl | rfl
    · exact ⟨0, 2, rfl, by decide, by decide, by decide⟩
    · exact ⟨2, 2, rfl, by decide, by decide, by decide⟩

/-- The hypotheses of C42, and so of C39 and C40, are met by `exDOp`: there is a matrix its operators sum to, and it can be renumbered. -/
theorem exDOp_acts : ∃ M, exDOp.ActsVec M ∧ exDOp.ActsMat M ∧ exDOp.ActsVecT M := by
  have hs : exDOp.IsSum exOps (fun k j => if k < 2 then sumBlocks (exOps 0) k j else sumBlocks (exOps 2) (k - 2) j) := by
    intro r hr i hi j hj
    have hr : r < 3 := hr
    obtain rfl | rfl | rfl : r = 0 ∨ r = 1 ∨ r = 2 := by omega
    · have hi : i < 2 := hi
      show (if 0 + i < 2 then _ else _) = _
      rw [if_pos (by omega), show exDOp.tgt.off 0 + i = i by show 0 + i = i; omega]
    · have hi : i < 0 := hi
      omega
    · show (if 2 + i < 2 then _ else _) = _
      rw [if_neg (by omega), show exDOp.tgt.off 2 + i - 2 = i by show 2 + i - 2 = i; omega]
  have hf : ∀ r < exDOp.P, ∀ p ∈ exOps r, p.1.tflag = false ∧ p.1.sym = .N := by
    intro r hr p hp
    have hr : r < 3 := hr
    obtain rfl | rfl | rfl : r = 0 ∨ r = 1 ∨ r = 2 := by omega
    all_goals simp only [exOps, List.mem_cons, List.not_mem_nil, or_false] at hp
    · rcases hp with rfl | rfl <;> exact ⟨rfl, rfl⟩
    · rcases hp with rfl | rfl <;> exact ⟨rfl, rfl⟩
  exact ⟨_, C42_vector_product_sums exDOp_rankOps hs, C42_matrix_product_sums exDOp_rankOps (fun r hr p hp => (hf r hr p hp).1) hs,
    C42_transposed_vector_product_sums exDOp_rankOps (fun r hr p hp => (hf r hr p hp).1)
      (fun r hr p hp => by rw [(hf r hr p hp).2]; simp [Supported]) hs⟩

/-- Products of `exDOp` on rank 1, which owns no rows. -/
example : (List.range 4).map (exDOp.vecG2G (fun _ l => (l : ℤ) + 1) (fun _ _ => 9) 1) = [35, 23, 53, 9] ∧
    (List.range 5).map (exDOp.vecTG2G (fun _ l => (l : ℤ) + 1) (fun _ _ => 9) 1) = [32, 41, 34, 6, 9] := by
  decide +kernel

/-- **C42 (defect).** Two operators with the same columns on one rank, the 1×1 matrices (1) and (1): the transposed product with a matrix is
1 instead of 2. The transposed product with a vector gives 2. -/
theorem C42_transposed_matrix_product_overwrites :
    ∃ D : DOp ℤ, D.OK ∧ D.sym = .N ∧
      (∀ r < D.P, D.RankOps r [(denseOp 1 0 1 (fun _ _ => 1), fun _ _ => 1), (denseOp 1 0 1 (fun _ _ => 1), fun _ _ => 1)]) ∧
      D.matTG2G (fun _ _ => 1) (fun _ _ => 0) 1 0 0 = 1 ∧ D.vecTG2G (fun _ _ => 1) (fun _ _ => 0) 0 0 = 2 := by
  refine ⟨⟨1, ⟨[0], 1, [(0, 1)]⟩, ⟨[0], 1, [(0, 1)]⟩, fun _ => [(denseOp 1 0 1 (fun _ _ => 1)).toVLO, (denseOp 1 0 1 (fun _ _ => 1)).toVLO],
    false, .N⟩, ?_, rfl, ?_, by decide +kernel, by decide +kernel⟩
  · refine ⟨⟨rfl, by simp [Tiles], ?_⟩, ⟨rfl, by simp [Tiles], ?_⟩⟩ <;> (unfold LocalPerm; decide)
  · intro r hr
    have hr : r < 1 := hr
    obtain rfl : r = 0 := by omega
    refine ⟨rfl, ?_, ?_, ?_, ?_, ?_⟩ <;> intro p hp <;> simp only [List.mem_cons, List.not_mem_nil, or_false, or_self] at hp <;> subst hp
    · exact ⟨_, (denseOp_ok (by decide) _).1, (denseOp_ok (by decide) _).2.1⟩
    · exact (denseOp_ok (by decide) _).2.2
    · simp [denseOp]
    · rfl
    · decide

/-- **C42, C43 (defect).** The sub-matrix product of two operators keeps only the last one, because each overwrites the output. -/
theorem C42_sub_matrix_product_overwrites :
    ∃ D : DOp ℤ, D.ops 0 = [(denseOp 1 0 1 (fun _ _ => 1)).toVLO, (denseOp 1 0 1 (fun _ _ => 1)).toVLO] ∧
      (D.subMat 0 (fun _ => 1) (fun _ => 0) 1 0 1).map (fun z => z 0) = some 1 := by
  exact ⟨⟨1, ⟨[0], 1, [(0, 1)]⟩, ⟨[0], 1, [(0, 1)]⟩, fun _ => [(denseOp 1 0 1 (fun _ _ => 1)).toVLO, (denseOp 1 0 1 (fun _ _ => 1)).toVLO],
    false, .N⟩, rfl, by decide +kernel⟩

/-- **C43, partial.** With one local operator, whose source cluster starts at 0 and without permutation flags, the sub-matrix product is the
product with the columns `[offset, offset + size)` of the operator. Missing: other source offsets (undefined behaviour, `C43_partial_range_undefined`),
several operators (`C42_sub_matrix_product_overwrites`). -/
theorem C43_distributed_sub_matrix_product_partial {D : DOp R} {r : ℕ} {A : LocalOp R} {M : ℕ → ℕ → R} (hD : D.ops r = [A.toVLO])
    (hK : A.KernelOK M) (hsym : A.sym ≠ .nul)
    (hfull : ∀ α x β y mu, 0 < mu → IsRM .N A.tsz A.ssz M α x β y mu (A.K.rm .N α x β y mu)) (ht : A.tflag = false) (hs : A.sflag = false)
    (h0 : A.soff = 0) {mu offset size : ℕ} (hr : offset ≤ A.ssz) (x y : Buf R) :
    ∃ z, D.subMat r x y mu offset size = some z ∧ ∀ c < mu, ∀ k,
      z (k * mu + c) = if k < A.tsz then ∑ l ∈ range (min size (A.ssz - offset)), M k (offset + l) * x (l * mu + c) else y (k * mu + c) := by
  obtain ⟨z, h1, h2⟩ := C43_sub_matrix_product_partial hK hsym hfull ht hs h0 hr x y
  refine ⟨z, ?_, h2⟩
  unfold DOp.subMat
  rw [hD]
  simp only [List.foldlM_cons, List.foldlM_nil]
  show (A.subMat x y mu offset size >>= fun o => pure o) = some z
  rw [h1]; rfl

/-- A hermitian 2×2 operator on one rank. -/
def exHermOp : DOp GaussianInt where
  P := 1
  tgt := ⟨[0, 1], 2, [(0, 2)]⟩
  src := ⟨[0, 1], 2, [(0, 2)]⟩
  ops := fun _ => [(LocalOp.mk [] 0 2 [] 0 2 .H false false (denseKernel true .H .L 2 2
    (fun i j => if i = j then 1 else (⟨i, (j : ℤ) + 2⟩ : GaussianInt)))).toVLO]
  usePerm := false
  sym := .H

/-- **C40 (defect).** `internal_vector_product_transp_local_to_local` of a hermitian operator is the plain product: the conjugations done by
`vector_product_transp_local_to_local` around it are missing. Likewise `internal_matrix_product_transp_local_to_local` does not clear its
output, while the vector version does. -/
theorem C40_internal_transposed_products_wrong :
    (exHermOp.intVecTL2L (fun _ _ => 1) (fun _ _ => 0) (fun _ _ => 0) 0 0 ≠ exHermOp.vecTL2L (fun _ _ => 1) (fun _ _ => 0) (fun _ _ => 0) 0 0) ∧
    exDOp.intMatTL2L (fun _ _ => 0) (fun _ _ => 7) (fun _ _ => 0) 1 0 0 = 7 ∧
    exDOp.intVecTL2L (fun _ _ => 0) (fun _ _ => 7) (fun _ _ => 0) 0 0 = 0 := by
  decide +kernel

end Htool
