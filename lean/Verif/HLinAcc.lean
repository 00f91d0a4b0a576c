import Verif.HLinProd5
import Verif.Props.Accuracy
import Verif.Props.HLinProd

/-! # Accuracy of the products of hierarchical matrices when every truncation has a relative error

Lemmas: Frobenius norms of parts of a matrix, error after `k` truncations, products into a low-rank matrix. -/

namespace Htool
open Finset
variable {G 𝕜 : Type*} [RCLike 𝕜]

/-! ## Frobenius norms of parts of a matrix -/

theorem frob_mono {M N : ℕ} {f g : ℕ → ℕ → 𝕜} (h : ∀ i < M, ∀ j < N, ‖f i j‖ ≤ ‖g i j‖) : frob M N f ≤ frob M N g := by
  unfold frob
  refine Real.sqrt_le_sqrt (sum_le_sum fun i hi => sum_le_sum fun j hj => ?_)
  exact pow_le_pow_left₀ (norm_nonneg _) (h i (mem_range.1 hi) j (mem_range.1 hj)) 2

theorem sum_part {M o m : ℕ} (h : o + m ≤ M) (f : ℕ → ℝ) :
    ∑ i ∈ range M, (if o ≤ i ∧ i < o + m then f (i - o) else 0) = ∑ i ∈ range m, f i := by
  obtain ⟨r, rfl⟩ := Nat.exists_eq_add_of_le h
  rw [Finset.sum_range_add, Finset.sum_range_add]
  have h1 : ∑ i ∈ range o, (if o ≤ i ∧ i < o + m then f (i - o) else 0) = 0 :=
    sum_eq_zero fun i hi => if_neg fun h => by have := mem_range.1 hi; omega
  have h3 : ∑ i ∈ range r, (if o ≤ o + m + i ∧ o + m + i < o + m then f (o + m + i - o) else 0) = 0 :=
    sum_eq_zero fun i _ => if_neg fun h => by omega
  rw [h1, h3, zero_add, add_zero]
  refine sum_congr rfl fun i hi => ?_
  have := mem_range.1 hi
  rw [if_pos (by omega), Nat.add_sub_cancel_left]

/-- Extension by zero. -/
theorem frob_ext {M N o o' m n : ℕ} (h : o + m ≤ M) (h' : o' + n ≤ N) (f : ℕ → ℕ → 𝕜) :
    frob M N (fun i j => if (o ≤ i ∧ i < o + m) ∧ (o' ≤ j ∧ j < o' + n) then f (i - o) (j - o') else 0) = frob m n f := by
  unfold frob
  congr 1
  rw [← sum_part h (fun i => ∑ j ∈ range n, ‖f i j‖ ^ 2)]
  refine sum_congr rfl fun i _ => ?_
  by_cases hi : o ≤ i ∧ i < o + m
  · rw [if_pos hi, ← sum_part h' (fun j => ‖f (i - o) j‖ ^ 2)]
    refine sum_congr rfl fun j _ => ?_
    beta_reduce
    by_cases hj : o' ≤ j ∧ j < o' + n
    · rw [if_pos ⟨hi, hj⟩, if_pos hj]
    · rw [if_neg fun h => hj h.2, if_neg hj]; simp
  · rw [if_neg hi]
    refine sum_eq_zero fun j _ => ?_
    beta_reduce
    rw [if_neg fun h => hi h.1]; simp

/-- Restriction to a block. -/
theorem frob_sub_block {M N o o' m n : ℕ} (h : o + m ≤ M) (h' : o' + n ≤ N) (f : ℕ → ℕ → 𝕜) :
    frob m n (fun i j => f (o + i) (o' + j)) ≤ frob M N f := by
  rw [← frob_ext h h' (fun i j => f (o + i) (o' + j))]
  refine frob_mono fun i _ j _ => ?_
  by_cases c : (o ≤ i ∧ i < o + m) ∧ (o' ≤ j ∧ j < o' + n)
  · rw [if_pos c, Nat.add_sub_cancel' c.1.1, Nat.add_sub_cancel' c.2.1]
  · rw [if_neg c, norm_zero]; exact norm_nonneg _

theorem entry_le_frob {M N : ℕ} (f : ℕ → ℕ → 𝕜) {i j : ℕ} (hi : i < M) (hj : j < N) : ‖f i j‖ ≤ frob M N f := by
  have h := frob_sub_block (o := i) (o' := j) (m := 1) (n := 1) (M := M) (N := N) (by omega) (by omega) f
  refine le_trans (le_of_eq ?_) h
  unfold frob
  simp

theorem frob_smul (M N : ℕ) (a : 𝕜) (f : ℕ → ℕ → 𝕜) : frob M N (fun i j => a * f i j) = ‖a‖ * frob M N f := by
  unfold frob
  rw [← Real.sqrt_sq (norm_nonneg a), ← Real.sqrt_mul (sq_nonneg _), mul_sum]
  congr 1
  refine sum_congr rfl fun i _ => ?_
  rw [mul_sum]
  refine sum_congr rfl fun j _ => ?_
  rw [norm_mul, mul_pow]

/-! ## Accumulated errors -/

/-- Error after `k` truncations of relative error `ε`, of matrices of norm at most `B`. -/
noncomputable def accErr (ε B : ℝ) (k : ℕ) : ℝ := ((1 + ε) ^ k - 1) * B

section accErr
variable {ε B : ℝ}

theorem accErr_zero : accErr ε B 0 = 0 := by unfold accErr; simp

theorem accErr_mono (hε : 0 ≤ ε) (hB : 0 ≤ B) {k l : ℕ} (h : k ≤ l) : accErr ε B k ≤ accErr ε B l := by
  unfold accErr
  refine mul_le_mul_of_nonneg_right ?_ hB
  have := pow_le_pow_right₀ (show (1 : ℝ) ≤ 1 + ε by linarith) h
  linarith

theorem accErr_nonneg (hε : 0 ≤ ε) (hB : 0 ≤ B) (k : ℕ) : 0 ≤ accErr ε B k := by
  have := accErr_mono hε hB (Nat.zero_le k)
  rwa [accErr_zero] at this

theorem accErr_add (hε : 0 ≤ ε) (hB : 0 ≤ B) (k l : ℕ) : accErr ε B k + accErr ε B l ≤ accErr ε B (k + l) := by
  unfold accErr
  rw [← add_mul, pow_add]
  refine mul_le_mul_of_nonneg_right ?_ hB
  have h1 : 1 ≤ (1 + ε) ^ k := one_le_pow₀ (by linarith)
  have h2 : 1 ≤ (1 + ε) ^ l := one_le_pow₀ (by linarith)
  nlinarith [mul_nonneg (sub_nonneg.2 h1) (sub_nonneg.2 h2)]

theorem accErr_succ (k : ℕ) : ε * B + (1 + ε) * accErr ε B k = accErr ε B (k + 1) := by
  unfold accErr; rw [pow_succ]; ring

end accErr

/-- A well-formed low-rank matrix with the sizes of the `m × n` matrix `F`, at a distance at most `e` of it in Frobenius norm. -/
def LR.Near (L : LR 𝕜) (e : ℝ) (m n : ℕ) (F : ℕ → ℕ → 𝕜) : Prop :=
  L.WF ∧ L.nr = m ∧ L.nc = n ∧ frob m n (fun i j => L.entry i j - F i j) ≤ e

/-- What the accuracy theorems ask of the numerical kernels: recompressions and truncated decompositions of non-empty matrices keep the sizes and have a
relative error at most `ε` in Frobenius norm. -/
structure LinOps.Acc (E : LinOps 𝕜) (ε : ℝ) : Prop where
  real : E.cplx = false → RealType 𝕜
  rc : ∀ L : LR 𝕜, L.WF → 0 < L.rank → 0 < L.nr → 0 < L.nc →
    (E.rc L).Near (ε * frob L.nr L.nc L.entry) L.nr L.nc L.entry
  cmp : ∀ (D : Mat 𝕜) (old : LR 𝕜), 0 < D.nr → 0 < D.nc → (E.cmp D old).Near (ε * frob D.nr D.nc D.get) D.nr D.nc D.get

section near
variable {L : LR 𝕜} {e e' : ℝ} {m n : ℕ} {F F' : ℕ → ℕ → 𝕜}

theorem LR.Near.le (h : L.Near e m n F) (he : e ≤ e') : L.Near e' m n F := ⟨h.1, h.2.1, h.2.2.1, h.2.2.2.trans he⟩

theorem LR.Near.congr (h : L.Near e m n F) (he : ∀ i < m, ∀ j < n, F i j = F' i j) : L.Near e m n F' :=
  ⟨h.1, h.2.1, h.2.2.1, (le_of_eq (frob_congr fun i hi j hj => by rw [he i hi j hj])).trans h.2.2.2⟩

theorem LR.IsMat.near (h : L.IsMat m n F) : L.Near 0 m n F :=
  ⟨h.1, h.2.1, h.2.2.1, le_of_eq (by
    rw [frob_congr (g := fun _ _ => 0) fun i hi j hj => by rw [h.2.2.2 i hi j hj, sub_self], frob_zero])⟩

theorem LR.Near.isMat (h : L.Near e m n F) : L.IsMat m n L.entry := ⟨h.1, h.2.1, h.2.2.1, fun _ _ _ _ => rfl⟩

/-- Exactly represented, of a matrix near the ideal one. -/
theorem LR.IsMat.near_of (h : L.IsMat m n F') (he : frob m n (fun i j => F' i j - F i j) ≤ e) : L.Near e m n F :=
  ⟨h.1, h.2.1, h.2.2.1, (le_of_eq (frob_congr fun i hi j hj => by rw [h.2.2.2 i hi j hj])).trans he⟩

variable {E : LinOps 𝕜} {ε B : ℝ}

/-- One more truncation. -/
theorem LR.Near.rc (hE : E.Acc ε) (hε : 0 ≤ ε) {k : ℕ} (h : L.Near (accErr ε B k) m n F) (hr : 0 < L.rank) (hm : 0 < m) (hn : 0 < n)
    (hB : frob m n F ≤ B) : (E.rc L).Near (accErr ε B (k + 1)) m n F := by
  obtain ⟨h1, h2, h3, h4⟩ := h
  obtain ⟨r1, r2, r3, r4⟩ := hE.rc L h1 hr (by rw [h2]; exact hm) (by rw [h3]; exact hn)
  rw [h2] at r2 r4
  rw [h3] at r3 r4
  refine ⟨r1, r2, r3, ?_⟩
  have t1 := frob_sub_le m n (E.rc L).entry L.entry F
  have t2 := frob_add_le m n (fun i j => L.entry i j - F i j) F
  rw [frob_congr (g := L.entry) fun i _ j _ => by ring] at t2
  have t3 : frob m n L.entry ≤ accErr ε B k + B := by linarith
  have t4 := mul_le_mul_of_nonneg_left t3 hε
  rw [← accErr_succ]
  nlinarith

theorem near_cmp (hE : E.Acc ε) (hε : 0 ≤ ε) {D : Mat 𝕜} (hD : D.Is m n F) (old : LR 𝕜) (hm : 0 < m) (hn : 0 < n) (hB : frob m n F ≤ B) :
    (E.cmp D old).Near (accErr ε B 1) m n F := by
  obtain ⟨d1, d2, d3⟩ := hD
  have c := hE.cmp D old (by rw [d1]; exact hm) (by rw [d2]; exact hn)
  rw [d1, d2] at c
  have e : frob m n D.get = frob m n F := frob_congr d3
  rw [e] at c
  refine (c.congr d3).le ?_
  unfold accErr
  rw [pow_one]
  nlinarith

end near

/-! ## Products with a leaf -/

section leaf
variable [DecidableEq 𝕜] {E : LinOps 𝕜} {ε B : ℝ} {A : FTree G 𝕜} {X : FTree G 𝕜}

/-- The same kernels without truncation. -/
def LinOps.noTrunc (E : LinOps 𝕜) : LinOps 𝕜 := { E with rc := id, cmp := fun D _ => fullLR D }

theorem LinOps.noTrunc_exact (hr : E.cplx = false → RealType 𝕜) : E.noTrunc.Exact where
  real := hr
  rc _ _ _ _ h := h
  cmp D _ := fullLR_is D

theorem hcat_rank (U V W : Mat 𝕜) (Z : Mat 𝕜) : LR.rank ⟨U.hcat V, W.vcat Z⟩ = U.nc + V.nc := rfl

/-- End of the products into a low-rank matrix whose product is first computed as a dense matrix. -/
theorem denseIntoLR_near (hE : E.Acc ε) (hε : 0 ≤ ε) (hB : 0 ≤ B) {AB : Mat 𝕜} {m n : ℕ} {F FC : ℕ → ℕ → 𝕜} (h : AB.Is m n F) {C : LR 𝕜} {k : ℕ}
    (hC : C.Near (accErr ε B k) m n FC ∨ (C.rank = 0 ∧ ∀ i j, FC i j = 0)) (hm : 0 < m) (hn : 0 < n) (b1 : frob m n F ≤ B)
    (b2 : frob m n (fun i j => F i j + FC i j) ≤ B) :
    (denseIntoLR E AB 1 C).Near (accErr ε B (k + 2)) m n (fun i j => F i j + FC i j) := by
  have c := fun old => near_cmp hE hε h old hm hn b1
  have key : frob m n (fun i j => C.entry i j - FC i j) ≤ accErr ε B k := by
    rcases hC with hC | hC
    · exact hC.2.2.2
    · refine le_trans (le_of_eq ?_) (accErr_nonneg hε hB k)
      rw [frob_congr (g := fun _ _ => 0) fun i _ j _ => by rw [entry_rank_zero hC.1, hC.2, sub_self], frob_zero]
  unfold denseIntoLR
  by_cases hz : (1 : 𝕜) = 0 ∨ C.rank = 0
  · rw [if_pos hz]
    have hz := hz.resolve_left one_ne_zero
    obtain ⟨c1, c2, c3, c4⟩ := c C
    refine ⟨c1, c2, c3, ?_⟩
    have t := frob_add_le m n (fun i j => (E.cmp AB C).entry i j - F i j) (fun i j => C.entry i j - FC i j)
    rw [frob_congr (g := fun i j => (E.cmp AB C).entry i j - (F i j + FC i j)) fun i _ j _ => by
      rw [entry_rank_zero hz]; ring] at t
    have := accErr_add hε hB 1 k
    have := accErr_mono hε hB (show 1 + k ≤ k + 2 by omega)
    linarith
  · rw [if_neg hz]
    have hC := hC.resolve_right fun h => hz (Or.inr h.1)
    set W := E.cmp AB ⟨Mat.mk' 0 0 0, Mat.mk' 0 0 0⟩ with hW
    obtain ⟨c1, c2, c3, c4⟩ := c ⟨Mat.mk' 0 0 0, Mat.mk' 0 0 0⟩
    rw [← hW] at c1 c2 c3 c4
    have p := cat_prod (U1 := W.U) (V1 := W.V) (m := m) (n := n) (M := W.entry) (C := C) 1 ⟨c1, c2, c3, fun _ _ _ _ => rfl⟩ hC.1 hC.2.1 hC.2.2.1
    rw [hC.2.1, hC.2.2.1] at p
    have q : LR.Near ⟨W.U.hcat C.U, W.V.vcat (Mat.scale 1 C.V)⟩ (accErr ε B (k + 1)) m n (fun i j => F i j + FC i j) := by
      refine p.near_of ?_
      have t := frob_add_le m n (fun i j => W.entry i j - F i j) (fun i j => C.entry i j - FC i j)
      rw [frob_congr (g := fun i j => W.entry i j + 1 * C.entry i j - (F i j + FC i j)) fun i _ j _ => by ring] at t
      have := accErr_add hε hB 1 k
      rw [Nat.add_comm 1 k] at this
      linarith
    refine q.rc hE hε ?_ hm hn b2
    have : C.U.nc ≠ 0 := fun h => hz (Or.inr h)
    rw [hcat_rank]; omega

/-- A product with a leaf which does not go through a dense matrix is truncated at most once. -/
theorem leafLR_once (E : LinOps 𝕜) (ta tb : Trans) (α : 𝕜) (A X : FTree G 𝕜) (C : LR 𝕜)
    (hAw : ∀ L, A.label.data = .lowRank L → L.WF) (h : (∃ L, A.label.data = .lowRank L) ∨ ∃ L, X.label.data = .lowRank L) :
    leafLR E ta tb α A X 1 C = leafLR E.noTrunc ta tb α A X 1 C ∨
      (0 < (leafLR E.noTrunc ta tb α A X 1 C).rank ∧ leafLR E ta tb α A X 1 C = E.rc (leafLR E.noTrunc ta tb α A X 1 C)) := by
  have e1 : E.noTrunc.rc = id := rfl
  unfold leafLR
  cases ha : A.label.data with
  | dense D p =>
    cases hx : X.label.data with
    | dense D' p' => rcases h with ⟨L, h⟩ | ⟨L, h⟩ <;> simp_all
    | hier => rcases h with ⟨L, h⟩ | ⟨L, h⟩ <;> simp_all
    | lowRank L =>
      show LR.matMulLR E.rc ta tb α D L 1 C = LR.matMulLR id ta tb α D L 1 C ∨ (0 < (LR.matMulLR id ta tb α D L 1 C).rank ∧ _ = E.rc (LR.matMulLR id ta tb α D L 1 C))
      unfold LR.matMulLR
      by_cases h0 : L.rank ≠ 0
      · simp only [if_pos h0]
        by_cases hz : (1 : 𝕜) = 0 ∨ C.rank = 0
        · simp only [if_pos hz]; exact Or.inl trivial
        · simp only [if_neg hz]
          refine Or.inr ⟨?_, rfl⟩
          have : C.U.nc ≠ 0 := fun h => hz (Or.inr h)
          show 0 < LR.rank ⟨Mat.hcat _ C.U, Mat.vcat _ _⟩
          rw [hcat_rank]; omega
      · simp only [if_neg h0]; exact Or.inl trivial
  | hier =>
    cases hx : X.label.data with
    | dense D' p' => rcases h with ⟨L, h⟩ | ⟨L, h⟩ <;> simp_all
    | hier => rcases h with ⟨L, h⟩ | ⟨L, h⟩ <;> simp_all
    | lowRank L =>
      show hmLrLR E ta tb α A L 1 C = hmLrLR E.noTrunc ta tb α A L 1 C ∨ (0 < (hmLrLR E.noTrunc ta tb α A L 1 C).rank ∧ _ = E.rc (hmLrLR E.noTrunc ta tb α A L 1 C))
      unfold hmLrLR
      by_cases h0 : L.rank ≠ 0
      · simp only [if_pos h0]
        by_cases hz : (1 : 𝕜) = 0 ∨ C.rank = 0
        · simp only [if_pos hz]; exact Or.inl rfl
        · simp only [if_neg hz]
          refine Or.inr ⟨?_, rfl⟩
          have : C.U.nc ≠ 0 := fun h => hz (Or.inr h)
          show 0 < LR.rank ⟨Mat.hcat _ C.U, Mat.vcat _ _⟩
          rw [hcat_rank]; omega
      · simp only [if_neg h0]; exact Or.inl trivial
  | lowRank L =>
    have hL : L.WF := hAw L ha
    cases hx : X.label.data with
    | dense D p =>
      show LR.mulMatLR E.rc ta tb α L D 1 C = LR.mulMatLR id ta tb α L D 1 C ∨ (0 < (LR.mulMatLR id ta tb α L D 1 C).rank ∧ _ = E.rc (LR.mulMatLR id ta tb α L D 1 C))
      unfold LR.mulMatLR
      by_cases h0 : L.rank ≠ 0
      · simp only [if_pos h0]
        by_cases hz : (1 : 𝕜) = 0 ∨ C.rank = 0
        · simp only [if_pos hz, id, ite_self]
          generalize (if tb = .N then D.nc else D.nr) = nn
          by_cases hta : ta = .N
          · simp only [if_pos hta]
            split
            · exact Or.inr ⟨Nat.pos_of_ne_zero h0, rfl⟩
            · exact Or.inl rfl
          · simp only [if_neg hta]
            split
            · refine Or.inr ⟨?_, rfl⟩
              have : L.V.nr = L.U.nc := hL
              have h0 : L.U.nc ≠ 0 := h0
              have e : (Mat.opT ta L.V).nc = L.V.nr := (opT_get ta hta L.V).2.1
              show 0 < (Mat.opT ta L.V).nc
              omega
            · exact Or.inl rfl
        · simp only [if_neg hz]
          refine Or.inr ⟨?_, rfl⟩
          have : C.U.nc ≠ 0 := fun h => hz (Or.inr h)
          by_cases hta : ta = .N
          · simp only [if_pos hta]
            show 0 < LR.rank ⟨Mat.hcat _ C.U, Mat.vcat _ _⟩
            rw [hcat_rank]; omega
          · simp only [if_neg hta]
            show 0 < LR.rank ⟨Mat.hcat _ C.U, Mat.vcat _ _⟩
            rw [hcat_rank]; omega
      · simp only [if_neg h0]; exact Or.inl trivial
    | hier =>
      show lrHmLR E ta tb α L X 1 C = lrHmLR E.noTrunc ta tb α L X 1 C ∨ (0 < (lrHmLR E.noTrunc ta tb α L X 1 C).rank ∧ _ = E.rc (lrHmLR E.noTrunc ta tb α L X 1 C))
      unfold lrHmLR
      by_cases h0 : L.rank ≠ 0
      · simp only [if_pos h0]
        by_cases hz : (1 : 𝕜) = 0 ∨ C.rank = 0
        · simp only [if_pos hz]; exact Or.inl rfl
        · simp only [if_neg hz]
          refine Or.inr ⟨?_, rfl⟩
          have : C.U.nc ≠ 0 := fun h => hz (Or.inr h)
          by_cases hta : ta = .N
          · simp only [if_pos hta]
            show 0 < LR.rank ⟨Mat.hcat _ C.U, Mat.vcat _ _⟩
            rw [hcat_rank]; omega
          · simp only [if_neg hta]
            show 0 < LR.rank ⟨Mat.hcat _ C.U, Mat.vcat _ _⟩
            rw [hcat_rank]; omega
      · simp only [if_neg h0]; exact Or.inl trivial
    | lowRank L' =>
      show LR.mulLRLR E.rc ta tb α L L' 1 C = LR.mulLRLR id ta tb α L L' 1 C ∨ (0 < (LR.mulLRLR id ta tb α L L' 1 C).rank ∧ _ = E.rc (LR.mulLRLR id ta tb α L L' 1 C))
      unfold LR.mulLRLR
      by_cases h0 : L.rank ≠ 0 ∧ L'.rank ≠ 0
      · simp only [if_pos h0]
        by_cases hz : (1 : 𝕜) = 0 ∨ C.rank = 0
        · simp only [if_pos hz]; exact Or.inl trivial
        · simp only [if_neg hz]
          refine Or.inr ⟨?_, rfl⟩
          have : C.U.nc ≠ 0 := fun h => hz (Or.inr h)
          show 0 < (if tb = .N then L'.U.nc else L'.V.nr) + C.U.nc
          omega
      · simp only [if_neg h0]; exact Or.inl trivial

theorem ClOK.size_pos {c : ClusterTree G} (h : ClOK c) : 0 < c.sz := h.pos _ (Tree.mem_pre_self _)

/-- A product with a leaf: at most two truncations. -/
theorem leafLR_near (hE : E.Acc ε) (hε : 0 ≤ ε) (hB : 0 ≤ B) {adA adB : ClusterTree G → ClusterTree G → Prop} {MA MB : ℕ → ℕ → 𝕜}
    (hA : Rep .full adA MA A) (hX : Rep .full adB MB X) (hh : (A.isHier && X.isHier) = false) (ta tb : Trans) (α : 𝕜) {C : LR 𝕜} {F : ℕ → ℕ → 𝕜} {k : ℕ}
    (hin : A.inC ta = X.outC tb)
    (hC : C.Near (accErr ε B k) (A.outC ta).sz (X.inC tb).sz (rel F (A.outC ta).off (X.inC tb).off) ∨
      (¬ A.nilRank ∧ ¬ X.nilRank ∧ C = nilLR 𝕜 0 0 ∧ ∀ i j, F i j = 0))
    (b1 : frob (A.outC ta).sz (X.inC tb).sz (rel (fun i j => α * mprod ta tb MA MB (A.inC ta) i j) (A.outC ta).off (X.inC tb).off) ≤ B)
    (b2 : frob (A.outC ta).sz (X.inC tb).sz (rel (fun i j => F i j + α * mprod ta tb MA MB (A.inC ta) i j) (A.outC ta).off (X.inC tb).off) ≤ B) :
    (leafLR E ta tb α A X 1 C).Near (accErr ε B (k + 2)) (A.outC ta).sz (X.inC tb).sz
      (rel (fun i j => F i j + α * mprod ta tb MA MB (A.inC ta) i j) (A.outC ta).off (X.inC tb).off) := by
  have hm := (clList_outC hA ta).1.size_pos
  have hn := (clList_outC hX tb).2.size_pos
  have hsz : opCols ta A.label.t.sz A.label.s.sz = opRows tb X.label.t.sz X.label.s.sz := by rw [opCols_inC, opRows_outC, hin]
  have pe : ∀ (FC : ℕ → ℕ → 𝕜) (i j : ℕ), prodE ta tb α (rel MA A.label.t.off A.label.s.off) (rel MB X.label.t.off X.label.s.off)
      (opCols ta A.label.t.sz A.label.s.sz) 1 FC i j = rel (fun i j => α * mprod ta tb MA MB (A.inC ta) i j) (A.outC ta).off (X.inC tb).off i j + FC i j := by
    intro FC i j
    rw [prodE_abs hin, one_mul]; rfl
  have pz : ∀ (i j : ℕ), α * ∑ l ∈ range (opCols ta A.label.t.sz A.label.s.sz), opE ta (rel MA A.label.t.off A.label.s.off) i l *
      opE tb (rel MB X.label.t.off X.label.s.off) l j = rel (fun i j => α * mprod ta tb MA MB (A.inC ta) i j) (A.outC ta).off (X.inC tb).off i j := by
    intro i j
    have := pe (fun _ _ => 0) i j
    unfold prodE at this
    rwa [mul_zero, add_zero, add_zero] at this
  have dn : ∀ AB : Mat 𝕜, AB.Is (A.outC ta).sz (X.inC tb).sz
        (rel (fun i j => α * mprod ta tb MA MB (A.inC ta) i j) (A.outC ta).off (X.inC tb).off) →
      (denseIntoLR E AB 1 C).Near (accErr ε B (k + 2)) (A.outC ta).sz (X.inC tb).sz
        (rel (fun i j => F i j + α * mprod ta tb MA MB (A.inC ta) i j) (A.outC ta).off (X.inC tb).off) := by
    intro AB hAB
    refine (denseIntoLR_near hE hε hB hAB (FC := rel F (A.outC ta).off (X.inC tb).off) (k := k) ?_ hm hn b1 ?_).congr fun i _ j _ => ?_
    · rcases hC with hC | hC
      · exact Or.inl hC
      · exact Or.inr ⟨by rw [hC.2.2.1]; rfl, fun i j => hC.2.2.2 _ _⟩
    · refine le_trans (le_of_eq (frob_congr fun i _ j _ => ?_)) b2
      unfold rel; ring
    · unfold rel; ring
  by_cases hl : (∃ L, A.label.data = .lowRank L) ∨ ∃ L, X.label.data = .lowRank L
  · -- at most one truncation
    have fc : ∃ FC : ℕ → ℕ → 𝕜, ((1 : 𝕜) = 1 ∧ C.IsMat (opRows ta A.label.t.sz A.label.s.sz) (opCols tb X.label.t.sz X.label.s.sz) FC ∨
        (¬ A.nilRank ∧ ¬ X.nilRank ∧ C = nilLR 𝕜 0 0 ∧ ∀ i j, FC i j = 0)) ∧
        frob (A.outC ta).sz (X.inC tb).sz (fun i j => FC i j - rel F (A.outC ta).off (X.inC tb).off i j) ≤ accErr ε B k := by
      rcases hC with hC | hC
      · exact ⟨C.entry, Or.inl ⟨rfl, by rw [opRows_outC, opCols_inC]; exact hC.isMat⟩, hC.2.2.2⟩
      · refine ⟨fun _ _ => 0, Or.inr ⟨hC.1, hC.2.1, hC.2.2.1, fun _ _ => rfl⟩, le_trans (le_of_eq ?_) (accErr_nonneg hε hB k)⟩
        rw [frob_congr (g := fun _ _ => 0) fun i _ j _ => by unfold rel; rw [hC.2.2.2, sub_self], frob_zero]
    obtain ⟨FC, hFC, hFe⟩ := fc
    have p := leafLR_is (LinOps.noTrunc_exact hE.real) hA hX hh ta tb α 1 hsz hFC
    rw [opRows_outC, opCols_inC tb] at p
    have q : (leafLR E.noTrunc ta tb α A X 1 C).Near (accErr ε B k) (A.outC ta).sz (X.inC tb).sz
        (rel (fun i j => F i j + α * mprod ta tb MA MB (A.inC ta) i j) (A.outC ta).off (X.inC tb).off) := by
      refine LR.IsMat.near_of p (le_trans (le_of_eq (frob_congr fun i _ j _ => ?_)) hFe)
      rw [pe]
      unfold rel
      ring
    rcases leafLR_once E ta tb α A X C (fun L hL => (hA.lowRank_is hL).1) hl with e | ⟨e1, e2⟩
    · rw [e]; exact q.le (accErr_mono hε hB (by omega))
    · rw [e2]; exact (q.rc hE hε e1 hm hn b2).le (accErr_mono hε hB (by omega))
  · have na : ∀ L, A.label.data ≠ .lowRank L := fun L h => hl (Or.inl ⟨L, h⟩)
    have nx : ∀ L, X.label.data ≠ .lowRank L := fun L h => hl (Or.inr ⟨L, h⟩)
    unfold leafLR
    cases ha : A.label.data with
    | lowRank L => exact absurd ha (na L)
    | dense D p =>
      have a := hA.dense_is ha
      cases hx : X.label.data with
      | lowRank L => exact absurd hx (nx L)
      | dense D' p' =>
        have b := hX.dense_is hx
        have c := C35_matrix_matrix_product ta tb α D D' 1 (Mat.mk' (opRows ta D.nr D.nc) (opCols tb D'.nr D'.nc) 0)
          ⟨rfl, rfl, by rw [a.1, a.2.1, b.1, b.2.1]; exact hsz⟩
        refine dn _ ⟨?_, ?_, fun i hi j hj => ?_⟩
        · refine c.1.trans ?_
          show opRows ta D.nr D.nc = _
          rw [a.1, a.2.1, opRows_outC]
        · refine c.2.1.trans ?_
          show opCols tb D'.nr D'.nc = _
          rw [b.1, b.2.1, opCols_inC]
        · have hi' : i < opRows ta D.nr D.nc := by rw [a.1, a.2.1, opRows_outC]; exact hi
          have hj' : j < opCols tb D'.nr D'.nc := by rw [b.1, b.2.1, opCols_inC]; exact hj
          refine (c.2.2.1 i hi' j hj').trans ?_
          rw [show (Mat.mk' (opRows ta D.nr D.nc) (opCols tb D'.nr D'.nc) (0 : 𝕜)).get i j = 0 from mk'_get _ _ 0 hi' hj', mul_zero, add_zero, ← pz]
          rw [a.1, a.2.1] at hi' ⊢
          rw [b.1, b.2.1] at hj'
          have := prodE_congr (α := α) (β := 0) (FC := fun _ _ => 0) (FC' := fun _ _ => 0) a.2.2 b.2.2 hsz hi' hj' rfl
          unfold prodE at this
          simpa using this
      | hier =>
        have w := matHm_is hE.real hX ta tb α 0 (A := D) (C := Mat.mk' (opRows ta D.nr D.nc) (opCols tb X.label.t.sz X.label.s.sz) 0)
          (by rw [a.1, a.2.1]; exact hsz) rfl rfl
        refine dn _ ⟨?_, ?_, fun i hi j hj => ?_⟩
        · refine w.1.trans ?_
          show opRows ta D.nr D.nc = _
          rw [a.1, a.2.1, opRows_outC]
        · refine w.2.1.trans ?_
          show opCols tb X.label.t.sz X.label.s.sz = _
          rw [opCols_inC]
        · have hi' : i < opRows ta D.nr D.nc := by rw [a.1, a.2.1, opRows_outC]; exact hi
          have hj' : j < opCols tb X.label.t.sz X.label.s.sz := by rw [opCols_inC]; exact hj
          refine (w.2.2 i hi' j hj').trans ?_
          rw [a.1, a.2.1] at hi' ⊢
          rw [← pz]
          have := prodE_congr (α := α) (β := 0) (FC := fun _ _ => 0) (FC' := fun _ _ => 0) (FB := rel MB X.label.t.off X.label.s.off) a.2.2 (fun _ _ _ _ => rfl) hsz hi' hj' rfl
          unfold prodE at this ⊢
          simpa using this
    | hier =>
      cases hx : X.label.data with
      | lowRank L => exact absurd hx (nx L)
      | dense D' p' =>
        have b := hX.dense_is hx
        have w := hmMat_is hE.real hA ta tb α 0 (B := D') (C := Mat.mk' (opRows ta A.label.t.sz A.label.s.sz) (opCols tb D'.nr D'.nc) 0)
          (by rw [b.1, b.2.1]; exact hsz) rfl rfl
        refine dn _ ⟨?_, ?_, fun i hi j hj => ?_⟩
        · refine w.1.trans ?_
          show opRows ta A.label.t.sz A.label.s.sz = _
          rw [opRows_outC]
        · refine w.2.1.trans ?_
          show opCols tb D'.nr D'.nc = _
          rw [b.1, b.2.1, opCols_inC]
        · have hi' : i < opRows ta A.label.t.sz A.label.s.sz := by rw [opRows_outC]; exact hi
          have hj' : j < opCols tb D'.nr D'.nc := by rw [b.1, b.2.1, opCols_inC]; exact hj
          refine (w.2.2 i hi' j hj').trans ?_
          rw [b.1, b.2.1] at hj'
          rw [← pz]
          have := prodE_congr (α := α) (β := 0) (FC := fun _ _ => 0) (FC' := fun _ _ => 0) (FA := rel MA A.label.t.off A.label.s.off) (fun _ _ _ _ => rfl) b.2.2 hsz hi' hj' rfl
          unfold prodE at this ⊢
          simpa using this
      | hier =>
        exfalso
        unfold FTree.isHier at hh
        rw [ha, hx] at hh
        exact absurd hh (by simp)

end leaf
end Htool
