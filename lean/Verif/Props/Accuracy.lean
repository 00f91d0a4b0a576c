import Verif.Compressors
import Verif.Props.HBuild
import Verif.Props.Lapack

/-! # Accuracy of H-matrices, from the generator to the product (C56) -/

namespace Htool

open Finset
variable {G : Type*} {𝕜 : Type*} [RCLike 𝕜]

/-! ## Specification -/

/-- Euclidean norm of the first `n` values of a buffer. -/
noncomputable def norm2 (n : ℕ) (x : Buf 𝕜) : ℝ := √(∑ i ∈ range n, ‖x i‖ ^ 2)

/-- A compressor is accurate up to the relative tolerance `eps` and the absolute tolerance `δ` per coefficient: unless it reports a failure (factors of
wrong dimensions), the error on each block satisfies the bound, in Frobenius norm. -/
def AccurateLR (lr : LRGen 𝕜) (gen : ℕ → ℕ → 𝕜) (eps δ : ℝ) : Prop :=
  ∀ a b : ℕ × ℕ, 0 < a.2 → 0 < b.2 → (lr gen a b).urows = a.2 → (lr gen a b).vcols = b.2 →
    frob a.2 b.2 (fun i j => (∑ k ∈ range (lr gen a b).rank, (lr gen a b).U i k * (lr gen a b).V k j) - gen (a.1 + i) (b.1 + j)) ^ 2 ≤
      eps ^ 2 * frob a.2 b.2 (genBlock gen a b) ^ 2 + δ ^ 2 * (a.2 * b.2)

/-! ## Lemmas -/

theorem frob_sq (M N : ℕ) (f : ℕ → ℕ → 𝕜) : frob M N f ^ 2 = ∑ i ∈ range M, ∑ j ∈ range N, ‖f i j‖ ^ 2 :=
  Real.sq_sqrt (sum_nonneg fun _ _ => sum_nonneg fun _ _ => sq_nonneg _)

theorem norm2_sq (n : ℕ) (x : Buf 𝕜) : norm2 n x ^ 2 = ∑ i ∈ range n, ‖x i‖ ^ 2 := Real.sq_sqrt (sum_nonneg fun _ _ => sq_nonneg _)

theorem norm2_nonneg (n : ℕ) (x : Buf 𝕜) : 0 ≤ norm2 n x := Real.sqrt_nonneg _

theorem norm2_congr {n : ℕ} {x y : Buf 𝕜} (h : ∀ i < n, x i = y i) : norm2 n x = norm2 n y := by
  unfold norm2; rw [sum_congr rfl fun i hi => by rw [h i (mem_range.1 hi)]]

/-- Product of a matrix and a vector. -/
theorem norm2_mulVec (m n : ℕ) (E : ℕ → ℕ → 𝕜) (x : Buf 𝕜) : norm2 m (fun i => ∑ j ∈ range n, E i j * x j) ≤ frob m n E * norm2 n x := by
  unfold norm2 frob
  rw [← Real.sqrt_mul (sum_nonneg fun _ _ => sum_nonneg fun _ _ => sq_nonneg _)]
  refine Real.sqrt_le_sqrt ?_
  rw [sum_mul]
  refine sum_le_sum fun i _ => ?_
  calc ‖∑ j ∈ range n, E i j * x j‖ ^ 2 ≤ (∑ j ∈ range n, ‖E i j‖ * ‖x j‖) ^ 2 := by
        refine pow_le_pow_left₀ (norm_nonneg _) ((norm_sum_le _ _).trans (le_of_eq (sum_congr rfl fun j _ => norm_mul _ _))) 2
    _ ≤ (∑ j ∈ range n, ‖E i j‖ ^ 2) * ∑ j ∈ range n, ‖x j‖ ^ 2 := sum_mul_sq_le_sq_mul_sq _ _ _

theorem norm2_smul (n : ℕ) (a : 𝕜) (x : Buf 𝕜) : norm2 n (fun i => a * x i) = ‖a‖ * norm2 n x := by
  unfold norm2
  rw [← Real.sqrt_sq (norm_nonneg a), ← Real.sqrt_mul (sq_nonneg _), mul_sum]
  simp only [norm_mul, mul_pow, Real.sqrt_sq (norm_nonneg a)]

/-- Frobenius norm of a transposed or conjugated matrix. -/
theorem frob_opE (tr : Trans) (m n : ℕ) (E : ℕ → ℕ → 𝕜) : frob (opRows tr m n) (opCols tr m n) (opE tr E) = frob m n E := by
  cases tr with
  | N => rfl
  | T => exact (frob_swap m n E).symm
  | C =>
    rw [frob_swap m n E]
    unfold frob opE opRows opCols
    simp

/-! ## Theorems -/

/-- **C56** The operator represented by an H-matrix returned by `build`, under any schedule, for any symmetry: if the compressor is accurate on each
block, the error on the whole block of rows `r` and columns `s` satisfies the same bound in Frobenius norm. -/
theorem C56_built_operator {T : ℕ} (hT : 0 < T) {E : BEnv G} {cplx : Bool} {lr : LRGen 𝕜} {dg : Option (DenseGen 𝕜)} {fuel : ℕ}
    {t s r : CTree G} (hcov : Covered E t s r) {gen : ℕ → ℕ → 𝕜} (hgen : UserGen E cplx dg gen r.iv) {eps δ : ℝ} (hlr : AccurateLR lr gen eps δ)
    {m m' : Mem 𝕜} {B' : Builder} {H : Tree ℕ} (h : BuildStep T E lr dg fuel t s gen m Builder.empty m' B' H) :
    frob r.sz s.sz (fun i j => HTree.entry (H.map m'.heap) (r.off + i) (s.off + j) - gen (r.off + i) (s.off + j)) ^ 2 ≤
      eps ^ 2 * frob r.sz s.sz (fun i j => gen (r.off + i) (s.off + j)) ^ 2 + δ ^ 2 * (r.sz * s.sz) := by
  obtain ⟨b, h1, h2, -⟩ := build_spec hT hcov.buildOK (sysInv_empty m) h
  obtain ⟨hb, e1, e2⟩ := hcov.blocks h1
  rw [← e1] at hgen
  have hg : GenOK E cplx dg gen b := hgen.genOK
  have r1 : b.label.t.off = r.off := by rw [e1]
  have r2 : b.label.t.sz = r.sz := by rw [e1]
  have s1 : b.label.s.off = s.off := by rw [e2]
  have s2 : b.label.s.sz = s.sz := by rw [e2]
  have key : ∀ (M N : ℕ) (X A : ℕ → ℕ → 𝕜), ∑ i ∈ range M, ∑ j ∈ range N, (‖X i j - A i j‖ ^ 2 - eps ^ 2 * ‖A i j‖ ^ 2 - δ ^ 2) =
      frob M N (fun i j => X i j - A i j) ^ 2 - (eps ^ 2 * frob M N A ^ 2 + δ ^ 2 * (M * N)) := by
    intro M N X A
    rw [frob_sq, frob_sq]
    simp only [sum_sub_distrib, ← mul_sum, sum_const, card_range, nsmul_eq_mul]
    ring
  have := assembled_sum_le (lr := lr) hb hg (fun x y => ‖x - y‖ ^ 2 - eps ^ 2 * ‖y‖ ^ 2 - δ ^ 2)
    (fun x y => by rw [← star_sub, norm_star, norm_star])
    (fun x => by
      rw [sub_self, norm_zero]
      have := mul_nonneg (sq_nonneg eps) (sq_nonneg ‖x‖)
      have := sq_nonneg δ
      linarith [show (0 : ℝ) ^ 2 = 0 from by norm_num]) ?_
  · rw [key b.label.t.sz b.label.s.sz (fun i j => (assembled E lr dg gen b).entry (b.label.t.off + i) (b.label.s.off + j))
      (fun i j => gen (b.label.t.off + i) (b.label.s.off + j)), r1, r2, s1, s2] at this
    rw [h2]
    linarith
  · intro c hc hk hf
    have hne : ¬ lrFails (mkCell E c.label) (lr gen c.label.t.iv c.label.s.iv) = true := by rw [hf]; simp
    rw [lrFails_iff] at hne
    push Not at hne
    have hk' := key c.label.t.sz c.label.s.sz (fun i j => ∑ k ∈ Finset.range (lr gen c.label.t.iv c.label.s.iv).rank, (lr gen c.label.t.iv c.label.s.iv).U i k *
          (lr gen c.label.t.iv c.label.s.iv).V k j) (genBlock gen c.label.t.iv c.label.s.iv)
    refine le_of_eq_of_le hk' ?_
    rcases Nat.eq_zero_or_pos c.label.t.sz with h0 | hp
    · have : ∀ f : ℕ → ℕ → 𝕜, frob c.label.t.sz c.label.s.sz f = 0 := fun f => by rw [h0]; simp [frob]
      rw [this, this, h0]; simp
    rcases Nat.eq_zero_or_pos c.label.s.sz with h0 | hp'
    · have : ∀ f : ℕ → ℕ → 𝕜, frob c.label.t.sz c.label.s.sz f = 0 := fun f => by rw [h0]; simp [frob]
      rw [this, this, h0]; simp
    have := hlr c.label.t.iv c.label.s.iv hp hp' hne.1 hne.2
    have e : frob c.label.t.sz c.label.s.sz (fun i j => (∑ k ∈ range (lr gen c.label.t.iv c.label.s.iv).rank, (lr gen c.label.t.iv c.label.s.iv).U i k *
      (lr gen c.label.t.iv c.label.s.iv).V k j) - genBlock gen c.label.t.iv c.label.s.iv i j) ^ 2 ≤
      eps ^ 2 * frob c.label.t.sz c.label.s.sz (genBlock gen c.label.t.iv c.label.s.iv) ^ 2 + δ ^ 2 * (c.label.t.sz * c.label.s.sz) := this
    linarith

/-- **C56** Accuracy of products: build an H-matrix under any schedule, then multiply under any schedule. The output differs from `β y + α op(A) x`, with
`A` the matrix of the generator, by at most `|α| sqrt(eps² ‖A‖² + δ² #A) ‖x‖` in Euclidean norm. -/
theorem C56_built_product {T T' : ℕ} (hT : 0 < T) (hT' : 0 < T') {E : BEnv G} {cplx : Bool} {lr : LRGen 𝕜} {dg : Option (DenseGen 𝕜)} {fuel : ℕ}
    {t s r : CTree G} (hcov : Covered E t s r) {gen : ℕ → ℕ → 𝕜} (hgen : UserGen E cplx dg gen r.iv) {eps δ : ℝ} (hlr : AccurateLR lr gen eps δ)
    {m m' : Mem 𝕜} {B' : Builder} {H : Tree ℕ} (h : BuildStep T E lr dg fuel t s gen m Builder.empty m' B' H)
    [DecidableEq 𝕜] {tr : Trans} (hsup : Supported 𝕜 E.sym.toH tr) (α β : 𝕜) (x y z : Buf 𝕜) (hz : OmpVec T' cplx tr α (H.map m'.heap) x β y z) :
    let A := fun i j => gen (r.off + i) (s.off + j)
    norm2 (opRows tr r.sz s.sz) (fun i => z i - (β * y i + α * ∑ j ∈ range (opCols tr r.sz s.sz), opE tr A i j * x j)) ≤
      ‖α‖ * (√(eps ^ 2 * frob r.sz s.sz A ^ 2 + δ ^ 2 * (r.sz * s.sz)) * norm2 (opCols tr r.sz s.sz) x) := by
  intro A
  obtain ⟨hfit, hr, hs, -⟩ := C19_built_operator hT hcov hgen (close := fun _ _ => True) ⟨fun _ => trivial, fun _ _ _ => trivial⟩ (fun _ _ _ _ _ _ _ _ => trivial) h
  have r1 : (H.map m'.heap).label.toff = r.off := congrArg Prod.fst hr
  have r2 : (H.map m'.heap).label.tsz = r.sz := congrArg Prod.snd hr
  have s1 : (H.map m'.heap).label.soff = s.off := congrArg Prod.fst hs
  have s2 : (H.map m'.heap).label.ssz = s.sz := congrArg Prod.snd hs
  have hM : HTree.mat (H.map m'.heap) = fun i j => HTree.entry (H.map m'.heap) (r.off + i) (s.off + j) := by
    unfold HTree.mat; rw [r1, s1]
  have hprod : ∀ i < opRows tr r.sz s.sz, z i = β * y i + α * ∑ j ∈ range (opCols tr r.sz s.sz), opE tr (HTree.mat (H.map m'.heap)) i j * x j := by
    intro i hi
    rw [C20_parallel_product_is_sequential hT' hfit hsup hz, C19_sequential_product hfit hsup, r2, s2, if_pos hi]
  have hacc := C56_built_operator hT hcov hgen hlr h
  generalize HTree.mat (H.map m'.heap) = M at *
  have hsub : ∀ i j, opE tr M i j - opE tr A i j = opE tr (fun i j => M i j - A i j) i j := by
    intro i j
    cases tr <;> simp [opE]
  have e : norm2 (opRows tr r.sz s.sz) (fun i => z i - (β * y i + α * ∑ j ∈ range (opCols tr r.sz s.sz), opE tr A i j * x j)) =
      ‖α‖ * norm2 (opRows tr r.sz s.sz) (fun i => ∑ j ∈ range (opCols tr r.sz s.sz), opE tr (fun i j => M i j - A i j) i j * x j) := by
    rw [← norm2_smul]
    refine norm2_congr fun i hi => ?_
    rw [hprod i hi, add_sub_add_left_eq_sub, ← mul_sub, ← sum_sub_distrib]
    congr 1
    exact sum_congr rfl fun j _ => by rw [← sub_mul, hsub]
  rw [e]
  refine mul_le_mul_of_nonneg_left ((norm2_mulVec _ _ _ _).trans (mul_le_mul_of_nonneg_right ?_ (norm2_nonneg _ _))) (norm_nonneg _)
  rw [frob_opE]
  refine Real.le_sqrt_of_sq_le ?_
  rw [hM]
  exact hacc

/-! ## The compressors of the library -/

/-- **C56** The SVD compressor without required rank is accurate. -/
theorem C56_svd_accurate {gesvd : Mat 𝕜 → SVDOut 𝕜} (hsvd : ∀ A, IsSVD A (gesvd A)) (gen : ℕ → ℕ → 𝕜) {eps : ℝ} (he : 0 ≤ eps) :
    AccurateLR (lrSVD gesvd eps (-1)) gen eps 0 := by
  intro a b ha hb h1 h2
  have hz : ¬ ((-1 : ℤ) = 0) := by decide
  unfold lrSVD lrCtor at h1 h2 ⊢
  simp only [if_neg hz] at h1 h2 ⊢
  obtain ⟨k, hk1, hk2, -, hc⟩ := (C31_svd_generator gesvd gen a b ha hb (hsvd _) eps (-1) (Mat.mk' 0 0 0) (Mat.mk' 0 0 0)).1 rfl
  rcases hc with ⟨-, hc⟩ | ⟨-, -, hrk, -, hap⟩
  · rw [hc] at h1
    have : (0 : ℕ) = a.2 := h1
    omega
  · have := hap.le he
    rw [frob_sub_comm] at this
    have h3 := pow_le_pow_left₀ (frob_nonneg _ _ _) this 2
    rw [mul_pow] at h3
    refine le_trans h3 ?_
    simp

/-- **C56** `fullACA` without required rank is accurate, up to coefficients of `1e-15`. -/
theorem C56_fullACA_accurate (gen : ℕ → ℕ → 𝕜) (eps : ℝ) {reqrank : ℤ} (hq : reqrank < 0) :
    AccurateLR (lrFullACA (rcModulus 𝕜) eps reqrank) gen eps (acaTol ℝ) := by
  intro a b ha hb h1 h2
  have hz : ¬ (reqrank = 0) := by omega
  unfold lrFullACA lrCtor at h1 h2 ⊢
  simp only [if_neg hz] at h1 h2 ⊢
  obtain ⟨rk, U', V', hf, hc⟩ := C29_fullACA (rcModulus 𝕜) gen a b ha hb eps reqrank hz (Mat.mk' 0 0 0) (Mat.mk' 0 0 0)
  rw [hf] at h1 h2 ⊢
  simp only [acaResult, Option.getD_some] at h1 h2 ⊢
  have hU : U'.nr ≠ 0 := by omega
  have t1 : (0 : ℝ) ≤ eps ^ 2 * frob a.2 b.2 (genBlock gen a b) ^ 2 := mul_nonneg (sq_nonneg _) (sq_nonneg _)
  have t2 : (0 : ℝ) ≤ acaTol ℝ ^ 2 * (a.2 * b.2) := mul_nonneg (sq_nonneg _) (by positivity)
  rcases hc.cases with ⟨-, hu, -⟩ | ⟨-, hu, -⟩ | ⟨k, Is, Js, hk, -, u1, u2, v1, v2, -, -, -, hacc⟩
  · rw [hu] at hU; exact absurd rfl hU
  · rw [hu] at hU; exact absurd rfl hU
  · have hsw : frob a.2 b.2 (fun i j => (∑ l ∈ range U'.nc, U'.get i l * V'.get l j) - gen (a.1 + i) (b.1 + j)) =
        frob a.2 b.2 (fun i j => genBlock gen a b i j - LR.entry ⟨U', V'⟩ i j) := frob_sub_comm _ _ _ _
    rw [hsw]
    rcases hacc with hacc | ⟨hq', -⟩ | ⟨-, hacc⟩
    · rw [frob_sq]
      have : ∑ i ∈ range a.2, ∑ j ∈ range b.2, ‖genBlock gen a b i j - LR.entry ⟨U', V'⟩ i j‖ ^ 2 ≤ ∑ i ∈ range a.2, ∑ j ∈ range b.2, acaTol ℝ ^ 2 :=
        sum_le_sum fun i hi => sum_le_sum fun j hj => pow_le_pow_left₀ (norm_nonneg _) (hacc i (mem_range.1 hi) j (mem_range.1 hj)).le 2
      simp only [sum_const, card_range, nsmul_eq_mul] at this
      linarith
    · omega
    · have hn : ∀ f : ℕ → ℕ → 𝕜, frob a.2 b.2 f ^ 2 = normSq (rcModulus 𝕜) a.2 b.2 f := fun f => frob_sq _ _ _
      rw [hn, hn] at *
      linarith

/-- **C56** H-matrix compressed by SVD: relative error at most `eps` in Frobenius norm. -/
theorem C56_svd {T : ℕ} (hT : 0 < T) {E : BEnv G} {cplx : Bool} {gesvd : Mat 𝕜 → SVDOut 𝕜} (hsvd : ∀ A, IsSVD A (gesvd A)) {dg : Option (DenseGen 𝕜)}
    {fuel : ℕ} {t s r : CTree G} (hcov : Covered E t s r) {gen : ℕ → ℕ → 𝕜} (hgen : UserGen E cplx dg gen r.iv) {eps : ℝ} (he : 0 ≤ eps)
    {m m' : Mem 𝕜} {B' : Builder} {H : Tree ℕ} (h : BuildStep T E (lrSVD gesvd eps (-1)) dg fuel t s gen m Builder.empty m' B' H) :
    frob r.sz s.sz (fun i j => HTree.entry (H.map m'.heap) (r.off + i) (s.off + j) - gen (r.off + i) (s.off + j)) ≤
      eps * frob r.sz s.sz (fun i j => gen (r.off + i) (s.off + j)) := by
  have := C56_built_operator hT hcov hgen (C56_svd_accurate hsvd gen he) h
  refine le_of_sq_le_sq' ?_ (mul_nonneg he (frob_nonneg _ _ _))
  rw [mul_pow]; linarith
where
  le_of_sq_le_sq' {x y : ℝ} (h : x ^ 2 ≤ y ^ 2) (hy : 0 ≤ y) : x ≤ y := le_trans (le_abs_self x) (by rw [← abs_of_nonneg hy]; exact sq_le_sq.1 h)

/-- **C56** H-matrix compressed by `fullACA`: the squared error is at most `eps² ‖A‖²` plus `1e-30` per coefficient. -/
theorem C56_fullACA {T : ℕ} (hT : 0 < T) {E : BEnv G} {cplx : Bool} {dg : Option (DenseGen 𝕜)}
    {fuel : ℕ} {t s r : CTree G} (hcov : Covered E t s r) {gen : ℕ → ℕ → 𝕜} (hgen : UserGen E cplx dg gen r.iv) {eps : ℝ} {reqrank : ℤ} (hq : reqrank < 0)
    {m m' : Mem 𝕜} {B' : Builder} {H : Tree ℕ} (h : BuildStep T E (lrFullACA (rcModulus 𝕜) eps reqrank) dg fuel t s gen m Builder.empty m' B' H) :
    frob r.sz s.sz (fun i j => HTree.entry (H.map m'.heap) (r.off + i) (s.off + j) - gen (r.off + i) (s.off + j)) ^ 2 ≤
      eps ^ 2 * frob r.sz s.sz (fun i j => gen (r.off + i) (s.off + j)) ^ 2 + (1 / 10 ^ 15) ^ 2 * (r.sz * s.sz) :=
  C56_built_operator hT hcov hgen (C56_fullACA_accurate gen eps hq) h

/-! ### Examples: a symmetric matrix on a cluster tree with several levels, built by three threads -/

/-- Memory before the first allocation. -/
noncomputable def exMemC : Mem ℂ := ⟨fun _ => ⟨0, 0, 0, 0, .N, .N, .N, .N, .hier⟩, fun _ => false, 0, false⟩

/-- The hypotheses are met, and executions exist, on a 16-point cluster tree with a symmetric matrix, with the SVD compressor (for LAPACK routines which
exist) and with `fullACA`. -/
example : ∃ t st, exBuild = some (t, st) ∧ ∃ E : BEnv (List ℕ), E = exEnv t st none none .S .L ∧
    ∃ gesvd : Mat ℂ → SVDOut ℂ, (∀ A, IsSVD A (gesvd A)) ∧
    ∀ lr ∈ [lrSVD gesvd (1 / 100) (-1), lrFullACA (rcModulus ℂ) (1 / 100) (-1)],
    ∃ (m' : Mem ℂ) (B' : Builder) (H : Tree ℕ), Covered E t t t ∧ UserGen (R := ℂ) E true none (fun i j => (i : ℂ) + j) t.iv ∧
      BuildStep 3 E lr none 100 t t (fun i j => (i : ℂ) + j) exMemC Builder.empty m' B' H ∧ Supported ℂ E.sym.toH .N := by
  obtain ⟨t, st, h, hb⟩ := exBuild_built
  obtain ⟨g, q, l, hl⟩ := exists_lapack ℂ
  refine ⟨t, st, h, _, rfl, g, hl.svd, fun lr _ => ?_⟩
  have hc : Covered (exEnv t st none none .S .L) t t t :=
    .diag ⟨hb.wf.1, hb.wf.2, rfl, rfl, by simp [exEnv], by simp [exEnv]⟩ rfl (Tree.mem_pre_self t) (Or.inl rfl)
  have hr : (buildBlocks (exEnv t st none none .S .L) 100 t t).isSome := by
    have h2 : ∀ r ∈ exBuild, (buildBlocks (exEnv r.1 r.2 none none .S .L) 100 r.1 r.1).isSome := by decide +kernel
    exact h2 (t, st) h
  obtain ⟨b, hr⟩ := Option.isSome_iff_exists.1 hr
  obtain ⟨m', B', H, hst⟩ := build_exists (T := 3) (lr := lr) (dg := none) hc.buildOK (gen := fun i j => (i : ℂ) + j) (sysInv_empty exMemC) hr
  exact ⟨m', B', H, hc, ⟨by simp [exEnv], fun _ i j _ _ => add_comm _ _, by simp [exEnv], by simp⟩, hst, Or.inl (by simp)⟩

end Htool
