import Verif.HLinCholPivots
import Verif.Props.HLinChol
import Verif.Props.HLinLUAcc

/-! # C38: accuracy of the Cholesky factorization of an H-matrix, when the low-rank compressions are not exact

Specification: the factor stored by `cholesky_factorization` is multiplied by its adjoint (`lowF u T` is the lower triangular factor for both triangles); the
entries of the product are compared, in the triangle `u` which the function uses (`InHalf u`), with those of the matrix. `LinOps.Acc` is the accuracy of a single
compression, `FTree.PivotsC` says that every block given to `potrf` has a factor (`info = 0`). Either all blocks are stored, or those of the triangle used
(`MaskOK u m`: a symmetric or hermitian H-matrix). -/

namespace Htool
variable {G 𝕜 : Type*} [RCLike 𝕜] [DecidableEq 𝕜]
open Finset

section claims
variable {E : LinOps 𝕜} {ε : ℝ} {ad : ClusterTree G → ClusterTree G → Prop} {M : ℕ → ℕ → 𝕜} {A : FTree G 𝕜} {a : ℕ} {u : UploType} {m : Mask}

/-- A square H-matrix whose diagonal blocks are not compressed nor already factored; at most two clusters in every list of blocks, divisions having at most `a`. -/
structure CholOperandA (u : UploType) (m : Mask) (ad : ClusterTree G → ClusterTree G → Prop) (M : ℕ → ℕ → 𝕜) (a : ℕ) (A : FTree G 𝕜) : Prop where
  rep : Rep m ad M A
  mask : MaskOK u m
  pivots : A.NoPivots
  square : A.label.t = A.label.s
  top : A.label.t.Top
  bin : A.label.t.Bin
  diag : ∀ c, ¬ ad c c
  arity : A.label.t.Arity a

/-- **C38**, with compressions of relative accuracy `ε`: in the triangle used, the entries of `L L^* - A` (`U^* U - A`) are at most
`((1 + ε) ^ K - 1) (‖A‖ + ‖T‖²)`, Frobenius norms of the matrix and of the stored factor, `K` depending only on the height of the matrix and on the number of
clusters in one division. Missing: more than two clusters in a list, for which the claim is false. -/
theorem C38_accuracy_partial (hE : E.Acc ε) (hε : 0 ≤ ε) (hT : TrsmOK E) (hP : PotrfOK E) (hu : u ≠ .N) (hA : CholOperandA u m ad M a A) {f : ℕ} (hf : 2 * A.ht ≤ f)
    (hV : A.PivotsC E u f) :
    ∃ A' T, cholH E u f A = some A' ∧ A'.label.t = A.label.t ∧ A'.label.s = A.label.s ∧ A'.ht ≤ A.ht ∧ TriRep u false m ad T A' ∧
      (∀ i ∈ Ico A.label.t.off A.label.t.fin, ∀ j ∈ Ico A.label.t.off A.label.t.fin, i < j → lowF u T i j = 0) ∧
      ∀ i ∈ Ico A.label.t.off A.label.t.fin, ∀ j ∈ Ico A.label.t.off A.label.t.fin, InHalf u i j →
        ‖∑ l ∈ Ico A.label.t.off A.label.t.fin, lowF u T i l * star (lowF u T j l) - M i j‖ ≤
          ((1 + ε) ^ luTruncs a A.ht - 1) * (frobOn M A + frobOn T A' * frobOn T A') := by
  obtain ⟨A', T, e1, e2, e3, e4, e5, e6, e7⟩ := cholH_near (a := a) (hm := A.ht) hE hε hT hP hA.diag hu hA.mask f A.ht A M (le_refl _) hf (le_refl _) hA.rep
    (fun X hX D piv h => hA.pivots X hX D piv h) hA.square hA.top hA.bin hA.arity hV
  have sq : A'.label.t = A'.label.s := e2.trans (hA.square.trans e3.symm)
  refine ⟨A', T, e1, e2, e3, e4, ⟨hu, hA.mask, sq, Shape.imp e5 fun X _ hX => hX.2⟩, e6.1, ?_⟩
  have hW : ∃ W : ℕ → ℕ → ℝ, Maj W (frobOn M A + frobOn T A' * frobOn T A') ∧ CDom u A.label.t.off A.label.t.fin T M W A.label.t A.label.t := by
    cases u with
    | N => exact absurd rfl hu
    | L =>
      have hW := maj_product .N E.tr (1 : 𝕜) 1 T T M (A := A') (X := A') (C := A) (by rw [(tr_outC E A').1]; rfl) e2.symm
        (by rw [(tr_outC E A').2]; exact hA.square.symm.trans e2.symm)
      rw [norm_one, one_mul, one_mul] at hW
      refine ⟨_, hW, fun i hi j hj => ?_⟩
      have hi' := mem_Ico.1 hi
      have hj' := mem_Ico.1 hj
      refine le_of_le_of_eq ?_ (if_pos (show (A.label.t.off ≤ i ∧ i < A.label.t.off + A.label.t.sz) ∧ A.label.s.off ≤ j ∧ j < A.label.s.off + A.label.s.sz from
        ⟨hi', by rw [← hA.square]; exact hj'⟩)).symm
      rw [one_mul, one_mul, show A'.inC .N = A.label.t from sq.symm.trans e2]
      refine add_le_add (le_refl _) (le_of_eq (sum_congr rfl fun l _ => ?_))
      show _ = ‖T i l‖ * ‖opE E.tr T l j‖
      rw [opE_tr hE.real, norm_star, lowF_L, lowF_L]
    | U =>
      have hW := maj_product E.tr .N (1 : 𝕜) 1 T T M (A := A') (X := A') (C := A) (by rw [(tr_outC E A').2]; rfl)
        (by rw [(tr_outC E A').1]; exact e2.symm.trans sq) (hA.square.symm.trans (e2.symm.trans sq))
      rw [norm_one, one_mul, one_mul] at hW
      refine ⟨_, hW, fun i hi j hj => ?_⟩
      have hi' := mem_Ico.1 hi
      have hj' := mem_Ico.1 hj
      refine le_of_le_of_eq ?_ (if_pos (show (A.label.t.off ≤ i ∧ i < A.label.t.off + A.label.t.sz) ∧ A.label.s.off ≤ j ∧ j < A.label.s.off + A.label.s.sz from
        ⟨hi', by rw [← hA.square]; exact hj'⟩)).symm
      rw [one_mul, one_mul, show A'.inC E.tr = A.label.t from (tr_outC E A').2.trans e2]
      refine add_le_add (le_refl _) (le_of_eq (sum_congr rfl fun l _ => ?_))
      show _ = ‖opE E.tr T i l‖ * ‖T l j‖
      rw [opE_tr hE.real, norm_star, lowF_U, lowF_U, norm_star, norm_star]
  obtain ⟨W, w1, w2⟩ := hW
  have v := e7 W _ 0 M w1 (by show NearT m _ _ _ _; rw [accErr_zero]; exact hA.rep.near_of (Or.inr ⟨hA.square, hA.diag⟩)) w2
  intro i hi j hj hij
  have := v i hi j hj hij
  rw [Nat.zero_add, show (A.ht + 2 * A.ht) * (a * truncs a A.ht) = luTruncs a A.ht by unfold luTruncs; ring] at this
  exact this

/-- **C38**, solution in user numbering with compressions of relative accuracy `ε`: `K` is the hermitian matrix of which the H-matrix contains the triangle `u`;
the residual of the system of `K` is at most `((1 + ε) ^ k - 1) (‖A‖ + ‖T‖²)` times the sum of the absolute values of the solution. -/
theorem C38_solve_accuracy_partial (hE : E.Acc ε) (hε : 0 ≤ ε) (hT : TrsmOK E) (hP : PotrfOK E) (hu : u ≠ .N) (hA : CholOperandA u m ad M a A) {f : ℕ}
    (hf : 2 * A.ht ≤ f) (hV : A.PivotsC E u f) {n : ℕ} (hn : A.label.t.sz = n) {perm : List ℕ} (hp : LocalPerm perm A.label.t.off n) {K : ℕ → ℕ → 𝕜}
    (hherm : ∀ i < n, ∀ j < n, star (K i j) = K j i)
    (hK : ∀ i < n, ∀ j < n, InHalf u i j →
      M (A.label.t.off + i) (A.label.t.off + j) = K (userIdx perm A.label.t.off i) (userIdx perm A.label.t.off j)) :
    ∃ A' T, cholH E u f A = some A' ∧ TriRep u false m ad T A' ∧
      ∀ (X : Mat 𝕜) (mu g : ℕ), A.ht ≤ g → X.nr = n → X.nc = mu →
      ∃ Y, cholSolveUser E g u perm perm A' X = some Y ∧ Y.nr = n ∧ Y.nc = mu ∧ ∀ i < n, ∀ k < mu,
        ‖∑ l ∈ range n, K i l * Y.get l k - X.get i k‖ ≤
          ((1 + ε) ^ luTruncs a A.ht - 1) * (frobOn M A + frobOn T A' * frobOn T A') * ∑ l ∈ range n, ‖Y.get l k‖ := by
  obtain ⟨A', T, e1, e2, e3, e4, e5, e6, e7⟩ := C38_accuracy_partial hE hε hT hP hu hA hf hV
  refine ⟨A', T, e1, e5, fun X mu g hg h1 h2 => ?_⟩
  set δ : ℝ := ((1 + ε) ^ luTruncs a A.ht - 1) * (frobOn M A + frobOn T A' * frobOn T A') with hδ
  have es : A'.label.s = A.label.t := e3.trans hA.square.symm
  rw [← e2] at e7
  set N : ℕ → ℕ → 𝕜 := fun i j => ∑ l ∈ Ico A'.label.t.off A'.label.t.fin, lowF u T i l * star (lowF u T j l) with hN
  obtain ⟨Z, z1, z2, z3, z4⟩ := cholSolveH_spec hT hE.real (by omega : A'.ht ≤ g) e5 (by rw [e2]; exact hA.top) (M := N) (fun _ _ _ _ => rfl) (n := n)
    (by rw [e2]; exact hn) (X := permIn perm A.label.t.off n X) (mu := mu) h1 h2
  refine ⟨permOut perm A.label.t.off n Z X, ?_, h1, h2, fun w hw k hk => ?_⟩
  · unfold cholSolveUser
    rw [es, e2, hn, z1]
    rfl
  · obtain ⟨i, hi, rfl⟩ := userIdx_surj hp hw
    have key := z4 i hi k hk
    rw [permIn_get h1 hi (by omega)] at key
    rw [← key, ← sum_userIdx hp (fun l => K (userIdx perm A.label.t.off i) l * (permOut perm A.label.t.off n Z X).get l k),
      ← sum_userIdx hp (fun l => ‖(permOut perm A.label.t.off n Z X).get l k‖), ← sum_sub_distrib, mul_sum]
    refine (norm_sum_le _ _).trans (sum_le_sum fun l hl => ?_)
    have hl := mem_range.1 hl
    rw [permOut_get hp z2 h1 hl (by omega), ← sub_mul, norm_mul]
    refine mul_le_mul_of_nonneg_right ?_ (norm_nonneg _)
    have sz : A'.label.t.sz = n := by rw [e2]; exact hn
    have half : ∀ i < n, ∀ j < n, InHalf u i j →
        ‖K (userIdx perm A.label.t.off i) (userIdx perm A.label.t.off j) - rel N A'.label.t.off A'.label.t.off i j‖ ≤ δ := by
      intro i hi j hj hij
      rw [← hK i hi j hj hij, norm_sub_rev, ← e2]
      exact e7 _ (mem_Ico.2 (by unfold ClusterTree.fin; omega)) _ (mem_Ico.2 (by unfold ClusterTree.fin; omega)) (hij.imp (fun h => ⟨h.1, by omega⟩) fun h => ⟨h.1, by omega⟩)
    by_cases hij : InHalf u i l
    · exact half i hi l hl hij
    · have hji : InHalf u l i := by
        unfold InHalf at hij ⊢
        cases u with
        | N => exact absurd rfl hu
        | L => exact Or.inl ⟨rfl, by by_contra hc; exact hij (Or.inl ⟨rfl, by omega⟩)⟩
        | U => exact Or.inr ⟨rfl, by by_contra hc; exact hij (Or.inr ⟨rfl, by omega⟩)⟩
      have v := half l hl i hi hji
      rw [← norm_star, star_sub, hherm _ (userIdx_eq hp hl).2.2.2 _ (userIdx_eq hp hi).2.2.2, show star (rel N A'.label.t.off A'.label.t.off l i) =
        rel N A'.label.t.off A'.label.t.off i l from lowF_star_comm u T _ _ _] at v
      exact v

end claims

section built
variable {D : Type*} {S : Strategies D G} {flog : ℕ → ℕ → ℕ} {fuel n : ℕ} {arg : PartArg} {t : CTree G} {st : CState G} {E : BEnv G} {lr : LRGen 𝕜}
  {dg : Option (DenseGen 𝕜)} {gen : ℕ → ℕ → 𝕜} {L : LinOps 𝕜}

/-- **C38**, from memory to solution, with the compressions of the library. An H-matrix, without symmetry flag or stored by the triangle `u`, is built under any schedule
with any compressor;
`K` is the hermitian matrix of which it represents the triangle `u`, in user numbering. When `potrf` never fails, `cholesky_factorization` ends with a factor `T`,
and `cholesky_solve` gives, in user numbering, a vector whose residual is at most `((1 + eps) ^ k - 1) (‖A‖ + ‖T‖²)` times the sum of the absolute values of the
solution, `A` being the H-matrix. -/
theorem C38_built_accuracy_partial (hS : Setting S flog fuel n 2 arg t st E) (hp2 : arg.atMostTwo) (hp : arg.oneLevel flog 2) {u : UploType}
    (hu : u ≠ .N) (hup : E.sym = .N ∨ E.uplo = u) {T : ℕ} (hT : 0 < T) {fuel' : ℕ} {m m' : Mem 𝕜} {B' : Builder} {H : Tree ℕ} (h : BuildStep T E lr dg fuel' t t gen m Builder.empty m' B' H)
    {gesvd : Mat 𝕜 → SVDOut 𝕜} {geqrf gelqf : Mat 𝕜 → OrthOut 𝕜} {eps : ℝ} (hE : L.UsesSVD gesvd geqrf gelqf eps) (hl : LapackOK gesvd geqrf gelqf)
    (he : 0 ≤ eps) (hTr : TrsmOK L) (hP : PotrfOK L) {K : ℕ → ℕ → 𝕜} (hherm : ∀ i < n, ∀ j < n, star (K i j) = K j i)
    (hK : ∀ i < n, ∀ j < n, InHalf u i j → HTree.entry (H.map m'.heap : HTree 𝕜) i j = K (st.perm.getD i 0) (st.perm.getD j 0))
    {F : FTree G 𝕜} (hF : InMemory E fuel' t m' H F) {f : ℕ} (hf : 2 * F.ht ≤ f) (hV : F.PivotsC L u f) :
    ∃ F' T, cholH L u f F = some F' ∧ TriRep u false E.mask E.admC T F' ∧
      ∀ (X : Mat 𝕜) (mu g : ℕ), F.ht ≤ g → X.nr = n → X.nc = mu →
      ∃ Y, cholSolveUser L g u st.perm st.perm F' X = some Y ∧ Y.nr = n ∧ Y.nc = mu ∧ ∀ i < n, ∀ k < mu,
        ‖∑ l ∈ range n, K i l * Y.get l k - X.get i k‖ ≤
          ((1 + eps) ^ luTruncs (max 2 arg.count) F.ht - 1) * (frob n n (HTree.entry (H.map m'.heap : HTree 𝕜)) + frob n n T * frob n n T) *
            ∑ l ∈ range n, ‖Y.get l k‖ := by
  obtain ⟨r1, r2, r3, r4⟩ := (hS.view hT h).2 F hF
  obtain ⟨o1, o2, o3⟩ := clusterTree_off hS
  have hmask : MaskOK u E.mask := by
    unfold BEnv.mask
    by_cases hs : E.sym = .N
    · rw [if_pos hs]; exact Or.inl rfl
    · rw [if_neg hs]
      rcases hup with hup | hup
      · exact absurd hup hs
      · rw [hup]
        cases u with
        | N => exact absurd rfl hu
        | L => exact Or.inr (Or.inl ⟨rfl, rfl⟩)
        | U => exact Or.inr (Or.inr ⟨rfl, rfl⟩)
  have op : CholOperandA u E.mask E.admC (HTree.entry (H.map m'.heap)) (max 2 arg.count) F :=
    ⟨r1, hmask, r4, r2.trans r3.symm, r2 ▸ hS.top, by rw [r2, hS.tct]; exact hS.built.bin hp2, hS.admC, by rw [r2, hS.tct]; exact hS.built.arity hp⟩
  obtain ⟨F', Tf, e1, e2, e3⟩ := C38_solve_accuracy_partial (hE.acc hl he) he hTr hP hu op hf hV (by rw [r2, o2]) (by rw [r2, o1]; exact hS.perm.2.2) (K := K) hherm
    fun i hi j hj hij => by
      rw [r2, o1]
      unfold userIdx
      simp only [Nat.zero_add, Nat.sub_zero]
      exact hK i hi j hj hij
  have fr : ∀ (N : ℕ → ℕ → 𝕜) (X : FTree G 𝕜), X.label.t = F.label.t → X.label.s = F.label.s → frobOn N X = frob n n N := by
    intro N X h1 h2
    unfold frobOn
    rw [h1, h2, r2, r3, o1, o2]
    refine frob_congr fun i _ j _ => ?_
    unfold rel
    rw [Nat.zero_add, Nat.zero_add]
  obtain ⟨G1, -, g1, g2, g3, -⟩ := C38_accuracy_partial (hE.acc hl he) he hTr hP hu op hf hV
  obtain rfl := Option.some.inj (g1.symm.trans e1)
  rw [fr _ F rfl rfl, fr _ G1 g2 g3] at e3
  exact ⟨G1, Tf, e1, e2, e3⟩

end built

/-! ## The hypotheses can be met -/

/-- A block tree built by the library over 12 points with `min(i, j) + 1`: every block given to `potrf` has a factor. -/
example : ∃ (E : LinOps ℂ) (A : FTree (List ℕ) ℂ) (perm : List ℕ), E.Acc (1 / 100) ∧ TrsmOK E ∧ PotrfOK E ∧
    CholOperandA .L .full (fun p q => p.iv ≠ q.iv) (fun i j => ((min i j + 1 : ℕ) : ℂ)) 2 A ∧ A.isHier = true ∧ 3 ≤ A.ht ∧ A.PivotsC E .L (2 * A.ht) ∧
    A.label.t.sz = 12 ∧ LocalPerm perm A.label.t.off 12 := by
  obtain ⟨t, st, hr, hb⟩ := exBuild_built
  obtain ⟨E, -, hE, hE', hG⟩ := exact_chol_ops_exist (R := ℂ) true (by simp)
  have w := create_wf hb.strategies hb.hflog hb.hnc hb.harg hb.hpos hb.build hb.ranks
  have s := create_shape hb.strategies hb.hflog hb.hnc hb.harg hb.build
  have good : (exEnv t st none none .N .N).Good := ⟨w.1, w.2, s.2.2.2.2, w.1, w.2, s.2.2.2.2, rfl, rfl, rfl⟩
  have h1 : ∀ r ∈ exBuild, ∃ b ∈ buildBlockTree (exEnv r.1 r.2 none none .N .N) 100 r.1 r.1, 3 ≤ b.ht ∧ b.label.kind = .hier := by decide +kernel
  obtain ⟨b, hbb, hht, hk⟩ := h1 (t, st) hr
  have hbb : buildBlockTree (exEnv t st none none .N .N) 100 _ _ = some b := hbb
  have hm : (exEnv t st none none .N .N).mask = .full := rfl
  obtain ⟨A, a1, a2, a3, a4, a5, a6, -⟩ := rep_exists' good hbb (fun i j => ((min i j + 1 : ℕ) : ℂ)) (fun p q => p.iv ≠ q.iv)
  rw [hm] at a1
  have lp := localPerm_root hb.strategies hb.hflog hb.hnc hb.harg hb.build
  have o0 : A.label.t.off = 0 := by rw [a2]; exact lp.1
  have o1 : A.label.t.sz = 12 := by rw [a2]; exact lp.2.1
  have sq : A.label.t = A.label.s := a2.trans a3.symm
  have tp : A.label.t.Top := by rw [a2]; exact hb.clOK.2
  have hd : ∀ c : ClusterTree (List ℕ), ¬ (fun p q => p.iv ≠ q.iv) c c := fun c h => h rfl
  have ar : (clusterTreeOf t st).Arity 2 := hb.arity (Or.inr (show Nat.log 2 2 = 1 by decide))
  have bn : A.label.t.Bin := by rw [a2]; exact hb.bin (show 2 ≤ 2 by decide)
  have hc : HasChol (fun i j => ((min i j + 1 : ℕ) : ℂ)) A.label.t.off A.label.t.fin := by
    unfold ClusterTree.fin
    rw [o0]
    exact min_chol _
  refine ⟨E, A, st.perm, hE.acc (by norm_num), hE', hG, ⟨a1, Or.inl rfl, a5, sq, tp, bn, hd, by rw [a2]; exact ar⟩, a6 hk, by omega,
    cholH_pivots hE hE' hG hd (by simp) (Or.inl rfl) _ A _ (le_refl _) a1 (fun X hX D piv h => a5 X hX D piv h) sq tp bn hc, o1, ?_⟩
  rw [o0]
  have := lp.2.2
  rw [lp.1, lp.2.1] at this
  exact this

/-- The same, of a hermitian H-matrix stored by its lower triangle. -/
example : ∃ (E : LinOps ℂ) (A : FTree (List ℕ) ℂ) (perm : List ℕ), E.Acc (1 / 100) ∧ TrsmOK E ∧ PotrfOK E ∧
    CholOperandA .L .lower (fun p q => p.iv ≠ q.iv) (fun i j => ((min i j + 1 : ℕ) : ℂ)) 2 A ∧ A.isHier = true ∧ 3 ≤ A.ht ∧ A.PivotsC E .L (2 * A.ht) ∧
    A.label.t.sz = 12 ∧ LocalPerm perm A.label.t.off 12 := by
  obtain ⟨t, st, hr, hb⟩ := exBuild_built
  obtain ⟨E, -, hE, hE', hG⟩ := exact_chol_ops_exist (R := ℂ) true (by simp)
  have w := create_wf hb.strategies hb.hflog hb.hnc hb.harg hb.hpos hb.build hb.ranks
  have s := create_shape hb.strategies hb.hflog hb.hnc hb.harg hb.build
  have good : (exEnv t st none none .H .L).Good := ⟨w.1, w.2, s.2.2.2.2, w.1, w.2, s.2.2.2.2, rfl, rfl, rfl⟩
  have h1 : ∀ r ∈ exBuild, ∃ b ∈ buildBlockTree (exEnv r.1 r.2 none none .H .L) 100 r.1 r.1, 3 ≤ b.ht ∧ b.label.kind = .hier := by decide +kernel
  obtain ⟨b, hbb, hht, hk⟩ := h1 (t, st) hr
  have hbb : buildBlockTree (exEnv t st none none .H .L) 100 _ _ = some b := hbb
  have hm : (exEnv t st none none .H .L).mask = .lower := rfl
  obtain ⟨A, a1, a2, a3, a4, a5, a6, -⟩ := rep_exists' good hbb (fun i j => ((min i j + 1 : ℕ) : ℂ)) (fun p q => p.iv ≠ q.iv)
  rw [hm] at a1
  have lp := localPerm_root hb.strategies hb.hflog hb.hnc hb.harg hb.build
  have o0 : A.label.t.off = 0 := by rw [a2]; exact lp.1
  have o1 : A.label.t.sz = 12 := by rw [a2]; exact lp.2.1
  have sq : A.label.t = A.label.s := a2.trans a3.symm
  have tp : A.label.t.Top := by rw [a2]; exact hb.clOK.2
  have hd : ∀ c : ClusterTree (List ℕ), ¬ (fun p q => p.iv ≠ q.iv) c c := fun c h => h rfl
  have ar : (clusterTreeOf t st).Arity 2 := hb.arity (Or.inr (show Nat.log 2 2 = 1 by decide))
  have bn : A.label.t.Bin := by rw [a2]; exact hb.bin (show 2 ≤ 2 by decide)
  have hc : HasChol (fun i j => ((min i j + 1 : ℕ) : ℂ)) A.label.t.off A.label.t.fin := by
    unfold ClusterTree.fin
    rw [o0]
    exact min_chol _
  refine ⟨E, A, st.perm, hE.acc (by norm_num), hE', hG, ⟨a1, Or.inr (Or.inl ⟨rfl, rfl⟩), a5, sq, tp, bn, hd, by rw [a2]; exact ar⟩, a6 hk, by omega,
    cholH_pivots hE hE' hG hd (by simp) (Or.inr (Or.inl ⟨rfl, rfl⟩)) _ A _ (le_refl _) a1 (fun X hX D piv h => a5 X hX D piv h) sq tp bn hc, o1, ?_⟩
  rw [o0]
  have := lp.2.2
  rw [lp.1, lp.2.1] at this
  exact this

end Htool
