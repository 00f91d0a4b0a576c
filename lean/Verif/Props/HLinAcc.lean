import Verif.HLinAcc4
import Verif.Props.Lapack
import Verif.Props.HLinBuilt

/-! # C57: accuracy of the product of two hierarchical matrices when the low-rank compressions are not exact

Specification: the result is compared, leaf by leaf and in Frobenius norm (`frob`), with the exact matrix `alpha op(A) op(B) + beta C`. -/

namespace Htool
variable {D G 𝕜 : Type*} [RCLike 𝕜]
open Finset

/-! ## The compressions of the library -/

/-- The compression of a dense product (lrmat/linalg/add_matrix_matrix_product.hpp 27-64): `SVD_truncation`, then `u sqrt(S)` and `sqrt(S) vt` over the
factors `old`. -/
noncomputable def svdFactors (gesvd : Mat 𝕜 → SVDOut 𝕜) (eps : ℝ) (A : Mat 𝕜) (old : LR 𝕜) : LR 𝕜 :=
  let r := svdTruncation gesvd A eps
  sqrtFactors r.2 r.1 A.nr A.nc r.2.u.nc r.2.vt.nc old.U old.V

/-- The compressions done by the library with the tolerance `eps` (`recompression`, and the one above); the other routines do not matter. -/
structure LinOps.UsesSVD (E : LinOps 𝕜) (gesvd : Mat 𝕜 → SVDOut 𝕜) (geqrf gelqf : Mat 𝕜 → OrthOut 𝕜) (eps : ℝ) : Prop where
  real : E.cplx = false → RealType 𝕜
  rc : ∀ L, E.rc L = recompress gesvd geqrf gelqf eps L
  cmp : ∀ A old, E.cmp A old = svdFactors gesvd eps A old

/-- The compressions of the library, with the routines of LAPACK, have the relative accuracy `eps`. -/
theorem LinOps.UsesSVD.acc {E : LinOps 𝕜} {gesvd : Mat 𝕜 → SVDOut 𝕜} {geqrf gelqf : Mat 𝕜 → OrthOut 𝕜} {eps : ℝ} (h : E.UsesSVD gesvd geqrf gelqf eps)
    (hl : LapackOK gesvd geqrf gelqf) (he : 0 ≤ eps) : E.Acc eps where
  real := h.real
  rc L hL h1 h2 h3 := by
    rw [h.rc]
    obtain ⟨a, b, c, -, -, d⟩ := C55_recompression hl eps L hL h1 h2 h3
    exact ⟨a, b, c, (frob_sub_comm _ _ _ _).le.trans (d.le he)⟩
  cmp A old h1 h2 := by
    rw [h.cmp]
    have hs := hl.svd A
    have hu : (svdTruncation gesvd A eps).2.u.nc = A.nr := hs.unc
    have hv : (svdTruncation gesvd A eps).2.vt.nc = A.nc := hs.vnc
    have sp := sqrtFactors_spec (svdTruncation gesvd A eps).2 (svdTruncation gesvd A eps).1 A.nr A.nc (svdTruncation gesvd A eps).2.u.nc
      (svdTruncation gesvd A eps).2.vt.nc old.U old.V hu.le hv.le
    obtain ⟨-, hk, -⟩ := C31_truncation gesvd A hs h1 h2 eps
    refine ⟨?_, sp.1, sp.2.2.2.1, ?_⟩
    · unfold LR.WF svdFactors
      dsimp only
      rw [sp.2.2.1, sp.2.1]
    · have ap := (trunc_approx gesvd A hs h1 h2 eps).le he
      rw [frob_sub_comm] at ap
      refine (le_of_eq (frob_congr fun i hi j hj => ?_)).trans ap
      congr 1
      exact sqrtFactors_entry _ _ _ _ _ _ _ _ hu.le hv.le (fun l hl => hs.nonneg l (by omega)) (by rw [hu]; exact hi) (by rw [hv]; exact hj)

/-! ## The product -/

/-- At most `a` clusters in the partition of the processors and in the division of every cluster. -/
structure ClusterTree.Arity (a : ℕ) (c : ClusterTree G) : Prop where
  pos : 1 ≤ a
  parts : c.parts.length ≤ a
  kids : ∀ x ∈ c.root.pre, x.children.length ≤ a

omit [RCLike 𝕜] in
theorem ClusterTree.Arity.clList {a : ℕ} {c d : ClusterTree G} (h : c.Arity a) (hd : c.Desc d) (bad : Bool) : (clList bad d).length ≤ a := by
  unfold Htool.clList
  split_ifs
  · exact h.pos
  · unfold ClusterTree.onPart
    rw [List.length_map, hd.2]
    exact h.parts
  · unfold ClusterTree.kids
    rw [List.length_map]
    exact h.kids _ hd.1

section claims
variable [DecidableEq 𝕜] {E : LinOps 𝕜} {ε : ℝ} {adA adB ad : ClusterTree G → ClusterTree G → Prop} {MA MB MC : ℕ → ℕ → 𝕜} {A B C : FTree G 𝕜}

omit [DecidableEq 𝕜] in
theorem Rep.opnd {a : ℕ} (h : Rep .full adA MA A) (h1 : A.label.t.Arity a) (h2 : A.label.s.Arity a) : Opnd adA MA a A :=
  Shape.imp h fun X hX hp => by
    have hd := Shape.pre_desc h hX
    exact ⟨hp, fun bad => ⟨h1.clList hd.1 bad, h2.clList hd.2.1 bad⟩⟩

/-- **C57**, with compressions of relative accuracy `ε`: `C := alpha op(A) op(B) + beta C`, when one half of the square matrix `C` is stored (`m`), or both. In the
half which is stored, the result differs from the exact one on every leaf by at most `((1 + ε) ^ K - 1) (|beta| ‖C‖ + |alpha| ‖A‖ ‖B‖)`. Missing from the full
claim: as in `C57_hmatrix_product_partial` (`beta` when `C` is divided and an operand is not; a partition deeper than one level). -/
theorem C57_accuracy_half_partial {m : Mask} (hE : E.Acc ε) (hε : 0 ≤ ε) (ta tb : Trans) (α β : 𝕜) (hA : Rep .full adA MA A) (hB : Rep .full adB MB B)
    (hC : Rep m ad MC C) (hs : m = .full ∨ (C.label.t = C.label.s ∧ ∀ c, ¬ ad c c)) (fA : A.label.t.Flat ∧ A.label.s.Flat) (fB : B.label.t.Flat ∧ B.label.s.Flat) {a : ℕ}
    (rA : A.label.t.Arity a ∧ A.label.s.Arity a) (rB : B.label.t.Arity a ∧ B.label.s.Arity a)
    (hin : A.inC ta = B.outC tb) (hrow : C.label.t = A.outC ta) (hcol : C.label.s = B.inC tb)
    (hβ : β = 1 ∨ C.isHier = false ∨ (A.isHier = true ∧ B.isHier = true)) {n : ℕ} (hn : A.ht + B.ht ≤ n) :
    ∃ C' M', hhH E n ta tb α A B β C = some C' ∧ C'.label.t = C.label.t ∧ C'.label.s = C.label.s ∧ Rep m ad M' C' ∧
      ∀ X ∈ C'.leaves, FTree.isHier X = false → frobOn (fun i j => if m.ok i j then M' i j -
          (α * ∑ l ∈ Ico (A.inC ta).off (A.inC ta).fin, opE ta MA i l * opE tb MB l j + β * MC i j) else 0) X ≤
        ((1 + ε) ^ truncs a (A.ht + 1) - 1) * (‖β‖ * frobOn MC C + ‖α‖ * (frobOn MA A * frobOn MB B)) := by
  obtain ⟨n, rfl⟩ : ∃ n', n = n' + 1 := ⟨n - 1, by have := Tree.ht_pos A; omega⟩
  have hW := maj_product ta tb α β MA MB MC (A := A) (X := B) (C := C) hin hrow hcol
  set Bd := ‖β‖ * frobOn MC C + ‖α‖ * (frobOn MA A * frobOn MB B) with hBd
  obtain ⟨D, hD, d1, d2, d3⟩ : ∃ D, (if β = 1 then C else fscale β C) = D ∧ D.label.t = C.label.t ∧ D.label.s = C.label.s ∧
      Rep m ad (fun i j => β * MC i j) D := by
    by_cases e : β = 1
    · refine ⟨C, by rw [if_pos e], rfl, rfl, ?_⟩
      rw [e]
      simpa using hC
    · have s := fscale_same β C
      exact ⟨_, by rw [if_neg e], s.1, s.2.1, hC.fscale β⟩
  have hb : ∀ i j, D.label.Has i j → ‖β * MC i j‖ + ‖α‖ * aprod ta tb MA MB (A.inC ta) i j ≤
      (if (C.label.t.off ≤ i ∧ i < C.label.t.off + C.label.t.sz) ∧ (C.label.s.off ≤ j ∧ j < C.label.s.off + C.label.s.sz) then
        ‖β * MC i j‖ + ‖α‖ * aprod ta tb MA MB (A.inC ta) i j else 0) := by
    intro i j hi
    unfold FNode.Has at hi
    rw [d1, d2] at hi
    unfold ClusterTree.fin at hi
    rw [if_pos hi]
  have hsD : SqOK m ad D.label := by
    rcases hs with h | ⟨h, h'⟩
    · exact Or.inl h
    · exact Or.inr ⟨by rw [d1, d2, h], h'⟩
  obtain ⟨C', h1, h2, h3, h4, -⟩ := hhH_near hE hε hW ta tb α (n + 1) (A.ht + 1) A B D (fun i j => β * MC i j) 0 hn (by split_ifs <;> omega)
    (hA.opnd rA.1 rA.2) (hB.opnd rB.1 rB.2) (by rw [accErr_zero]; exact d3.near_of hsD) fA.1 fA.2 fB.1 fB.2 hin (d1.trans hrow) (d2.trans hcol) (by
      rcases hs with rfl | ⟨h, -⟩
      · rfl
      · rw [d1, d2, h]; exact keep_diag m (Shape.self hC).clS.sz_pos) hb
  obtain ⟨M', m1, m2⟩ := h2.rep_of
  refine ⟨C', M', ?_, h3.trans d1, h4.trans d2, m1, fun X hX hd => ?_⟩
  · rw [hhH_beta ta tb α β A B C hC hβ n, hD, h1]
  · obtain ⟨H', h5, h6⟩ := m2 X hX hd
    rw [Nat.zero_add] at h6
    refine le_trans (frob_mono fun i hi j hj => ?_) h6
    unfold rel
    beta_reduce
    by_cases hok : m.ok (X.label.t.off + i) (X.label.s.off + j)
    · rw [if_pos hok, h5 _ _ (by unfold FNode.Has ClusterTree.fin; omega) hok]
      refine le_of_eq ?_
      congr 2
      rw [add_comm]
      rfl
    · rw [if_neg hok, norm_zero]
      exact norm_nonneg _

/-- **C57**, with compressions of relative accuracy `ε`: `C := alpha op(A) op(B) + beta C` for H-matrices with any block structure. The result contains a
matrix `M'` which on every leaf differs from the exact result by at most `((1 + ε) ^ K - 1) (|beta| ‖C‖ + |alpha| ‖A‖ ‖B‖)` in Frobenius norm, `K`
depending only on the height of `A` and on the number of clusters in one division. Missing from the full claim: as in `C57_hmatrix_product_partial`
(`beta` when `C` is divided and an operand is not; a partition deeper than one level). -/
theorem C57_accuracy_partial (hE : E.Acc ε) (hε : 0 ≤ ε) (ta tb : Trans) (α β : 𝕜) (hA : Rep .full adA MA A) (hB : Rep .full adB MB B)
    (hC : Rep .full ad MC C) (fA : A.label.t.Flat ∧ A.label.s.Flat) (fB : B.label.t.Flat ∧ B.label.s.Flat) {a : ℕ}
    (rA : A.label.t.Arity a ∧ A.label.s.Arity a) (rB : B.label.t.Arity a ∧ B.label.s.Arity a)
    (hin : A.inC ta = B.outC tb) (hrow : C.label.t = A.outC ta) (hcol : C.label.s = B.inC tb)
    (hβ : β = 1 ∨ C.isHier = false ∨ (A.isHier = true ∧ B.isHier = true)) {n : ℕ} (hn : A.ht + B.ht ≤ n) :
    ∃ C' M', hhH E n ta tb α A B β C = some C' ∧ C'.label.t = C.label.t ∧ C'.label.s = C.label.s ∧ Rep .full ad M' C' ∧
      ∀ X ∈ C'.leaves, frobOn (fun i j => M' i j -
          (α * ∑ l ∈ Ico (A.inC ta).off (A.inC ta).fin, opE ta MA i l * opE tb MB l j + β * MC i j)) X ≤
        ((1 + ε) ^ truncs a (A.ht + 1) - 1) * (‖β‖ * frobOn MC C + ‖α‖ * (frobOn MA A * frobOn MB B)) := by
  obtain ⟨C', M', h1, h2, h3, h4, h5⟩ := C57_accuracy_half_partial hE hε ta tb α β hA hB hC (Or.inl rfl) fA fB rA rB hin hrow hcol hβ hn
  exact ⟨C', M', h1, h2, h3, h4, fun X hX => h5 X hX (Shape.leaf_data h4 hX)⟩

/-- **C57**, with compressions of relative accuracy `ε`, seen by the products and the conversion to a dense matrix: every entry of the result. -/
theorem C57_accuracy_entries_partial (hE : E.Acc ε) (hε : 0 ≤ ε) (ta tb : Trans) (α β : 𝕜) (hA : Rep .full adA MA A) (hB : Rep .full adB MB B)
    (hC : Rep .full ad MC C) (fA : A.label.t.Flat ∧ A.label.s.Flat) (fB : B.label.t.Flat ∧ B.label.s.Flat) {a : ℕ}
    (rA : A.label.t.Arity a ∧ A.label.s.Arity a) (rB : B.label.t.Arity a ∧ B.label.s.Arity a)
    (hin : A.inC ta = B.outC tb) (hrow : C.label.t = A.outC ta) (hcol : C.label.s = B.inC tb)
    (hβ : β = 1 ∨ C.isHier = false ∨ (A.isHier = true ∧ B.isHier = true)) {n : ℕ} (hn : A.ht + B.ht ≤ n) :
    ∃ C', hhH E n ta tb α A B β C = some C' ∧ ∀ i < C.label.t.sz, ∀ j < C.label.s.sz,
      ‖C'.toH.mat i j - (α * ∑ l ∈ range (A.inC ta).sz, opE ta A.toH.mat i l * opE tb B.toH.mat l j + β * C.toH.mat i j)‖ ≤
        ((1 + ε) ^ truncs a (A.ht + 1) - 1) * (‖β‖ * frob C.label.t.sz C.label.s.sz C.toH.mat +
          ‖α‖ * (frob A.label.t.sz A.label.s.sz A.toH.mat * frob B.label.t.sz B.label.s.sz B.toH.mat)) := by
  obtain ⟨C', M', h1, h2, h3, h4, h5⟩ := C57_accuracy_partial hE hε ta tb α β hA hB hC fA fB rA rB hin hrow hcol hβ hn
  refine ⟨C', h1, fun i hi j hj => ?_⟩
  have fr : ∀ {ad : ClusterTree G → ClusterTree G → Prop} {M : ℕ → ℕ → 𝕜} {X : FTree G 𝕜}, Rep .full ad M X →
      frob X.label.t.sz X.label.s.sz X.toH.mat = frobOn M X := fun h => frob_congr fun i hi j hj => h.mat_eq hi hj
  rw [fr hA, fr hB, fr hC]
  -- the exact value
  have ex : α * ∑ l ∈ range (A.inC ta).sz, opE ta A.toH.mat i l * opE tb B.toH.mat l j + β * C.toH.mat i j =
      α * ∑ l ∈ Ico (A.inC ta).off (A.inC ta).fin, opE ta MA (C.label.t.off + i) l * opE tb MB l (C.label.s.off + j) +
        β * MC (C.label.t.off + i) (C.label.s.off + j) := by
    rw [hC.mat_eq hi hj]
    unfold rel
    congr 2
    rw [Finset.sum_Ico_eq_sum_range]
    have : (A.inC ta).fin - (A.inC ta).off = (A.inC ta).sz := by unfold ClusterTree.fin; omega
    rw [this]
    refine sum_congr rfl fun l hl => ?_
    have hl := mem_range.1 hl
    have hi' : i < (A.outC ta).sz := by rw [← hrow]; exact hi
    have hj' : j < (B.inC tb).sz := by rw [← hcol]; exact hj
    have hl' : l < (B.outC tb).sz := by rw [← hin]; exact hl
    have ea : opE ta A.toH.mat i l = opE ta MA ((A.outC ta).off + i) ((A.inC ta).off + l) := by
      rw [← opE_rel]
      cases ta with
      | N => exact hA.mat_eq hi' hl
      | T => exact hA.mat_eq hl hi'
      | C => exact congrArg star (hA.mat_eq hl hi')
    have eb : opE tb B.toH.mat l j = opE tb MB ((B.outC tb).off + l) ((B.inC tb).off + j) := by
      rw [← opE_rel]
      cases tb with
      | N => exact hB.mat_eq hl' hj'
      | T => exact hB.mat_eq hj' hl'
      | C => exact congrArg star (hB.mat_eq hj' hl')
    rw [ea, eb, hrow, hcol, hin]
  rw [ex, h4.mat_eq (by rw [h2]; exact hi) (by rw [h3]; exact hj)]
  unfold rel
  rw [h2, h3]
  -- the leaf of the entry
  have hH : C'.label.Has (C.label.t.off + i) (C.label.s.off + j) := by
    unfold FNode.Has ClusterTree.fin
    rw [h2, h3]; omega
  have cnt := Shape.leaves_count h4 (C.label.t.off + i) (C.label.s.off + j)
  rw [if_pos hH] at cnt
  obtain ⟨X, hX, hx⟩ := List.countP_pos_iff.1 (by rw [cnt]; exact Nat.one_pos)
  have hx : X.label.Has (C.label.t.off + i) (C.label.s.off + j) := of_decide_eq_true hx
  have hs := hx.sub
  refine le_trans (le_trans (le_of_eq ?_) (entry_le_frob (rel _ X.label.t.off X.label.s.off) hs.1 hs.2)) (h5 X hX)
  unfold rel
  unfold FNode.Has at hx
  beta_reduce
  rw [Nat.add_sub_cancel' hx.1.1, Nat.add_sub_cancel' hx.2.1]

/-- **C57**, with the compressions of the library (`recompression` and truncated singular value decompositions, tolerance `eps`). -/
theorem C57_svd_partial {gesvd : Mat 𝕜 → SVDOut 𝕜} {geqrf gelqf : Mat 𝕜 → OrthOut 𝕜} {eps : ℝ} (hE : E.UsesSVD gesvd geqrf gelqf eps)
    (hl : LapackOK gesvd geqrf gelqf) (he : 0 ≤ eps) (ta tb : Trans) (α β : 𝕜) (hA : Rep .full adA MA A) (hB : Rep .full adB MB B)
    (hC : Rep .full ad MC C) (fA : A.label.t.Flat ∧ A.label.s.Flat) (fB : B.label.t.Flat ∧ B.label.s.Flat) {a : ℕ}
    (rA : A.label.t.Arity a ∧ A.label.s.Arity a) (rB : B.label.t.Arity a ∧ B.label.s.Arity a)
    (hin : A.inC ta = B.outC tb) (hrow : C.label.t = A.outC ta) (hcol : C.label.s = B.inC tb)
    (hβ : β = 1 ∨ C.isHier = false ∨ (A.isHier = true ∧ B.isHier = true)) {n : ℕ} (hn : A.ht + B.ht ≤ n) :
    ∃ C', hhH E n ta tb α A B β C = some C' ∧ ∀ i < C.label.t.sz, ∀ j < C.label.s.sz,
      ‖C'.toH.mat i j - (α * ∑ l ∈ range (A.inC ta).sz, opE ta A.toH.mat i l * opE tb B.toH.mat l j + β * C.toH.mat i j)‖ ≤
        ((1 + eps) ^ truncs a (A.ht + 1) - 1) * (‖β‖ * frob C.label.t.sz C.label.s.sz C.toH.mat +
          ‖α‖ * (frob A.label.t.sz A.label.s.sz A.toH.mat * frob B.label.t.sz B.label.s.sz B.toH.mat)) :=
  C57_accuracy_entries_partial (hE.acc hl he) he ta tb α β hA hB hC fA fB rA rB hin hrow hcol hβ hn

end claims

/-! ## Built H-matrices -/

/-- Number of clusters of the partition which is asked for. -/
def PartArg.count : PartArg → ℕ
  | .auto sp => sp
  | .given partition => partition.length

/-- Below a cluster with a rank all clusters have one. -/
theorem Built.rank_pre {S : Strategies D G} {flog : ℕ → ℕ → ℕ} {fuel n nc : ℕ} {arg : PartArg} {t : CTree G} {st : CState G}
    (h : Built S flog fuel n nc arg t st) : ∀ u : CTree G, u ∈ t.pre → 0 ≤ u.rk → ∀ y ∈ u.pre, 0 ≤ y.rk := by
  intro u
  induction u using Tree.ind with
  | h a cs ih =>
    intro hu hr y hy
    rcases Tree.mem_pre.1 hy with rfl | ⟨c, hc, hy⟩
    · exact hr
    · exact ih c hc (Tree.mem_pre_trans hu (Tree.mem_pre.2 (Or.inr ⟨c, hc, Tree.mem_pre_self _⟩))) (h.clOK.1.rank _ hu hr c hc) y hy

/-- Every list of clusters has at most `number_of_children` or number of processors elements. -/
theorem Built.arity {S : Strategies D G} {flog : ℕ → ℕ → ℕ} {fuel n nc : ℕ} {arg : PartArg} {t : CTree G} {st : CState G}
    (h : Built S flog fuel n nc arg t st) (hp : arg.oneLevel flog nc) : (clusterTreeOf t st).Arity (max nc arg.count) where
  pos := le_max_of_le_left (by have := h.hnc; omega)
  parts := by
    rw [h.parts_length]
    refine le_max_of_le_right ?_
    cases arg <;> exact le_refl _
  kids x hx := by
    by_cases hne : x.children = []
    · rw [hne]; simp
    by_cases hr : 0 ≤ x.rk
    · rw [create_arity h.strategies h.hflog h.hnc h.harg h.build x hx hr hne]
      exact le_max_left _ _
    · have key := h.rank_pre
      rcases h.flat hp with h0 | ⟨h1, h2⟩
      · exact absurd (key t (Tree.mem_pre_self _) h0 x hx) hr
      · rcases Tree.mem_pre.1 hx with e | ⟨u, hu, hx⟩
        · have h1 : (clusterTreeOf t st).parts = t.children := h1
          have e : x = t := e
          rw [e, ← h1, h.parts_length]
          refine le_max_of_le_right ?_
          cases arg <;> exact le_refl _
        · exact absurd (key u (Tree.mem_pre.2 (Or.inr ⟨u, hu, Tree.mem_pre_self _⟩)) (h2 u hu) x hx) hr

section built
variable [DecidableEq 𝕜] {S : Strategies D G} {flog : ℕ → ℕ → ℕ} {fuel n nc : ℕ} {arg : PartArg} {t : CTree G} {st : CState G} {L : LinOps 𝕜}

/-- **C57**, for built H-matrices and the compressions of the library: three matrices without symmetry are built on the same cluster tree, each with its own
compressor (of any accuracy), admissibility condition and minimal depths; the third becomes `alpha op(A) op(B) + beta C` for the matrices which are
represented, every entry (cluster numbering) up to `((1 + eps) ^ K - 1) (|beta| ‖C‖ + |alpha| ‖A‖ ‖B‖)`. -/
theorem C57_built_accuracy_partial {E₁ E₂ E₃ : BEnv G} (h1 : Setting S flog fuel n nc arg t st E₁) (h2 : Setting S flog fuel n nc arg t st E₂)
    (h3 : Setting S flog fuel n nc arg t st E₃) (hN : E₁.sym = .N ∧ E₂.sym = .N ∧ E₃.sym = .N) (hp : arg.oneLevel flog nc)
    {lr₁ lr₂ lr₃ : LRGen 𝕜} {dg₁ dg₂ dg₃ : Option (DenseGen 𝕜)} {g₁ g₂ g₃ : ℕ → ℕ → 𝕜} {T : ℕ} (hT : 0 < T) {f₁ f₂ f₃ : ℕ}
    {m₁ m₁' m₂ m₂' m₃ m₃' : Mem 𝕜} {B₁ B₂ B₃ : Builder} {H₁ H₂ H₃ : Tree ℕ}
    (b1 : BuildStep T E₁ lr₁ dg₁ f₁ t t g₁ m₁ Builder.empty m₁' B₁ H₁) (b2 : BuildStep T E₂ lr₂ dg₂ f₂ t t g₂ m₂ Builder.empty m₂' B₂ H₂)
    (b3 : BuildStep T E₃ lr₃ dg₃ f₃ t t g₃ m₃ Builder.empty m₃' B₃ H₃) {A B C : FTree G 𝕜} (hA : InMemory E₁ f₁ t m₁' H₁ A)
    (hB : InMemory E₂ f₂ t m₂' H₂ B) (hC : InMemory E₃ f₃ t m₃' H₃ C) {gesvd : Mat 𝕜 → SVDOut 𝕜} {geqrf gelqf : Mat 𝕜 → OrthOut 𝕜} {eps : ℝ}
    (hE : L.UsesSVD gesvd geqrf gelqf eps) (hl : LapackOK gesvd geqrf gelqf) (he : 0 ≤ eps) (ta tb : Trans) (α β : 𝕜)
    (hβ : β = 1 ∨ C.isHier = false ∨ (A.isHier = true ∧ B.isHier = true)) {f : ℕ} (hf : A.ht + B.ht ≤ f) :
    ∃ C', hhH L f ta tb α A B β C = some C' ∧ ∀ i < n, ∀ j < n, ‖C'.toH.mat i j -
      (α * ∑ l ∈ range n, opE ta (HTree.entry (H₁.map m₁'.heap)) i l * opE tb (HTree.entry (H₂.map m₂'.heap)) l j + β * HTree.entry (H₃.map m₃'.heap) i j)‖ ≤
      ((1 + eps) ^ truncs (max nc arg.count) (A.ht + 1) - 1) * (‖β‖ * frob n n (HTree.entry (H₃.map m₃'.heap)) +
        ‖α‖ * (frob n n (HTree.entry (H₁.map m₁'.heap)) * frob n n (HTree.entry (H₂.map m₂'.heap)))) := by
  have full : ∀ {E : BEnv G}, E.sym = .N → E.mask = .full := fun h => by unfold BEnv.mask; rw [if_pos h]
  obtain ⟨a1, a2, a3, -⟩ := (h1.view hT b1).2 A hA
  obtain ⟨c1, c2, c3, -⟩ := (h2.view hT b2).2 B hB
  obtain ⟨d1, d2, d3, -⟩ := (h3.view hT b3).2 C hC
  rw [full hN.1] at a1
  rw [full hN.2.1] at c1
  rw [full hN.2.2] at d1
  rw [h1.tct] at a2 a3
  rw [h2.tct] at c2 c3
  rw [h3.tct] at d2 d3
  have o := clusterTree_off h1
  rw [h1.tct] at o
  have fl := h1.built.flat hp
  have ar := h1.built.arity hp
  have inA : ∀ tr, A.inC tr = clusterTreeOf t st := fun tr => by cases tr <;> [exact a3; exact a2; exact a2]
  have outA : ∀ tr, A.outC tr = clusterTreeOf t st := fun tr => by cases tr <;> [exact a2; exact a3; exact a3]
  have inB : ∀ tr, B.inC tr = clusterTreeOf t st := fun tr => by cases tr <;> [exact c3; exact c2; exact c2]
  have outB : ∀ tr, B.outC tr = clusterTreeOf t st := fun tr => by cases tr <;> [exact c2; exact c3; exact c3]
  obtain ⟨C', e1, e2⟩ := C57_svd_partial hE hl he ta tb α β a1 c1 d1 (by rw [a2, a3]; exact ⟨fl, fl⟩) (by rw [c2, c3]; exact ⟨fl, fl⟩)
    (by rw [a2, a3]; exact ⟨ar, ar⟩) (by rw [c2, c3]; exact ⟨ar, ar⟩) (by rw [inA, outB]) (by rw [outA, d2]) (by rw [inB, d3]) hβ hf
  refine ⟨C', e1, fun i hi j hj => ?_⟩
  have ent : ∀ {ad : ClusterTree G → ClusterTree G → Prop} {M : ℕ → ℕ → 𝕜} {X : FTree G 𝕜}, Rep .full ad M X → X.label.t = clusterTreeOf t st →
      X.label.s = clusterTreeOf t st → ∀ i < n, ∀ j < n, X.toH.mat i j = M i j := by
    intro ad M X hX ht hs i hi j hj
    rw [hX.mat_eq (by rw [ht, o.2.1]; exact hi) (by rw [hs, o.2.1]; exact hj)]
    unfold rel
    rw [ht, hs, o.1, Nat.zero_add, Nat.zero_add]
  have entO : ∀ {ad : ClusterTree G → ClusterTree G → Prop} {M : ℕ → ℕ → 𝕜} {X : FTree G 𝕜}, Rep .full ad M X → X.label.t = clusterTreeOf t st →
      X.label.s = clusterTreeOf t st → ∀ tr, ∀ i < n, ∀ j < n, opE tr X.toH.mat i j = opE tr M i j := by
    intro ad M X hX ht hs tr i hi j hj
    cases tr with
    | N => exact ent hX ht hs i hi j hj
    | T => exact ent hX ht hs j hj i hi
    | C => exact congrArg star (ent hX ht hs j hj i hi)
  have g := e2 i (by rw [d2, o.2.1]; exact hi) j (by rw [d3, o.2.1]; exact hj)
  rw [a2, a3, c2, c3, d2, d3, inA, o.2.1, ent d1 d2 d3 i hi j hj, frob_congr (ent a1 a2 a3), frob_congr (ent c1 c2 c3), frob_congr (ent d1 d2 d3),
    sum_congr rfl (fun l hl => by rw [entO a1 a2 a3 ta i hi l (mem_range.1 hl), entO c1 c2 c3 tb l (mem_range.1 hl) j hj])] at g
  exact g

/-- A product is close when the factors are. -/
theorem prod_close {n : ℕ} {e : ℝ} (he : 0 ≤ e) (ta tb : Trans) {M₁ M₂ g₁ g₂ : ℕ → ℕ → 𝕜} (h1 : frob n n (fun i j => M₁ i j - g₁ i j) ≤ e * frob n n g₁)
    (h2 : frob n n (fun i j => M₂ i j - g₂ i j) ≤ e * frob n n g₂) {i j : ℕ} (hi : i < n) (hj : j < n) :
    ‖∑ l ∈ range n, opE ta M₁ i l * opE tb M₂ l j - ∑ l ∈ range n, opE ta g₁ i l * opE tb g₂ l j‖ ≤
      ((1 + e) ^ 2 - 1) * (frob n n g₁ * frob n n g₂) := by
  have fo : ∀ (tr : Trans) (f : ℕ → ℕ → 𝕜), frob n n (opE tr f) = frob n n f := by
    intro tr f
    have := frob_opE (m := n) (n := n) tr f
    cases tr <;> exact this
  have os : ∀ (tr : Trans) (f g : ℕ → ℕ → 𝕜) (i j : ℕ), opE tr f i j - opE tr g i j = opE tr (fun i j => f i j - g i j) i j := by
    intro tr f g i j
    cases tr <;> simp [opE]
  have bd : ∀ f g : ℕ → ℕ → 𝕜, ‖∑ l ∈ range n, f i l * g l j‖ ≤ frob n n f * frob n n g := by
    intro f g
    refine (norm_sum_le _ _).trans (le_trans ?_ (frob_prod_le n n n f g))
    refine le_trans (le_of_eq ?_) (entry_le_frob (𝕜 := ℝ) (fun i j => ∑ l ∈ range n, ‖f i l‖ * ‖g l j‖) hi hj)
    rw [Real.norm_eq_abs, abs_of_nonneg (sum_nonneg fun _ _ => mul_nonneg (norm_nonneg _) (norm_nonneg _))]
    exact sum_congr rfl fun l _ => norm_mul _ _
  have split : ∑ l ∈ range n, opE ta M₁ i l * opE tb M₂ l j - ∑ l ∈ range n, opE ta g₁ i l * opE tb g₂ l j =
      ∑ l ∈ range n, opE ta (fun i j => M₁ i j - g₁ i j) i l * opE tb (fun i j => M₂ i j - g₂ i j) l j +
        (∑ l ∈ range n, opE ta (fun i j => M₁ i j - g₁ i j) i l * opE tb g₂ l j + ∑ l ∈ range n, opE ta g₁ i l * opE tb (fun i j => M₂ i j - g₂ i j) l j) := by
    rw [← sum_sub_distrib, ← sum_add_distrib, ← sum_add_distrib]
    refine sum_congr rfl fun l _ => ?_
    rw [← os, ← os]
    ring
  rw [split]
  have b1 := bd (opE ta (fun i j => M₁ i j - g₁ i j)) (opE tb (fun i j => M₂ i j - g₂ i j))
  have b2 := bd (opE ta (fun i j => M₁ i j - g₁ i j)) (opE tb g₂)
  have b3 := bd (opE ta g₁) (opE tb (fun i j => M₂ i j - g₂ i j))
  rw [fo, fo] at b1 b2 b3
  have n1 := frob_nonneg n n g₁
  have n2 := frob_nonneg n n g₂
  have d1 := frob_nonneg n n (fun i j => M₁ i j - g₁ i j)
  have d2 := frob_nonneg n n (fun i j => M₂ i j - g₂ i j)
  refine (norm_add_le _ _).trans ((add_le_add b1 ((norm_add_le _ _).trans (add_le_add b2 b3))).trans ?_)
  have m1 := mul_le_mul h1 h2 d2 (mul_nonneg he n1)
  have m2 := mul_le_mul_of_nonneg_right h1 n2
  have m3 := mul_le_mul_of_nonneg_left h2 n1
  nlinarith

/-- **C57**, from the user's coefficients: three H-matrices without symmetry are built from the matrices `g₁`, `g₂`, `g₃` with the SVD compressor of tolerance
`eps`, under any schedule, and the third becomes `alpha op(A) op(B) + beta C` with truncations of tolerance `eps`. Every entry (cluster numbering) is the one
of `alpha op(g₁) op(g₂) + beta g₃` up to `((1 + eps) ^ (K + 2) - 1) (|beta| ‖g₃‖ + |alpha| ‖g₁‖ ‖g₂‖)`. -/
theorem C57_end_to_end_partial {E₁ E₂ E₃ : BEnv G} (h1 : Setting S flog fuel n nc arg t st E₁) (h2 : Setting S flog fuel n nc arg t st E₂)
    (h3 : Setting S flog fuel n nc arg t st E₃) (hN : E₁.sym = .N ∧ E₂.sym = .N ∧ E₃.sym = .N) (hp : arg.oneLevel flog nc)
    {dg₁ dg₂ dg₃ : Option (DenseGen 𝕜)} {g₁ g₂ g₃ : ℕ → ℕ → 𝕜} {cplx : Bool} (u1 : UserGen E₁ cplx dg₁ g₁ t.iv) (u2 : UserGen E₂ cplx dg₂ g₂ t.iv)
    (u3 : UserGen E₃ cplx dg₃ g₃ t.iv) {T : ℕ} (hT : 0 < T) {f₁ f₂ f₃ : ℕ}
    {m₁ m₁' m₂ m₂' m₃ m₃' : Mem 𝕜} {B₁ B₂ B₃ : Builder} {H₁ H₂ H₃ : Tree ℕ} {gesvd : Mat 𝕜 → SVDOut 𝕜} {geqrf gelqf : Mat 𝕜 → OrthOut 𝕜} {eps : ℝ}
    (b1 : BuildStep T E₁ (lrSVD gesvd eps (-1)) dg₁ f₁ t t g₁ m₁ Builder.empty m₁' B₁ H₁)
    (b2 : BuildStep T E₂ (lrSVD gesvd eps (-1)) dg₂ f₂ t t g₂ m₂ Builder.empty m₂' B₂ H₂)
    (b3 : BuildStep T E₃ (lrSVD gesvd eps (-1)) dg₃ f₃ t t g₃ m₃ Builder.empty m₃' B₃ H₃) {A B C : FTree G 𝕜} (hA : InMemory E₁ f₁ t m₁' H₁ A)
    (hB : InMemory E₂ f₂ t m₂' H₂ B) (hC : InMemory E₃ f₃ t m₃' H₃ C) (hE : L.UsesSVD gesvd geqrf gelqf eps) (hl : LapackOK gesvd geqrf gelqf) (he : 0 ≤ eps)
    (ta tb : Trans) (α β : 𝕜) (hβ : β = 1 ∨ C.isHier = false ∨ (A.isHier = true ∧ B.isHier = true)) {f : ℕ} (hf : A.ht + B.ht ≤ f) :
    ∃ C', hhH L f ta tb α A B β C = some C' ∧ ∀ i < n, ∀ j < n,
      ‖C'.toH.mat i j - (α * ∑ l ∈ range n, opE ta g₁ i l * opE tb g₂ l j + β * g₃ i j)‖ ≤
      ((1 + eps) ^ (truncs (max nc arg.count) (A.ht + 1) + 2) - 1) * (‖β‖ * frob n n g₃ + ‖α‖ * (frob n n g₁ * frob n n g₂)) := by
  obtain ⟨C', e1, e2⟩ := C57_built_accuracy_partial h1 h2 h3 hN hp hT b1 b2 b3 hA hB hC hE hl he ta tb α β hβ hf
  refine ⟨C', e1, fun i hi j hj => ?_⟩
  obtain ⟨p1, p2, -⟩ := h1.perm
  have a1 := C56_svd hT hl.svd h1.covered u1 he b1
  have a2 := C56_svd hT hl.svd h2.covered u2 he b2
  have a3 := C56_svd hT hl.svd h3.covered u3 he b3
  rw [p1, p2] at a1 a2 a3
  simp only [Nat.zero_add] at a1 a2 a3
  have g := e2 i hi j hj
  set M₁ : ℕ → ℕ → 𝕜 := HTree.entry (H₁.map m₁'.heap)
  set M₂ : ℕ → ℕ → 𝕜 := HTree.entry (H₂.map m₂'.heap)
  set M₃ : ℕ → ℕ → 𝕜 := HTree.entry (H₃.map m₃'.heap)
  set K := truncs (max nc arg.count) (A.ht + 1)
  have grow : ∀ {M g : ℕ → ℕ → 𝕜}, frob n n (fun i j => M i j - g i j) ≤ eps * frob n n g → frob n n M ≤ (1 + eps) * frob n n g := by
    intro M g h
    have := frob_add_le n n (fun i j => M i j - g i j) g
    rw [frob_congr (g := M) fun i _ j _ => sub_add_cancel _ _] at this
    linarith
  have n1 := frob_nonneg n n g₁
  have n2 := frob_nonneg n n g₂
  have n3 := frob_nonneg n n g₃
  have hx : (1 : ℝ) ≤ 1 + eps := by linarith
  have hx0 : (0 : ℝ) ≤ 1 + eps := by linarith
  have hK : (1 : ℝ) ≤ (1 + eps) ^ K := one_le_pow₀ hx
  -- sizes of the represented matrices
  have s1 : frob n n M₁ * frob n n M₂ ≤ (1 + eps) ^ 2 * (frob n n g₁ * frob n n g₂) := by
    have := mul_le_mul (grow a1) (grow a2) (frob_nonneg _ _ _) (mul_nonneg hx0 n1)
    linarith [this, show (1 + eps) * frob n n g₁ * ((1 + eps) * frob n n g₂) = (1 + eps) ^ 2 * (frob n n g₁ * frob n n g₂) by ring]
  have s3 : frob n n M₃ ≤ (1 + eps) ^ 2 * frob n n g₃ := by
    refine (grow a3).trans (mul_le_mul_of_nonneg_right ?_ n3)
    nlinarith
  have pc := prod_close he ta tb a1 a2 hi hj
  have ec : ‖M₃ i j - g₃ i j‖ ≤ ((1 + eps) ^ 2 - 1) * frob n n g₃ := by
    refine ((entry_le_frob (fun i j => M₃ i j - g₃ i j) hi hj).trans a3).trans (mul_le_mul_of_nonneg_right ?_ n3)
    nlinarith
  set P := ∑ l ∈ range n, opE ta M₁ i l * opE tb M₂ l j
  set Q := ∑ l ∈ range n, opE ta g₁ i l * opE tb g₂ l j
  have tri : ‖C'.toH.mat i j - (α * Q + β * g₃ i j)‖ ≤ ‖C'.toH.mat i j - (α * P + β * M₃ i j)‖ + (‖α‖ * ‖P - Q‖ + ‖β‖ * ‖M₃ i j - g₃ i j‖) := by
    rw [← norm_mul, ← norm_mul]
    refine le_trans (le_of_eq ?_) ((norm_add_le (C'.toH.mat i j - (α * P + β * M₃ i j)) (α * (P - Q) + β * (M₃ i j - g₃ i j))).trans
      (add_le_add le_rfl (norm_add_le _ _)))
    congr 1
    ring
  have hα := norm_nonneg α
  have hβ' := norm_nonneg β
  have t1 := mul_le_mul_of_nonneg_left pc hα
  have t2 := mul_le_mul_of_nonneg_left ec hβ'
  have t3 : ‖β‖ * frob n n M₃ + ‖α‖ * (frob n n M₁ * frob n n M₂) ≤ (1 + eps) ^ 2 * (‖β‖ * frob n n g₃ + ‖α‖ * (frob n n g₁ * frob n n g₂)) := by
    have := mul_le_mul_of_nonneg_left s1 hα
    have := mul_le_mul_of_nonneg_left s3 hβ'
    linarith
  have t4 := mul_le_mul_of_nonneg_left t3 (by linarith : (0 : ℝ) ≤ (1 + eps) ^ K - 1)
  have fin : ((1 + eps) ^ K - 1) * ((1 + eps) ^ 2 * (‖β‖ * frob n n g₃ + ‖α‖ * (frob n n g₁ * frob n n g₂))) +
      ((1 + eps) ^ 2 - 1) * (‖β‖ * frob n n g₃ + ‖α‖ * (frob n n g₁ * frob n n g₂)) =
      ((1 + eps) ^ (K + 2) - 1) * (‖β‖ * frob n n g₃ + ‖α‖ * (frob n n g₁ * frob n n g₂)) := by ring
  rw [← fin]
  linarith

end built

/-! ## The hypotheses can be met -/

/-- Routines with the compressions of the library, for every tolerance. -/
theorem svd_ops_exist (𝕜 : Type*) [RCLike 𝕜] (cplx : Bool) (hr : cplx = false → RealType 𝕜) (eps : ℝ) : ∃ (gesvd : Mat 𝕜 → SVDOut 𝕜)
    (geqrf gelqf : Mat 𝕜 → OrthOut 𝕜) (L : LinOps 𝕜), LapackOK gesvd geqrf gelqf ∧ L.UsesSVD gesvd geqrf gelqf eps := by
  obtain ⟨gesvd, geqrf, gelqf, h⟩ := exists_lapack 𝕜
  exact ⟨gesvd, geqrf, gelqf, ⟨cplx, recompress gesvd geqrf gelqf eps, svdFactors gesvd eps, fun D => (D, []), fun _ D => D, fun _ _ _ _ _ _ B => B⟩, h, hr,
    fun _ => rfl, fun _ _ => rfl⟩

/-- A built H-matrix on 12 points, with blocks compressed by SVD, multiplied by itself with the tolerance 1/100. -/
example : ∃ (gesvd : Mat ℂ → SVDOut ℂ) (geqrf gelqf : Mat ℂ → OrthOut ℂ) (L : LinOps ℂ) (t : CTree (List ℕ)) (st : CState (List ℕ)) (E : BEnv (List ℕ))
    (m' : Mem ℂ) (B' : Builder) (H : Tree ℕ) (F : FTree (List ℕ) ℂ), LapackOK gesvd geqrf gelqf ∧ L.UsesSVD gesvd geqrf gelqf (1 / 100) ∧
      Setting exStrategies Nat.log 16 12 2 (.auto 2) t st E ∧ E.sym = .N ∧ (PartArg.auto 2).oneLevel Nat.log 2 ∧
      UserGen (R := ℂ) E true none (fun i j => ((min i j + 1 : ℕ) : ℂ)) t.iv ∧
      BuildStep 3 E (lrSVD gesvd (1 / 100) (-1)) none 100 t t (fun i j => ((min i j + 1 : ℕ) : ℂ)) (memZero ℂ) Builder.empty m' B' H ∧
      InMemory E 100 t m' H F := by
  obtain ⟨gesvd, geqrf, gelqf, L, h1, h2⟩ := svd_ops_exist ℂ true (by simp) (1 / 100)
  obtain ⟨t, st, -, hS, hB⟩ := exSetting ℂ .N .N (by simp)
  obtain ⟨m0, B0, H0, F0, h3, -⟩ := hB (fun i j => ((min i j + 1 : ℕ) : ℂ))
  obtain ⟨b, hr, -⟩ := build_spec (by omega) hS.covered.buildOK (sysInv_empty (memZero ℂ)) h3
  obtain ⟨m', B', H, hst⟩ := build_exists (T := 3) (lr := lrSVD gesvd (1 / 100) (-1)) (dg := none) hS.covered.buildOK
    (gen := fun i j => ((min i j + 1 : ℕ) : ℂ)) (sysInv_empty (memZero ℂ)) hr
  obtain ⟨F, hF⟩ := (hS.view (by omega) hst).1
  exact ⟨gesvd, geqrf, gelqf, L, t, st, _, m', B', H, F, h1, h2, hS, rfl, Or.inr (show Nat.log 2 2 = 1 by decide),
    ⟨by simp [exEnv], by simp [exEnv], by simp [exEnv], by simp⟩, hst, hF⟩

/-- The number of truncations for two clusters per division. -/
example : truncs 2 0 = 3 ∧ truncs 2 1 = 31 ∧ truncs 2 2 = 255 := by decide

end Htool
