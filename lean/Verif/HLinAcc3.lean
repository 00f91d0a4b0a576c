import Verif.HLinAcc2
import Verif.HLinMask

/-! # Accuracy of the product of two hierarchical matrices into a hierarchical matrix -/

namespace Htool
open Finset
variable {G 𝕜 : Type*} [RCLike 𝕜]

/-! ## Hierarchical matrices near a matrix -/

/-- A leaf has the sizes of the block and is at a distance at most `e` of the matrix `H` in Frobenius norm; in a dense block, only the entries of the half which
is used (`m.ok`) are compared. Only blocks accepted by `ad`, which belong to that half, are compressed. -/
def NearP (m : Mask) (e : ℝ) (ad : ClusterTree G → ClusterTree G → Prop) (H : ℕ → ℕ → 𝕜) (n : FNode G 𝕜) : Prop :=
  Flag m n ∧
  match n.data with
  | .dense D _ => D.nr = n.t.sz ∧ D.nc = n.s.sz ∧ ∃ H' : ℕ → ℕ → 𝕜, (∀ i j, n.Has i j → m.ok i j → H' i j = H i j) ∧
      frob n.t.sz n.s.sz (fun i j => D.get i j - rel H' n.t.off n.s.off i j) ≤ e
  | .lowRank L => (ad n.t n.s ∧ ∀ i j, n.Has i j → m.ok i j) ∧ L.Near e n.t.sz n.s.sz (rel H n.t.off n.s.off)
  | .hier => True

/-- All leaves of a hierarchical matrix are near the matrix `H`. -/
def NearT (m : Mask) (e : ℝ) (ad : ClusterTree G → ClusterTree G → Prop) (H : ℕ → ℕ → 𝕜) (A : FTree G 𝕜) : Prop := Shape m (NearP m e ad H) A

section near
variable {m : Mask} {e e' : ℝ} {ad : ClusterTree G → ClusterTree G → Prop} {H H' : ℕ → ℕ → 𝕜} {n x : FNode G 𝕜} {A : FTree G 𝕜}

theorem NearP.le (h : NearP m e ad H n) (he : e ≤ e') : NearP m e' ad H n := by
  obtain ⟨h1, h2⟩ := h
  refine ⟨h1, ?_⟩
  revert h2
  cases n.data with
  | dense D p => exact fun ⟨a, b, H', c, d⟩ => ⟨a, b, H', c, d.trans he⟩
  | lowRank L => exact fun h => ⟨h.1, h.2.le he⟩
  | hier => exact fun h => h

theorem NearP.congr_ok (h : NearP m e ad H n) (he : ∀ i j, n.Has i j → m.ok i j → H i j = H' i j) : NearP m e ad H' n := by
  obtain ⟨h1, h2⟩ := h
  refine ⟨h1, ?_⟩
  revert h2
  cases n.data with
  | dense D p => exact fun ⟨a, b, K, c, d⟩ => ⟨a, b, K, fun i j hi hj => (c i j hi hj).trans (he i j hi hj), d⟩
  | lowRank L => exact fun h => ⟨h.1, h.2.congr fun i hi j hj =>
      have hh : n.Has (n.t.off + i) (n.s.off + j) := by unfold FNode.Has ClusterTree.fin; omega
      he _ _ hh (h.1.2 _ _ hh)⟩
  | hier => exact fun h => h

theorem NearP.congr (h : NearP m e ad H n) (he : ∀ i j, n.Has i j → H i j = H' i j) : NearP m e ad H' n := h.congr_ok fun i j hi _ => he i j hi

theorem NearP.outside (he : ∀ i j, ¬ x.Has i j → H i j = H' i j) (h : NearP m e ad H n) (hn : n.data = .hier ∨ n.Disj x) : NearP m e ad H' n := by
  rcases hn with hn | hn
  · refine ⟨h.1, ?_⟩
    rw [hn]; trivial
  · exact h.congr fun i j hi => he i j fun hx => hn i j ⟨hi, hx⟩

theorem NearT.le (h : NearT m e ad H A) (he : e ≤ e') : NearT m e' ad H A := Shape.imp h fun _ _ hp => hp.le he

theorem NearT.congr_ok (h : NearT m e ad H A) (he : ∀ i j, A.label.Has i j → m.ok i j → H i j = H' i j) : NearT m e ad H' A :=
  Shape.imp h fun _ hX hp => hp.congr_ok fun i j hi => he i j (Shape.pre_has h hX hi)

theorem NearT.congr (h : NearT m e ad H A) (he : ∀ i j, A.label.Has i j → H i j = H' i j) : NearT m e ad H' A := h.congr_ok fun i j hi _ => he i j hi

/-- Both halves are stored; or the matrix is square and diagonal blocks are not compressed. -/
def SqOK (m : Mask) (ad : ClusterTree G → ClusterTree G → Prop) (n : FNode G 𝕜) : Prop := m = .full ∨ (n.t = n.s ∧ ∀ c, ¬ ad c c)

/-- Without error. -/
theorem Rep.near_of (h : Rep m ad H A) (hs : SqOK m ad A.label) : NearT m 0 ad H A := by
  classical
  refine Shape.imp h fun X hX hp => ⟨hp.1, ?_⟩
  have h2 := hp.2
  have hok : X.label.t ≠ X.label.s ∨ m = .full → ∀ i j, X.label.Has i j → m.ok i j := by
    rintro (hne | rfl)
    · rcases hs with rfl | ⟨hs, -⟩
      · exact fun _ _ _ => trivial
      · exact (Shape.diag_or_ok h hs hX).resolve_left hne
    · exact fun _ _ _ => trivial
  cases hd : X.label.data with
  | dense D p =>
    rw [hd] at h2
    refine ⟨h2.1, h2.2.1, fun i j => if m.ok i j then H i j else D.get (i - X.label.t.off) (j - X.label.s.off), fun i j _ hj => if_pos hj, ?_⟩
    rw [frob_congr (g := fun _ _ => 0) fun i hi j hj => ?_, frob_zero]
    unfold rel
    beta_reduce
    split
    · rename_i hj
      have := h2.2.2 (X.label.t.off + i) (X.label.s.off + j) (by unfold FNode.Has ClusterTree.fin; omega) hj
      rw [Nat.add_sub_cancel_left, Nat.add_sub_cancel_left] at this
      rw [this, sub_self]
    · rw [Nat.add_sub_cancel_left, Nat.add_sub_cancel_left, sub_self]
  | lowRank L =>
    rw [hd] at h2
    have ok : ∀ i j, X.label.Has i j → m.ok i j := by
      refine hok ?_
      rcases hs with e | ⟨-, hs⟩
      · exact Or.inr e
      · left
        intro e
        have := h2.1
        rw [e] at this
        exact hs _ this
    refine ⟨⟨h2.1, ok⟩, LR.IsMat.near ⟨h2.2.1, h2.2.2.1, h2.2.2.2.1, fun i hi j hj => ?_⟩⟩
    have hh : X.label.Has (X.label.t.off + i) (X.label.s.off + j) := by unfold FNode.Has ClusterTree.fin; omega
    have := h2.2.2.2.2 _ _ hh (ok _ _ hh)
    rw [Nat.add_sub_cancel_left, Nat.add_sub_cancel_left] at this
    exact this
  | hier => trivial

theorem Rep.near (h : Rep .full ad H A) : NearT .full 0 ad H A := h.near_of (Or.inl rfl)

end near

section acc
variable [DecidableEq 𝕜] {m : Mask} {E : LinOps 𝕜} {ε B : ℝ} {W : ℕ → ℕ → ℝ} {ad : ClusterTree G → ClusterTree G → Prop}

/-- Adding a low-rank matrix, itself near `V`, to all blocks. -/
theorem NearT.addLRH (hE : E.Acc ε) (hε : 0 ≤ ε) (hW : Maj W B) {C : FTree G 𝕜} {H V V' : ℕ → ℕ → 𝕜} {k kx : ℕ} (h : NearT m (accErr ε B k) ad H C)
    {L : LR 𝕜} (hL : L.On C.label.t C.label.s V')
    (hV : frob C.label.t.sz C.label.s.sz (fun i j => rel V' C.label.t.off C.label.s.off i j - rel V C.label.t.off C.label.s.off i j) ≤ accErr ε B kx)
    (hb : ∀ i j, C.label.Has i j → ‖H i j‖ + ‖V i j‖ ≤ W i j) :
    NearT m (accErr ε B (k + kx + 1)) ad (fun i j => H i j + V i j) (Htool.addLRH E L C) := by
  have hB := hW.nonneg
  rw [addLRH_eq]
  refine Shape.mapData h _ (fun n => (addNode_fields L _ _ n).1) (fun n => (addNode_fields L _ _ n).2.1) (fun n => (addNode_fields L _ _ n).2.2.1) ?_
  intro X hX hp
  obtain ⟨h1, h2⟩ := hp
  have hd := Shape.pre_desc h hX
  have b1 := (Shape.self h).clT.desc_bounds hd.1
  have b2 := (Shape.self h).clS.desc_bounds hd.2.1
  have p1 : 0 < X.label.t.sz := (h X hX).clT.size_pos
  have p2 : 0 < X.label.s.sz := (h X hX).clS.size_pos
  -- the error of `L` on the block
  have hVX : frob X.label.t.sz X.label.s.sz (fun i j => rel V' X.label.t.off X.label.s.off i j - rel V X.label.t.off X.label.s.off i j) ≤ accErr ε B kx := by
    refine le_trans (le_trans (le_of_eq (frob_congr fun i _ j _ => ?_)) (frob_sub_block (o := X.label.t.off - C.label.t.off)
      (o' := X.label.s.off - C.label.s.off) (by unfold ClusterTree.fin at b1; omega) (by unfold ClusterTree.fin at b2; omega) _)) hV
    unfold rel
    have e1 : C.label.t.off + (X.label.t.off - C.label.t.off + i) = X.label.t.off + i := by omega
    have e2 : C.label.s.off + (X.label.s.off - C.label.s.off + j) = X.label.s.off + j := by omega
    rw [e1, e2]
  refine ⟨?_, ?_⟩
  · unfold Flag FNode.NoSym
    obtain ⟨e1, e2, -, e4, e5⟩ := addNode_fields (E := E) L C.label.t C.label.s X.label
    rw [e1, e2, e4, e5]
    exact h1
  · unfold addNode
    cases hdat : X.label.data with
    | dense D p =>
      rw [hdat] at h2
      obtain ⟨d1, d2, K, d4, d3⟩ := h2
      have g := addLRDense_get hL (D := D) (ro := X.label.t.off - C.label.t.off) (co := X.label.s.off - C.label.s.off) d1 d2
        (by unfold ClusterTree.fin at b1; omega) (by unfold ClusterTree.fin at b2; omega)
      refine ⟨g.1, g.2.1, fun i j => K i j + V i j, fun i j hi hj => congrArg (· + V i j) (d4 i j hi hj), ?_⟩
      have t := frob_add_le X.label.t.sz X.label.s.sz (fun i j => D.get i j - rel K X.label.t.off X.label.s.off i j)
        (fun i j => rel V' X.label.t.off X.label.s.off i j - rel V X.label.t.off X.label.s.off i j)
      refine le_trans (le_trans (le_of_eq (frob_congr fun i hi j hj => ?_)) t) ((add_le_add d3 hVX).trans ((accErr_add hε hB k kx).trans
        (accErr_mono hε hB (by omega))))
      show (addLRDense L (X.label.t.off - C.label.t.off) (X.label.s.off - C.label.s.off) X.label.t.sz X.label.s.sz D).get i j -
        rel (fun i j => K i j + V i j) X.label.t.off X.label.s.off i j = _
      rw [g.2.2 i hi j hj]
      unfold rel
      beta_reduce
      have e1 : C.label.t.off + (X.label.t.off - C.label.t.off) + i = X.label.t.off + i := by omega
      have e2 : C.label.s.off + (X.label.s.off - C.label.s.off) + j = X.label.s.off + j := by omega
      rw [e1, e2]; ring
    | lowRank Y =>
      rw [hdat] at h2
      obtain ⟨d0, d1, d2, d3, d4⟩ := h2
      obtain ⟨L', hL', e⟩ : ∃ L' : LR 𝕜, L'.IsMat C.label.t.sz C.label.s.sz (rel V' C.label.t.off C.label.s.off) ∧
          LR.addLR E.rc L C.label.t.iv C.label.s.iv Y X.label.t.iv X.label.s.iv = LR.addLR E.rc L' C.label.t.iv C.label.s.iv Y X.label.t.iv X.label.s.iv := by
        rcases hL with hL | ⟨⟨m', n', rfl⟩, hz⟩
        · exact ⟨L, hL, rfl⟩
        · refine ⟨nilLR 𝕜 C.label.t.sz C.label.s.sz, IsMat.congr' (nilLR_is _ _) fun i hi j hj => ?_, addLR_nil _ _ _ _ _ _ _ _ _ _⟩
          exact (hz _ _ (by unfold ClusterTree.fin; omega) (by unfold ClusterTree.fin; omega)).symm
      obtain ⟨P, P1, P2, P3, P4, P5, P6⟩ := C32_sum E.rc L' Y C.label.t.iv C.label.s.iv X.label.t.iv X.label.s.iv hL'.1 d1 hL'.2.1 hL'.2.2.1 d2 d3
        (Or.inr ⟨b1, b2⟩)
      have hP : P.Near (accErr ε B (k + kx)) X.label.t.sz X.label.s.sz (rel (fun i j => H i j + V i j) X.label.t.off X.label.s.off) := by
        refine ⟨P1, P2.trans d2, P3.trans d3, ?_⟩
        have t := frob_add_le X.label.t.sz X.label.s.sz (fun i j => Y.entry i j - rel H X.label.t.off X.label.s.off i j)
          (fun i j => rel V' X.label.t.off X.label.s.off i j - rel V X.label.t.off X.label.s.off i j)
        refine le_trans (le_trans (le_of_eq (frob_congr fun i hi j hj => ?_)) t) ((add_le_add d4 hVX).trans (accErr_add hε hB k kx))
        have hi' : X.label.Has (X.label.t.off + i) (X.label.s.off + j) := by unfold FNode.Has ClusterTree.fin; omega
        have hC := Shape.pre_has h hX hi'
        have := P5 (X.label.t.off + i) (X.label.s.off + j) hi'.1 hi'.2
        have e1 : X.label.t.off + i - X.label.t.iv.1 = i := by unfold ClusterTree.iv; omega
        have e2 : X.label.s.off + j - X.label.s.iv.1 = j := by unfold ClusterTree.iv; omega
        rw [e1, e2, if_pos (show InCl C.label.t.iv (X.label.t.off + i) ∧ InCl C.label.s.iv (X.label.s.off + j) from hC)] at this
        have hv := hL'.2.2.2 (X.label.t.off + i - C.label.t.off) (by unfold FNode.Has ClusterTree.fin at hC; omega) (X.label.s.off + j - C.label.s.off)
          (by unfold FNode.Has ClusterTree.fin at hC; omega)
        have e3 : C.label.t.off + (X.label.t.off + i - C.label.t.off) = X.label.t.off + i := by unfold FNode.Has at hC; omega
        have e4 : C.label.s.off + (X.label.s.off + j - C.label.s.off) = X.label.s.off + j := by unfold FNode.Has at hC; omega
        unfold rel at hv
        rw [e3, e4] at hv
        rw [this]
        have hv' : L'.entry (X.label.t.off + i - C.label.t.iv.1) (X.label.s.off + j - C.label.s.iv.1) = V' (X.label.t.off + i) (X.label.s.off + j) := hv
        rw [hv']
        unfold rel
        ring
      have hQ : (LR.addLR E.rc L C.label.t.iv C.label.s.iv Y X.label.t.iv X.label.s.iv).Near (accErr ε B (k + kx + 1)) X.label.t.sz X.label.s.sz
          (rel (fun i j => H i j + V i j) X.label.t.off X.label.s.off) := by
        rw [e, P6]
        by_cases h0 : Y.rank = 0
        · rw [if_pos h0]; exact hP.le (accErr_mono hε hB (by omega))
        · rw [if_neg h0]
          refine hP.rc hE hε (by omega) p1 p2 (hW.frob (o := X.label.t.off) (o' := X.label.s.off) fun i hi j hj => ?_)
          exact (norm_add_le _ _).trans (hb _ _ (Shape.pre_has h hX (by unfold FNode.Has ClusterTree.fin; omega)))
      exact ⟨d0, hQ⟩
    | hier => simp only [hdat]

/-- The temporary of a product with a leaf. -/
theorem hhTemp_near (hE : E.Acc ε) (hε : 0 ≤ ε) (hW : Maj W B) {adA adB : ClusterTree G → ClusterTree G → Prop} {MA MB : ℕ → ℕ → 𝕜} {A X : FTree G 𝕜}
    (hA : Rep .full adA MA A) (hX : Rep .full adB MB X) (hh : (A.isHier && X.isHier) = false) (ta tb : Trans) (α : 𝕜) (hin : A.inC ta = X.outC tb)
    (hb : ∀ i j, ((A.outC ta).off ≤ i ∧ i < (A.outC ta).fin) → ((X.inC tb).off ≤ j ∧ j < (X.inC tb).fin) →
        ‖α‖ * aprod ta tb MA MB (A.inC ta) i j ≤ W i j) :
    ∃ V' : ℕ → ℕ → 𝕜, (hhTemp E ta tb α A X 1).On (A.outC ta) (X.inC tb) V' ∧
      frob (A.outC ta).sz (X.inC tb).sz (fun i j => rel V' (A.outC ta).off (X.inC tb).off i j -
        rel (fun i j => α * mprod ta tb MA MB (A.inC ta) i j) (A.outC ta).off (X.inC tb).off i j) ≤ accErr ε B 2 := by
  have hB := hW.nonneg
  by_cases hn : A.nilRank ∨ X.nilRank
  · -- the exact kernels do the same
    have e : hhTemp E ta tb α A X 1 = hhTemp E.noTrunc ta tb α A X 1 := by
      rw [hhTemp_eq, hhTemp_eq]
      unfold leafLR
      rcases hn with ⟨L, hd, hr⟩ | ⟨L, hd, hr⟩
      · rw [hd]
        cases X.label.data with
        | dense D p => simp only [LR.mulMatLR, if_neg (not_not.2 hr)]
        | lowRank L' => simp only [LR.mulLRLR, if_neg (fun h : L.rank ≠ 0 ∧ L'.rank ≠ 0 => h.1 hr)]
        | hier => simp only [lrHmLR, if_neg (not_not.2 hr)]
      · rw [hd]
        cases A.label.data with
        | dense D p => simp only [LR.matMulLR, if_neg (not_not.2 hr)]
        | lowRank L' => simp only [LR.mulLRLR, if_neg (fun h : L'.rank ≠ 0 ∧ L.rank ≠ 0 => h.2 hr)]
        | hier => simp only [hmLrLR, if_neg (not_not.2 hr)]
    rw [e]
    refine ⟨_, hhTemp_on (LinOps.noTrunc_exact hE.real) hA hX hh ta tb α 1 hin, ?_⟩
    rw [frob_congr (g := fun _ _ => 0) fun i _ j _ => sub_self _, frob_zero]
    exact accErr_nonneg hε hB 2
  · have bd : ∀ i < (A.outC ta).sz, ∀ j < (X.inC tb).sz, ‖α * mprod ta tb MA MB (A.inC ta) ((A.outC ta).off + i) ((X.inC tb).off + j)‖ ≤
        W ((A.outC ta).off + i) ((X.inC tb).off + j) := fun i hi j hj =>
      (norm_smul_mprod_le ..).trans (hb _ _ (by unfold ClusterTree.fin; omega) (by unfold ClusterTree.fin; omega))
    have l := leafLR_near hE hε hB hA hX hh ta tb α (C := nilLR 𝕜 0 0) (F := fun _ _ => 0) (k := 0) hin
      (Or.inr ⟨fun h => hn (Or.inl h), fun h => hn (Or.inr h), rfl, fun _ _ => rfl⟩)
      (hW.frob (o := (A.outC ta).off) (o' := (X.inC tb).off) bd)
      (hW.frob (o := (A.outC ta).off) (o' := (X.inC tb).off) fun i hi j hj => by
        unfold rel; beta_reduce; rw [zero_add]; exact bd i hi j hj)
    rw [hhTemp_eq]
    refine ⟨fun i j => (leafLR E ta tb α A X 1 (nilLR 𝕜 0 0)).entry (i - (A.outC ta).off) (j - (X.inC tb).off), Or.inl ⟨l.1, l.2.1, l.2.2.1, fun i _ j _ => ?_⟩,
      le_trans (le_of_eq (frob_congr fun i _ j _ => ?_)) l.2.2.2⟩
    · unfold rel
      beta_reduce
      rw [Nat.add_sub_cancel_left, Nat.add_sub_cancel_left]; rfl
    · unfold rel
      beta_reduce
      rw [Nat.add_sub_cancel_left, Nat.add_sub_cancel_left, zero_add]

omit [DecidableEq 𝕜] [RCLike 𝕜] in
theorem triples_length (l l' l'' : List (ClusterTree G)) : (triples l l' l'').length = l.length * l'.length * l''.length := by
  unfold triples
  rw [List.length_flatMap]
  have : ∀ o : ClusterTree G, (l'.flatMap (fun i => l''.map (fun m => (o, i, m)))).length = l'.length * l''.length := by
    intro o
    rw [List.length_flatMap]
    simp
  simp only [this]
  simp [Nat.mul_assoc]

/-- Product of two H-matrices into an H-matrix: on every leaf of the result, the exact result up to the errors of the truncations. -/
theorem hhH_near (hE : E.Acc ε) (hε : 0 ≤ ε) (hW : Maj W B) {adA adB : ClusterTree G → ClusterTree G → Prop} {MA MB : ℕ → ℕ → 𝕜} {a : ℕ}
    (ta tb : Trans) (α : 𝕜) :
    ∀ (n h : ℕ) (A X C : FTree G 𝕜) (H : ℕ → ℕ → 𝕜) (k : ℕ), A.ht + X.ht ≤ n → A.ht + (if X.bad then 1 else 0) ≤ h → Opnd adA MA a A → Opnd adB MB a X →
      NearT m (accErr ε B k) ad H C → A.label.t.Flat → A.label.s.Flat → X.label.t.Flat → X.label.s.Flat → A.inC ta = X.outC tb →
      C.label.t = A.outC ta → C.label.s = X.inC tb → m.keep C.label.t C.label.s = true →
      (∀ i j, C.label.Has i j → ‖H i j‖ + ‖α‖ * aprod ta tb MA MB (A.inC ta) i j ≤ W i j) →
      ∃ C', hhH E n ta tb α A X 1 C = some C' ∧ NearT m (accErr ε B (k + truncs a h)) ad (fun i j => H i j + α * mprod ta tb MA MB (A.inC ta) i j) C' ∧
        C'.label.t = C.label.t ∧ C'.label.s = C.label.s ∧ C'.ht ≤ C.ht := by
  intro n
  induction n with
  | zero => intro h A X C H k hn; have := Tree.ht_pos A; omega
  | succ n ih =>
    intro h A X C H k hn hh0 hA hX hC a1 a2 b1 b2 hin c1 c2 hk hF
    have hB := hW.nonneg
    have hsz : opCols ta A.label.t.sz A.label.s.sz = opRows tb X.label.t.sz X.label.s.sz := by rw [opCols_inC, opRows_outC, hin]
    have hCp := (Shape.self hC).prop
    have hF' : ∀ i j, ((A.outC ta).off ≤ i ∧ i < (A.outC ta).fin) → ((X.inC tb).off ≤ j ∧ j < (X.inC tb).fin) →
        ‖H i j‖ + ‖α‖ * aprod ta tb MA MB (A.inC ta) i j ≤ W i j := fun i j hi hj => hF i j (by unfold FNode.Has; rw [c1, c2]; exact ⟨hi, hj⟩)
    unfold hhH
    cases hd : C.label.data with
    | dense D piv =>
      have hCp2 := hCp.2
      rw [hd] at hCp2
      obtain ⟨d1, d2, K, d4, d3⟩ := hCp2
      have g := hhMat_is hE.real hA.rep hX.rep ta tb α 1 (C := D) (FC := D.get) hsz
        ⟨by rw [opRows_outC, d1, c1], by rw [opCols_inC, d2, c2], fun _ _ _ _ => rfl⟩
      rw [opRows_outC, opCols_inC tb, ← c1, ← c2] at g
      refine ⟨_, rfl, Shape.setLeaf hC (by unfold FTree.isHier; rw [hd]) (by simp) ⟨hCp.1, g.1, g.2.1,
        fun i j => K i j + α * mprod ta tb MA MB (A.inC ta) i j, fun i j hi hj => congrArg (· + _) (d4 i j hi hj), ?_⟩, by rw [setData_label],
        by rw [setData_label], by rw [setData_ht]⟩
      refine le_trans (le_trans (le_of_eq (frob_congr fun i hi j hj => ?_)) d3) (accErr_mono hε hB (Nat.le_add_right _ _))
      show (hhMat E ta tb α A X 1 D).get i j - rel _ C.label.t.off C.label.s.off i j = _
      rw [g.2.2 i hi j hj, prodE_abs hin]
      unfold rel
      rw [c1, c2]
      ring
    | lowRank L =>
      have hCp2 := hCp.2
      rw [hd] at hCp2
      obtain ⟨d0, d1⟩ := hCp2
      rw [c1, c2] at d1
      obtain ⟨L', l1, l2⟩ := hhLR_near hE hε hW ta tb α (n + 1) h A X hn hh0 hA hX a1.top a2.top b1.top b2.top hin L H k d1 hF'
      rw [← c1, ← c2] at l2
      exact ⟨C.setData (.lowRank L'), by simp only [l1, Option.map_some], Shape.setLeaf hC (by unfold FTree.isHier; rw [hd]) (by simp)
        ⟨hCp.1, d0, l2⟩, by rw [setData_label], by rw [setData_label], by rw [setData_ht]⟩
    | hier =>
      have hCh : C.isHier = true := isHier_iff.2 hd
      by_cases hh : (A.isHier && X.isHier) = false
      · -- one of the operands is a leaf
        simp only [hh, Bool.false_eq_true, if_false]
        obtain ⟨V', v1, v2⟩ := hhTemp_near hE hε hW hA.rep hX.rep hh ta tb α hin (fun i j hi hj => by
          have := hF' i j hi hj
          have := norm_nonneg (H i j)
          linarith)
        rw [← c1, ← c2] at v1 v2
        have s := addLRH_same (E := E) (hhTemp E ta tb α A X 1) C
        refine ⟨_, rfl, (NearT.addLRH hE hε hW hC v1 v2 fun i j hi => ?_).le (accErr_mono hε hB ?_), s.1, s.2.1, Nat.le_of_eq s.2.2.1⟩
        · have := hF i j hi
          have := norm_smul_mprod_le ta tb α MA MB (A.inC ta) i j
          linarith
        · have := three_le_truncs a h
          omega
      · have hh : A.isHier = true ∧ X.isHier = true := by simpa using hh
        obtain ⟨h, rfl⟩ : ∃ h', h = h' + 1 := ⟨h - 1, by have := Tree.ht_pos A; omega⟩
        have okA := clList_outC hA ta
        have okB := clList_outC hX tb
        have tA := flat_outC a1 a2 ta
        have tB := flat_outC b1 b2 tb
        simp only [hh.1, hh.2, Bool.and_self, if_true]
        set bad := A.bad || X.bad with hbad
        have bA : A.bad = true → bad = true := fun h => by rw [hbad, h]; rfl
        have bB : X.bad = true → bad = true := fun h => by rw [hbad, h]; simp
        have bC : ∀ D : FTree G 𝕜, D.label.t = A.outC ta → D.label.s = X.inC tb → D.bad = true → bad = true := by
          intro D e1 e2 hb
          rw [bad_iff, e1, e2] at hb
          rcases hb with hb | hb
          · refine bA (bad_iff.2 ?_)
            unfold FTree.outC at hb
            by_cases e : ta = .N
            · rw [if_pos e] at hb; exact Or.inl hb
            · rw [if_neg e] at hb; exact Or.inr hb
          · refine bB (bad_iff.2 ?_)
            unfold FTree.inC at hb
            by_cases e : tb = .N
            · rw [if_pos e] at hb; exact Or.inr hb
            · rw [if_neg e] at hb; exact Or.inl hb
        have tilesM := clList_tiles (bad := bad) okA.2 tA.2.top
        have tilesO := clList_tiles (bad := bad) okA.1 tA.1.top
        have tilesI := clList_tiles (bad := bad) okB.2 tB.2.top
        -- the three loops
        have loop : ∀ l : List (ClusterTree G × ClusterTree G × ClusterTree G),
            (∀ x ∈ l, x ∈ triples (clList bad (A.outC ta)) (clList bad (X.inC tb)) (clList bad (A.inC ta))) → ∀ (D : FTree G 𝕜) (H : ℕ → ℕ → 𝕜) (k : ℕ),
            NearT m (accErr ε B k) ad H D → D.label.t = A.outC ta → D.label.s = X.inC tb → (bad = true ∨ D.isHier = true) →
            (∀ i j, D.label.Has i j → ‖H i j‖ + (l.map (fun x => if (x.1.off ≤ i ∧ i < x.1.fin) ∧ x.2.1.off ≤ j ∧ j < x.2.1.fin then
                ‖α‖ * aprod ta tb MA MB x.2.2 i j else 0)).sum ≤ W i j) →
            ∃ D', l.foldlM (fun C x =>
              match getChildOp ta x.1 x.2.2 A, getChildOp tb x.2.2 x.2.1 X, getChild x.1 x.2.1 C with
              | some Ac, some Bc, some _ => updChild x.1 x.2.1 (hhH E n ta tb α Ac Bc 1) C
              | _, _, _ => some C) D = some D' ∧
              NearT m (accErr ε B (k + l.length * truncs a h)) ad (fun i j => H i j + (l.map (fun x =>
                if (x.1.off ≤ i ∧ i < x.1.fin) ∧ x.2.1.off ≤ j ∧ j < x.2.1.fin then α * mprod ta tb MA MB x.2.2 i j else 0)).sum) D' ∧
              D'.label.t = A.outC ta ∧ D'.label.s = X.inC tb ∧ D'.ht ≤ D.ht := by
          intro l
          induction l with
          | nil =>
            intro _ D H k hD e1 e2 _ _
            exact ⟨D, rfl, (NearT.congr hD fun i j _ => by simp).le (accErr_mono hε hB (by simp)), e1, e2, Nat.le_refl _⟩
          | cons x l ihl =>
            obtain ⟨p, q, c⟩ := x
            intro hm D H k hD e1 e2 hDh hH
            have hx := hm (p, q, c) (by simp)
            rw [mem_triples] at hx
            obtain ⟨hp, hq, hc⟩ := hx
            simp only at hp hq hc
            have hkD : m.keep D.label.t D.label.s = true := by rw [e1, e2, ← c1, ← c2]; exact hk
            obtain ⟨Y, x1, x2, x3, x4, x5, x6, x7, x8⟩ := Shape.getChildOp_spec hA a1 a2 bA (Or.inr hh.1) ta hp hc
            obtain ⟨U, y1, y2, y3, y4, y5, y6, y7, y8⟩ := Shape.getChildOp_spec hX b1 b2 bB (Or.inr hh.2) tb (p := c) (q := q) (by rw [← hin]; exact hc) hq
            have hlt : Y.ht + U.ht ≤ n := by
              cases hb : bad with
              | false => have := x6 (Or.inl hb); omega
              | true =>
                rw [hbad, Bool.or_eq_true] at hb
                rcases hb with hb | hb
                · have := x6 (Or.inr hb); omega
                · have := y6 (Or.inr hb); omega
            have hUb : U.bad = false := by
              by_contra hc
              have := bad_iff.1 (by simpa using hc : U.bad = true)
              omega
            have hlth : Y.ht + (if U.bad then 1 else 0) ≤ h := by
              simp only [hUb, Bool.false_eq_true, if_false]
              by_cases hAb : bad = false ∨ A.bad = true
              · have := x6 hAb; omega
              · have hb1 : bad = true := by simpa using fun h => hAb (Or.inl h)
                have hb2 : X.bad = true := by
                  rw [hbad, Bool.or_eq_true] at hb1
                  exact hb1.resolve_left fun h => hAb (Or.inr h)
                simp only [hb2, if_true] at hh0
                omega
            have rest : ∀ i j, 0 ≤ (l.map (fun x => if (x.1.off ≤ i ∧ i < x.1.fin) ∧ x.2.1.off ≤ j ∧ j < x.2.1.fin then
                ‖α‖ * aprod ta tb MA MB x.2.2 i j else 0)).sum := fun i j => list_sum_nonneg' fun x => by
              split
              · exact mul_nonneg (norm_nonneg _) (aprod_nonneg ..)
              · exact le_refl _
            -- one step
            have step : ∃ D1, (match getChildOp ta p c A, getChildOp tb c q X, getChild p q D with
                | some Ac, some Bc, some _ => updChild p q (hhH E n ta tb α Ac Bc 1) D
                | _, _, _ => some D) = some D1 ∧
                NearT m (accErr ε B (k + truncs a h)) ad
                  (fun i j => H i j + if (p.off ≤ i ∧ i < p.fin) ∧ q.off ≤ j ∧ j < q.fin then α * mprod ta tb MA MB c i j else 0) D1 ∧
                D1.label.t = A.outC ta ∧ D1.label.s = X.inC tb ∧ D1.ht ≤ D.ht ∧ (bad = true ∨ D1.isHier = true) := by
              cases hkk : m.keep p q with
              | false =>
                have hg := Shape.getChild_none hD hkD hkk
                refine ⟨D, by simp only [x1, y1, hg], (NearT.congr_ok hD fun i j _ hok => ?_).le (accErr_mono hε hB (Nat.le_add_right _ _)), e1, e2,
                  Nat.le_refl _, hDh⟩
                rw [if_neg, add_zero]
                intro hi
                revert hkk hok
                unfold Mask.keep Mask.ok
                cases m with
                | full => simp
                | lower => simp only [decide_eq_false_iff_not]; intro h1 h2; omega
                | upper => simp only [decide_eq_false_iff_not]; intro h1 h2; omega
              | true =>
                obtain ⟨Z, z1, z2, z3, z4, z5, z6, z7⟩ := Shape.focusC hD (e1 ▸ tA.1) (e2 ▸ tB.2) (bC D e1 e2) hDh (p := p) (q := q)
                  (by rw [e1]; exact hp) (by rw [e2]; exact hq) hkk
                have pd := okA.1.desc_bounds (clList_desc okA.1 tA.1.top hp)
                have qd := okB.2.desc_bounds (clList_desc okB.2 tB.2.top hq)
                obtain ⟨Z', w1, w2, w3, w4, w5⟩ := ih h Y U Z H k hlt hlth x2 y2 z1 (Or.inl x7) (Or.inl x8) (Or.inl y7) (Or.inl y8) (by rw [x4, y3])
                  (by rw [z2, x3]) (by rw [z3, y4]) (by rw [z2, z3]; exact hkk) (by
                    intro i j hi
                    unfold FNode.Has at hi
                    rw [z2, z3] at hi
                    rw [x4]
                    have h1 := hH i j (by unfold FNode.Has; rw [e1, e2]; omega)
                    rw [List.map_cons, List.sum_cons, if_pos hi] at h1
                    have := rest i j
                    linarith)
                rw [x4] at w2
                obtain ⟨D1, u1, u2, u3, u4, u5, u6⟩ := z7 (hhH E n ta tb α Y U 1)
                  (NearP m (accErr ε B (k + truncs a h)) ad
                    (fun i j => H i j + if (p.off ≤ i ∧ i < p.fin) ∧ q.off ≤ j ∧ j < q.fin then α * mprod ta tb MA MB c i j else 0)) Z' w1
                  (NearT.congr w2 fun i j hi => by
                    rw [if_pos (show (p.off ≤ i ∧ i < p.fin) ∧ q.off ≤ j ∧ j < q.fin by
                      unfold FNode.Has at hi; rw [w3, w4, z2, z3] at hi; exact hi)])
                  (w3.trans z2) (w4.trans z3) w5
                  (fun nd hnd hdj => (NearP.outside (fun i j hni => by
                    rw [if_neg (show ¬ ((p.off ≤ i ∧ i < p.fin) ∧ q.off ≤ j ∧ j < q.fin) by
                      intro hi; apply hni; unfold FNode.Has; rw [z2, z3]; exact hi), add_zero]) hnd hdj).le (accErr_mono hε hB (Nat.le_add_right _ _)))
                exact ⟨D1, by simp only [x1, y1, z6]; exact u1, u2, u3.trans e1, u4.trans e2, u5, u6⟩
            obtain ⟨D1, s1, s2, s3, s4, s5, s6⟩ := step
            obtain ⟨D2, t1, t2, t3, t4, t5⟩ := ihl (fun z hz => hm z (by simp [hz])) D1 _ _ s2 s3 s4 s6 (by
              intro i j hi
              have h1 := hH i j (by unfold FNode.Has at hi ⊢; rw [s3, s4] at hi; rw [e1, e2]; exact hi)
              rw [List.map_cons, List.sum_cons] at h1
              beta_reduce
              by_cases hc : (p.off ≤ i ∧ i < p.fin) ∧ q.off ≤ j ∧ j < q.fin
              · rw [if_pos hc] at h1 ⊢
                have h2 := norm_add_le (H i j) (α * mprod ta tb MA MB c i j)
                have h3 := norm_smul_mprod_le ta tb α MA MB c i j
                linarith
              · rw [if_neg hc] at h1 ⊢
                rw [add_zero]
                linarith)
            refine ⟨D2, ?_, (NearT.congr t2 fun i j _ => ?_).le (accErr_mono hε hB (le_of_eq ?_)), t3, t4, Nat.le_trans t5 s5⟩
            · rw [List.foldlM_cons]
              exact (congrArg (fun o => o >>= _) s1).trans t1
            · beta_reduce
              rw [List.map_cons, List.sum_cons, add_assoc]
            · rw [List.length_cons]; ring
        obtain ⟨D', l1, l2, l3, l4, l5⟩ := loop _ (fun _ h => h) C H k hC c1 c2 (Or.inr hCh) (by
          intro i j hi
          have hi' := hi
          unfold FNode.Has at hi'
          rw [c1, c2] at hi'
          rw [sum_triples tilesO tilesI i j hi'.1 hi'.2 (fun c => ‖α‖ * aprod ta tb MA MB c i j), List.sum_map_mul_left, ← aprod_tiles tilesM]
          exact hF i j hi)
        refine ⟨D', l1, (NearT.congr l2 fun i j hi => ?_).le (accErr_mono hε hB ?_), l3.trans c1.symm, l4.trans c2.symm, l5⟩
        · beta_reduce
          unfold FNode.Has at hi
          rw [l3, l4] at hi
          rw [sum_triples tilesO tilesI i j hi.1 hi.2 (fun c => α * mprod ta tb MA MB c i j), mprod_tiles tilesM, List.sum_map_mul_left]
        · rw [triples_length]
          have e1 := Nat.mul_le_mul (Nat.mul_le_mul (hA.len bad ta).1 (hX.len bad tb).2) (hA.len bad ta).2
          have e2 := Nat.mul_le_mul_right (truncs a h) e1
          show k + _ ≤ k + (a ^ 2 * (a * truncs a h + 1) + 3)
          have e3 : a ^ 2 * (a * truncs a h + 1) + 3 = a * a * a * truncs a h + a ^ 2 + 3 := by ring
          omega

end acc
end Htool
