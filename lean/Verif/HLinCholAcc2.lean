import Verif.HLinCholAcc

/-! # Accuracy of `cholesky_factorization` of a hierarchical matrix: the result -/

namespace Htool
open Finset

section chol
variable {G 𝕜 : Type*} [RCLike 𝕜] [DecidableEq 𝕜] {E : LinOps 𝕜} {ε : ℝ} {a hm : ℕ} {u : UploType}
variable {ad : ClusterTree G → ClusterTree G → Prop} {m : Mask}

/-- Residual of the diagonal block `p`, in the half which is used, relative to the matrices described by `P`. -/
def CRes (ε : ℝ) (K : ℕ) (u : UploType) (T : ℕ → ℕ → 𝕜) (p : ClusterTree G) (P : ℝ → (ℕ → ℕ → 𝕜) → Prop) : Prop :=
  ∀ (W : ℕ → ℕ → ℝ) (Bd : ℝ) (k : ℕ) (H : ℕ → ℕ → 𝕜), Maj W Bd → P (accErr ε Bd k) H → CDom u p.off p.fin T H W p p →
    ∀ i ∈ Ico p.off p.fin, ∀ j ∈ Ico p.off p.fin, InHalf u i j →
      ‖∑ l ∈ Ico p.off p.fin, lowF u T i l * star (lowF u T j l) - H i j‖ ≤ accErr ε Bd (k + K)

omit [DecidableEq 𝕜] in
/-- Part of the sum, part of the rows and columns. -/
theorem CDom.sub {lo hi lo' hi' : ℕ} {T T' H : ℕ → ℕ → 𝕜} {W : ℕ → ℕ → ℝ} {x y x' y' : ClusterTree G} (h : CDom u lo hi T H W x y)
    (hl : lo ≤ lo') (hh : hi' ≤ hi) (hx : x.off ≤ x'.off ∧ x'.fin ≤ x.fin) (hy : y.off ≤ y'.off ∧ y'.fin ≤ y.fin)
    (e1 : ∀ i ∈ Ico x'.off x'.fin, ∀ l ∈ Ico lo' hi', lowF u T i l = lowF u T' i l)
    (e2 : ∀ i ∈ Ico y'.off y'.fin, ∀ l ∈ Ico lo' hi', lowF u T i l = lowF u T' i l) : CDom u lo' hi' T' H W x' y' := by
  intro i hi j hj
  have hi' := mem_Ico.1 hi
  have hj' := mem_Ico.1 hj
  refine le_trans ?_ (h i (mem_Ico.2 (by omega)) j (mem_Ico.2 (by omega)))
  refine add_le_add (le_refl _) ?_
  rw [sum_congr rfl fun l hl => by rw [← e1 i hi l hl, ← e2 j hj l hl]]
  exact sum_le_sum_of_subset_of_nonneg (Ico_subset_Ico hl hh) fun _ _ _ => mul_nonneg (norm_nonneg _) (norm_nonneg _)

/-- **The factorization of an H-matrix, with inexact compression, when the lists have at most two clusters.** -/
theorem cholH_near (hE : E.Acc ε) (hε : 0 ≤ ε) (hT : TrsmOK E) (hP : PotrfOK E) (hd : ∀ c, ¬ ad c c) (hu : u ≠ .N) (hmk : MaskOK u m) :
    ∀ (f n : ℕ) (A : FTree G 𝕜) (M : ℕ → ℕ → 𝕜), A.ht ≤ n → 2 * n ≤ f → n ≤ hm → Rep m ad M A → A.NP → A.label.t = A.label.s → A.label.t.Top → A.label.t.Bin →
      A.label.t.Arity a → A.PivotsC E u f →
      ∃ A' T, cholH E u f A = some A' ∧ A'.label.t = A.label.t ∧ A'.label.s = A.label.s ∧ A'.ht ≤ A.ht ∧
        Shape m (fun n => Flag m n ∧ TriP u false ad T n) A' ∧ CLow u T A.label.t.off A.label.t.fin ∧
        CRes ε ((n + 2 * hm) * (a * truncs a hm)) u T A.label.t (fun e H => NearT m e ad H A) := by
  intro f
  induction f with
  | zero => intro n A M hA; have := Tree.ht_pos A; omega
  | succ f ih =>
    intro n A M hn hf hnm hA hnp hsq ht hbin har hM
    have b := Shape.self hA
    have hApos := Tree.ht_pos A
    cases hdat : A.label.data with
    | dense D piv =>
      unfold FTree.PivotsC at hM
      rw [hdat] at hM
      have hM : CanPotrf u D := hM
      obtain ⟨T, h1, h2, h3⟩ := cholA_leaf hP hu hmk hA hsq hM hdat (hnp A (Tree.mem_pre_self A) D piv hdat)
      refine ⟨_, T, by unfold cholH; rw [hdat], ?_, ?_, ?_, h1, h2, ?_⟩
      · rw [setData_label]
      · rw [setData_label]
      · rw [setData_ht]
      · intro W Bd k H w1 w2 _ i hi j hj hij
        rw [h3 i hi j hj hij]
        refine (hA.entry_near_of w2 (hmk.ok_half hij) ?_).trans (accErr_mono hε w1.nonneg (by omega))
        unfold FNode.Has
        rw [← hsq]
        exact ⟨mem_Ico.1 hi, mem_Ico.1 hj⟩
    | lowRank W =>
      exfalso
      have := b.prop.2
      rw [hdat] at this
      rw [← hsq] at this
      exact hd _ this.1
    | hier =>
      have hh : A.isHier = true := isHier_iff.2 hdat
      unfold FTree.PivotsC at hM
      rw [hdat] at hM
      set c := A.label.t with hc
      have hM : ∀ (l1 l2 : List (ClusterTree G)) (p : ClusterTree G) (A1 X : FTree G 𝕜), clList A.bad c = l1 ++ p :: l2 →
        l1.foldlM (cholStep E u f (clList A.bad c)) A = some A1 → getBlock p p A1 = some X → FTree.PivotsC E u f X := hM
      have hbad : A.bad = decide (c.rk < 0) := by unfold FTree.bad; rw [← hsq, ← hc, Bool.or_self]
      have L : ClL c (clList A.bad c) := clL_of b.clT ht A.bad
      have hrk : ∀ p ∈ clList A.bad c, 0 ≤ p.rk := fun p hp => clList_rank b.clT ht (fun hr => bad_iff.2 (Or.inl hr)) hp
      have hlen : (clList A.bad c).length ≤ 2 := by rw [hbad]; exact hbin c (.refl _)
      have ha := har.pos
      set K0 := (n + 2 * hm) * (a * truncs a hm) with hK0
      set Kd := ((n - 1) + 2 * hm) * (a * truncs a hm) with hKd
      have hK : truncs a hm + Kd ≤ K0 := by
        have : truncs a hm ≤ a * truncs a hm := Nat.le_mul_of_pos_left _ ha
        have e : Kd + a * truncs a hm = K0 := by
          rw [hK0, hKd]
          obtain ⟨m, rfl⟩ : ∃ m, n = m + 1 := ⟨n - 1, by omega⟩
          rw [Nat.add_sub_cancel]
          ring
        omega
      have hK2 : 2 * hm * (a * truncs a hm) ≤ K0 := Nat.mul_le_mul_right _ (by omega)
      have hf2 : 2 * A.ht ≤ f + 2 := by omega
      have hNm : A.ht ≤ hm := by omega
      set F0 : ClusterTree G → ClusterTree G → FNode G 𝕜 → Prop := fun _ _ n => ∀ (W : ℕ → ℕ → ℝ) (Bd : ℝ) (k : ℕ) (H : ℕ → ℕ → 𝕜), Maj W Bd →
        NearT m (accErr ε Bd k) ad H A → NearP m (accErr ε Bd k) ad H n with hF0
      have st0 : FState m A.bad c A.ht (QCA u m ad (fun _ _ => False) M (0 : ℕ → ℕ → 𝕜) F0) A := by
        refine ⟨fun X hX => ?_, rfl, hsq.symm, Nat.le_refl _, rfl, Or.inr hh⟩
        have bX := hA X hX
        exact ⟨⟨bX.prop.1, fun p _ q _ _ _ _ => ⟨fun h => h.elim, fun _ => ⟨⟨bX.prop, hnp X hX⟩, fun W Bd k H _ w2 => (w2 X hX).prop⟩⟩⟩, bX.clT, bX.clS, bX.leaf, bX.split⟩
      have z0 : ZT u (clList A.bad c) (0 : ℕ → ℕ → 𝕜) := fun _ _ _ _ _ => ⟨fun _ _ => rfl, fun _ _ => rfl⟩
      have IH : ∀ p ∈ clList A.bad c, ∀ (S : ℕ → ℕ → 𝕜) (Fp : FNode G 𝕜 → Prop) (X : FTree G 𝕜), FTree.PivotsC E u f X → Rep m ad S X → X.NP →
          Shape m (fun n => RepP m ad S n ∧ (n.data ≠ .hier → Fp n)) X → X.label.t = p → X.label.s = p → X.ht < A.ht →
          ∃ X' T1, cholH E u f X = some X' ∧ X'.label.t = p ∧ X'.label.s = p ∧ X'.ht ≤ X.ht ∧ Shape m (fun n => Flag m n ∧ TriP u false ad T1 n) X' ∧
            (CLow u T1 p.off p.fin ∧ CRes ε Kd u T1 p (fun e H => ∀ n, Fp n → NearP m e ad H n)) := by
        intro p hp S Fp X hpv hX hX' hF e1 e2 e3
        obtain ⟨X', T1, k1, k2, k3, k4, k5, k6, k7⟩ := ih (n - 1) X S (by omega) (by omega) (by omega) hX hX' (e1.trans e2.symm) (by rw [e1]; exact Or.inl (hrk p hp))
          (by rw [e1]; exact fun d hd => hbin d ((clList_desc b.clT ht hp).trans hd)) (by rw [e1]; exact har.desc (clList_desc b.clT ht hp)) hpv
        rw [e1] at k2 k6 k7
        rw [e2] at k3
        refine ⟨X', T1, k1, k2, k3, k4, k5, k6, fun W Bd k H w1 w2 w3 => k7 W Bd k H w1 (nearT_of hF fun n hn => w2 n hn) w3⟩
      unfold cholH
      rw [hdat]
      simp only
      cases hl : clList A.bad c with
      | nil =>
        exfalso
        have := L.tiles
        rw [hl] at this
        have h0 : c.off = c.fin := this
        have := b.clT.sz_pos
        rw [← hc] at this
        unfold ClusterTree.fin at h0
        omega
      | cons p l1 =>
        have hp : p ∈ clList A.bad c := by rw [hl]; simp
        have tl := L.tiles
        rw [hl] at tl
        obtain ⟨t1, t2⟩ : p.off = c.off ∧ Tiles (c.off + p.sz) c.fin (l1.map ClusterTree.iv) := tl
        have hpf : p.fin = c.off + p.sz := by unfold ClusterTree.fin; rw [t1]
        have bp := L.bounds hp
        have hps := L.pos p hp
        -- the first diagonal block
        obtain ⟨A1, T1, a1, a2, a3, a4⟩ := cholA_diag (Post := fun T1 => CLow u T1 p.off p.fin ∧ CRes ε Kd u T1 p (fun e H => ∀ n, F0 p p n → NearP m e ad H n))
          hu b.clT ht st0 hp (fun h => h) (z0 p hp) (cholH E u f)
          (fun X x0 x1 x2 x3 x4 x5 x6 => IH p hp M (F0 p p) X (hM [] l1 p A X hl rfl x0) x1 x2 x3 x4 x5 x6)
        have z1 := ZT.set b.clT ht hp hp z0 (Or.inl rfl) T1
        cases l1 with
        | nil =>
          have t3 : c.off + p.sz = c.fin := t2
          have hpc : p.fin = c.fin := by omega
          have e : ∀ i ∈ Ico p.off p.fin, ∀ j ∈ Ico p.off p.fin, lowF u (setB p p T1 0) i j = lowF u T1 i j := by
            intro i hi j hj
            unfold lowF
            rw [setB_in (mem_Ico.1 hi) (mem_Ico.1 hj), setB_in (mem_Ico.1 hj) (mem_Ico.1 hi)]
          refine ⟨A1, setB p p T1 0, ?_, a2.t, a2.s.trans hsq, a2.ht,
            chol_finish (m := m) (S := M) (a2.congr fun x _ y _ n _ _ hn hk => ⟨(hn hk).1, fun hd => ((hn hk).2 hd).1⟩) b.clT ht hu ?_ z1, ?_, ?_⟩
          · rw [List.foldlM_cons, a1]
            show Option.bind (Option.bind (some A1) fun A1 => [p].foldlM (cholApply E f u p) A1 |>.bind fun A2 => (pairs [p] [p]).foldlM (cholUpdate E f u p) A2) _ = _
            have e1 : [p].foldlM (cholApply E f u p) A1 = some A1 := by rw [List.foldlM_cons, cholApply_skip (by omega)]; rfl
            have e2 : (pairs [p] [p]).foldlM (cholUpdate E f u p) A1 = some A1 := by
              show List.foldlM (cholUpdate E f u p) A1 [(p, p)] = _
              rw [List.foldlM_cons, cholUpdate_skip (by simp)]; rfl
            rw [show Option.bind (some A1) (fun A1 => [p].foldlM (cholApply E f u p) A1 |>.bind fun A2 => (pairs [p] [p]).foldlM (cholUpdate E f u p) A2) =
              ([p].foldlM (cholApply E f u p) A1 |>.bind fun A2 => (pairs [p] [p]).foldlM (cholUpdate E f u p) A2) from rfl, e1]
            show Option.bind ((pairs [p] [p]).foldlM (cholUpdate E f u p) A1) _ = _
            rw [e2]
            rfl
          · intro x hx y hy _
            rw [hl, List.mem_singleton] at hx hy
            exact Or.inr ⟨hx, hy⟩
          · rw [← t1, ← hpc]
            exact ⟨fun i hi j hj hij => by rw [e i hi j hj]; exact a3.1 i hi j hj hij, fun i hi => by rw [e i hi i hi]; exact a3.2 i hi⟩
          · intro W Bd k H w1 w2 w3
            rw [← t1, ← hpc] at w3 ⊢
            intro i hi j hj hij
            rw [sum_congr rfl fun l hl => by rw [e i hi l hl, e j hj l hl]]
            refine (a4 W Bd k H w1 (fun n hn => hn W Bd k H w1 w2) ?_ i hi j hj hij).trans (accErr_mono hε w1.nonneg (by omega))
            exact w3.sub (le_refl _) (le_refl _) ⟨by omega, by omega⟩ ⟨by omega, by omega⟩ e e
        | cons o l2 =>
          cases l2 with
          | cons q l3 => rw [hl] at hlen; simp at hlen
          | nil =>
            have ho : o ∈ clList A.bad c := by rw [hl]; simp
            obtain ⟨t3, t4⟩ : o.off = c.off + p.sz ∧ c.off + p.sz + o.sz = c.fin := t2
            have hoff : p.fin = o.off := by omega
            have hof : o.fin = c.fin := by unfold ClusterTree.fin at *; omega
            have hos := L.pos o ho
            have hpo : p.off < o.off := by unfold ClusterTree.fin at *; omega
            have hne : p ≠ o := by rintro rfl; omega
            -- the off-diagonal block
            obtain ⟨A2, Y, b1, b2, b3⟩ := cholA_apply_one (a := a) (hm := hm) hE hε hT hu hmk b.clT ht hrk har hf2 hNm a2 hp ho hpo (Or.inr ⟨rfl, rfl⟩) (by
                rintro (h | ⟨h1, h2⟩)
                · exact h
                · unfold cblk at h1 h2
                  by_cases e : u = .L
                  · rw [if_pos e] at h1; exact hne h1.symm
                  · rw [if_neg e] at h2; exact hne h2.symm)
            have hck : (cblk u o p).1 ∈ clList A.bad c ∧ (cblk u o p).2 ∈ clList A.bad c := by unfold cblk; split <;> exact ⟨by assumption, by assumption⟩
            have hkk : (cblk u o p).1 = (cblk u o p).2 ∨ (u = .L ∧ (cblk u o p).2.off < (cblk u o p).1.off) ∨ (u = .U ∧ (cblk u o p).1.off < (cblk u o p).2.off) := by
              cases u with
              | N => exact absurd rfl hu
              | L => exact Or.inr (Or.inl ⟨rfl, hpo⟩)
              | U => exact Or.inr (Or.inr ⟨rfl, hpo⟩)
            have z2 := ZT.set b.clT ht hck.1 hck.2 z1 hkk Y
            -- the Schur complement
            obtain ⟨A3, S3, c1, c2⟩ := cholA_update_one (a := a) (hm := hm) hE hε hd hu hmk b.clT ht hrk har hf2 hNm b2 hp ho hpo (Or.inr ⟨rfl, rfl⟩) (by
              rintro ((h | ⟨h1, -⟩) | ⟨h1, h2⟩)
              · exact h
              · exact hne h1.symm
              · unfold cblk at h1 h2
                by_cases e : u = .L
                · rw [if_pos e] at h2; exact hne h2.symm
                · rw [if_neg e] at h1; exact hne h1.symm)
            set T2 := setB (cblk u o p).1 (cblk u o p).2 Y (setB p p T1 0) with hT2
            -- entries of the factor
            have f1 : ∀ i ∈ Ico p.off p.fin, ∀ l ∈ Ico p.off p.fin, lowF u T2 i l = lowF u T1 i l := by
              intro i hi l hl
              have hi := mem_Ico.1 hi
              have hl := mem_Ico.1 hl
              cases u with
              | N => exact absurd rfl hu
              | L => rw [lowF_L, lowF_L, hT2]; exact (setB_out (p := o) (q := p) (by omega)).trans (setB_in hi hl)
              | U => rw [lowF_U, lowF_U, hT2]; exact congrArg star ((setB_out (p := p) (q := o) (by omega)).trans (setB_in hl hi))
            have f3 : ∀ i ∈ Ico p.off p.fin, ∀ l ∈ Ico o.off o.fin, lowF u T2 i l = 0 := by
              intro i hi l hl
              have hi := mem_Ico.1 hi
              have hl := mem_Ico.1 hl
              cases u with
              | N => exact absurd rfl hu
              | L => rw [lowF_L, hT2]; exact (setB_out (p := o) (q := p) (by omega)).trans (setB_out (p := p) (q := p) (by omega))
              | U => rw [lowF_U, hT2]; exact (congrArg star ((setB_out (p := p) (q := o) (by omega)).trans (setB_out (p := p) (q := p) (by omega)))).trans (star_zero 𝕜)
            have st : ∀ (q : ClusterTree G) (B B1 B2 B3 : FTree G 𝕜), updSub q q (cholH E u f) B = some B1 → [p, o].foldlM (cholApply E f u q) B1 = some B2 →
                (pairs [p, o] [p, o]).foldlM (cholUpdate E f u q) B2 = some B3 → cholStep E u f [p, o] B q = some B3 := by
              intro q B B1 B2 B3 r1 r2 r3
              unfold cholStep
              rw [r1]
              show Option.bind ([p, o].foldlM (cholApply E f u q) B1) _ = _
              rw [r2]
              exact r3
            have s1 : [p, o].foldlM (cholApply E f u p) A1 = some A2 := by
              rw [List.foldlM_cons, cholApply_skip (by omega)]
              show List.foldlM (cholApply E f u p) A1 [o] = _
              rw [List.foldlM_cons, b1]; rfl
            have s2 : (pairs [p, o] [p, o]).foldlM (cholUpdate E f u p) A2 = some A3 := by
              show List.foldlM (cholUpdate E f u p) A2 [(p, p), (p, o), (o, p), (o, o)] = _
              rw [List.foldlM_cons, cholUpdate_skip (by simp)]
              show List.foldlM (cholUpdate E f u p) A2 [(p, o), (o, p), (o, o)] = _
              rw [List.foldlM_cons, cholUpdate_skip (by simp)]
              show List.foldlM (cholUpdate E f u p) A2 [(o, p), (o, o)] = _
              rw [List.foldlM_cons, cholUpdate_skip (by simp)]
              show List.foldlM (cholUpdate E f u p) A2 [(o, o)] = _
              rw [List.foldlM_cons, c1]; rfl
            have q1 := st p A A1 A2 A3 a1 s1 s2
            -- the last diagonal block
            obtain ⟨A4, T3, d1, d2, d3, d4⟩ := cholA_diag (Post := fun T3 => CLow u T3 o.off o.fin ∧ CRes ε Kd u T3 o (fun e H => ∀ n, UpdC ε (truncs a hm) u m ad (F0 o o) T2 p o o n → NearP m e ad H n))
              hu b.clT ht c2 ho (by
              rintro ((h | ⟨h1, -⟩) | ⟨h1, h2⟩)
              · exact h
              · exact hne h1.symm
              · unfold cblk at h1 h2
                by_cases e : u = .L
                · rw [if_pos e] at h2; exact hne h2.symm
                · rw [if_neg e] at h1; exact hne h1.symm) (z2 o ho) (cholH E u f)
              (fun X x0 x1 x2 x3 x4 x5 x6 => IH o ho S3 _ X (hM [p] [] o A3 X hl (by rw [hl, List.foldlM_cons, q1]; rfl) x0) x1 x2
                (Shape.imp x3 fun Y _ hY => ⟨hY.1, fun hh => (hY.2 hh).1 ⟨rfl, rfl⟩⟩) x4 x5 x6)
            have z3 := ZT.set b.clT ht ho ho z2 (Or.inl rfl) T3
            have h1 : ∀ i ∈ Ico o.off o.fin, ∀ l ∈ Ico o.off o.fin, lowF u (setB o o T3 T2) i l = lowF u T3 i l := by
              intro i hi j hj
              unfold lowF
              rw [setB_in (mem_Ico.1 hi) (mem_Ico.1 hj), setB_in (mem_Ico.1 hj) (mem_Ico.1 hi)]
            have h2 : ∀ i l, (i ∈ Ico p.off p.fin ∨ l ∈ Ico p.off p.fin) → lowF u (setB o o T3 T2) i l = lowF u T2 i l := by
              intro i l hil
              simp only [mem_Ico] at hil
              unfold lowF
              rw [setB_out (by omega), setB_out (by omega)]
            have hcase : ∀ i ∈ Ico c.off c.fin, i ∈ Ico p.off p.fin ∨ i ∈ Ico o.off o.fin := by
              intro i hi
              simp only [mem_Ico] at *
              omega
            have hsum : ∀ F : ℕ → 𝕜, ∑ l ∈ Ico c.off c.fin, F l = ∑ l ∈ Ico p.off p.fin, F l + ∑ l ∈ Ico o.off o.fin, F l := by
              intro F
              rw [← hof, ← hoff, ← t1, sum_Ico_consecutive _ (by unfold ClusterTree.fin; omega) (by unfold ClusterTree.fin at *; omega)]
            have hsumR : ∀ F : ℕ → ℝ, ∑ l ∈ Ico c.off c.fin, F l = ∑ l ∈ Ico p.off p.fin, F l + ∑ l ∈ Ico o.off o.fin, F l := by
              intro F
              rw [← hof, ← hoff, ← t1, sum_Ico_consecutive _ (by unfold ClusterTree.fin; omega) (by unfold ClusterTree.fin at *; omega)]
            have zero : ∀ i ∈ Ico p.off p.fin, ∀ l ∈ Ico o.off o.fin, lowF u (setB o o T3 T2) i l = 0 := fun i hi l hl => by
              rw [h2 i l (Or.inl hi)]; exact f3 i hi l hl
            refine ⟨A4, setB o o T3 T2, ?_, d2.t, d2.s.trans hsq, d2.ht,
              chol_finish (m := m) (S := S3) (d2.congr fun x _ y _ n _ _ hn hk => ⟨(hn hk).1, fun hd => ((hn hk).2 hd).1⟩) b.clT ht hu ?_ z3, ?_, ?_⟩
            · have s3 : [p, o].foldlM (cholApply E f u o) A4 = some A4 := by
                rw [List.foldlM_cons, cholApply_skip (by omega)]
                show List.foldlM (cholApply E f u o) A4 [o] = _
                rw [List.foldlM_cons, cholApply_skip (by omega)]; rfl
              have s4 : (pairs [p, o] [p, o]).foldlM (cholUpdate E f u o) A4 = some A4 := by
                show List.foldlM (cholUpdate E f u o) A4 [(p, p), (p, o), (o, p), (o, o)] = _
                rw [List.foldlM_cons, cholUpdate_skip (by show ¬ (o.off < p.off ∧ o.off < p.off); omega)]
                show List.foldlM (cholUpdate E f u o) A4 [(p, o), (o, p), (o, o)] = _
                rw [List.foldlM_cons, cholUpdate_skip (by show ¬ (o.off < p.off ∧ o.off < o.off); omega)]
                show List.foldlM (cholUpdate E f u o) A4 [(o, p), (o, o)] = _
                rw [List.foldlM_cons, cholUpdate_skip (by show ¬ (o.off < o.off ∧ o.off < p.off); omega)]
                show List.foldlM (cholUpdate E f u o) A4 [(o, o)] = _
                rw [List.foldlM_cons, cholUpdate_skip (by show ¬ (o.off < o.off ∧ o.off < o.off); omega)]; rfl
              exact foldlM_two q1 (st o A3 A4 A4 A4 d1 s3 s4)
            · intro x hx y hy hk
              rw [hl] at hx hy
              simp only [List.mem_cons, List.not_mem_nil, or_false] at hx hy
              rcases hx with rfl | rfl <;> rcases hy with rfl | rfl
              · exact Or.inl (Or.inl (Or.inr ⟨rfl, rfl⟩))
              · refine Or.inl (Or.inr ?_)
                rcases hk with e | ⟨-, e⟩ | ⟨rfl, e⟩
                · exact absurd e hne
                · omega
                · exact ⟨rfl, rfl⟩
              · refine Or.inl (Or.inr ?_)
                rcases hk with e | ⟨rfl, e⟩ | ⟨-, e⟩
                · exact absurd e.symm hne
                · exact ⟨rfl, rfl⟩
                · omega
              · exact Or.inr ⟨rfl, rfl⟩
            · refine ⟨fun i hi j hj hij => ?_, fun i hi => ?_⟩
              · rcases hcase i hi with hi | hi <;> rcases hcase j hj with hj | hj
                · rw [h2 i j (Or.inl hi), f1 i hi j hj]; exact a3.1 i hi j hj hij
                · exact zero i hi j hj
                · simp only [mem_Ico] at hi hj
                  omega
                · rw [h1 i hi j hj]; exact d3.1 i hi j hj hij
              · rcases hcase i hi with hi | hi
                · rw [h2 i i (Or.inl hi), f1 i hi i hi]; exact a3.2 i hi
                · rw [h1 i hi i hi]; exact d3.2 i hi
            · intro W Bd k H w1 w2 w3 i hi j hj hij
              have wF : ∀ n, F0 p p n → NearP m (accErr ε Bd k) ad H n := fun n hn => hn W Bd k H w1 w2
              have bO : c.off ≤ o.off ∧ o.fin ≤ c.fin := L.bounds ho
              rw [hsum]
              rcases hcase i hi with hi | hi <;> rcases hcase j hj with hj | hj
              · rw [sum_eq_zero (s := Ico o.off o.fin) (fun l hl => by rw [zero i hi l hl, zero_mul]), add_zero,
                  sum_congr rfl fun l hl => by rw [h2 i l (Or.inl hi), h2 j l (Or.inl hj), f1 i hi l hl, f1 j hj l hl]]
                refine (a4 W Bd k H w1 wF ?_ i hi j hj hij).trans (accErr_mono hε w1.nonneg (by omega))
                have e : ∀ i ∈ Ico p.off p.fin, ∀ l ∈ Ico p.off p.fin, lowF u (setB o o T3 T2) i l = lowF u T1 i l := fun i hi l hl => by rw [h2 i l (Or.inl hi), f1 i hi l hl]
                exact w3.sub bp.1 bp.2 bp bp e e
              · -- the upper half
                have hi' := mem_Ico.1 hi
                have hj' := mem_Ico.1 hj
                have hU : u = .U := by
                  rcases hij with ⟨-, e⟩ | ⟨e, -⟩
                  · omega
                  · exact e
                subst hU
                rw [sum_eq_zero (s := Ico o.off o.fin) (fun l hl => by rw [zero i hi l hl, zero_mul]), add_zero,
                  sum_congr rfl fun l hl => by rw [h2 i l (Or.inr hl), h2 j l (Or.inr hl)]]
                refine (b3 W Bd k H w1 wF ?_ i hi j hj).trans (accErr_mono hε w1.nonneg (by omega))
                exact w3.sub bp.1 bp.2 bp bO (fun i _ l hl => h2 i l (Or.inr hl)) (fun i _ l hl => h2 i l (Or.inr hl))
              · -- the lower half
                have hi' := mem_Ico.1 hi
                have hj' := mem_Ico.1 hj
                have hU : u = .L := by
                  rcases hij with ⟨e, -⟩ | ⟨-, e⟩
                  · exact e
                  · omega
                subst hU
                rw [sum_eq_zero (s := Ico o.off o.fin) (fun l hl => by rw [zero j hj l hl, star_zero, mul_zero]), add_zero,
                  sum_congr rfl fun l hl => by rw [h2 i l (Or.inr hl), h2 j l (Or.inr hl)]]
                refine (b3 W Bd k H w1 wF ?_ i hi j hj).trans (accErr_mono hε w1.nonneg (by omega))
                exact w3.sub bp.1 bp.2 bO bp (fun i _ l hl => h2 i l (Or.inr hl)) (fun i _ l hl => h2 i l (Or.inr hl))
              · have w4 : CDom u p.off p.fin T2 H W o o := w3.sub bp.1 bp.2 bO bO (fun i _ l hl => h2 i l (Or.inr hl)) (fun i _ l hl => h2 i l (Or.inr hl))
                have v := d4 W Bd (k + truncs a hm) (fun i j => H i j - ∑ l ∈ Ico p.off p.fin, lowF u T2 i l * star (lowF u T2 j l)) w1 (fun n hn => hn W Bd k H w1 wF w4) (by
                  intro i hi j hj
                  have hi' := mem_Ico.1 hi
                  have hj' := mem_Ico.1 hj
                  refine le_trans ?_ (w3 i (mem_Ico.2 (by omega)) j (mem_Ico.2 (by omega)))
                  rw [hsumR, ← add_assoc]
                  refine add_le_add ((norm_sub_le _ _).trans (add_le_add (le_refl _) ((norm_sum_le _ _).trans (le_of_eq ?_)))) (le_of_eq ?_)
                  · exact sum_congr rfl fun l hl => by rw [norm_mul, norm_star, h2 i l (Or.inr hl), h2 j l (Or.inr hl)]
                  · exact sum_congr rfl fun l hl => by rw [h1 i hi l hl, h1 j hj l hl]) i hi j hj hij
                refine le_trans (le_of_eq ?_) (v.trans (accErr_mono hε w1.nonneg (by omega)))
                congr 1
                rw [sum_congr rfl fun l hl => by rw [h2 i l (Or.inr hl), h2 j l (Or.inr hl)],
                  sum_congr (s₁ := Ico o.off o.fin) rfl fun l hl => by rw [h1 i hi l hl, h1 j hj l hl]]
                ring

end chol
end Htool
