import Verif.HLinChol2

/-! # `cholesky_factorization` of a hierarchical matrix: the result -/

namespace Htool
variable {G R : Type*}
open Finset

/-- At most two clusters in every list a factorization runs on: clusters have at most two children, and the partition at most two parts. -/
def ClusterTree.Bin (c : ClusterTree G) : Prop := ∀ d, c.Desc d → (clList (decide (d.rk < 0)) d).length ≤ 2

theorem foldlM_two {α β : Type*} {F : β → α → Option β} {p o : α} {b b1 b2 : β} (h1 : F b p = some b1) (h2 : F b1 o = some b2) :
    [p, o].foldlM F b = some b2 := by
  rw [List.foldlM_cons, h1]
  show List.foldlM F b1 [o] = _
  rw [List.foldlM_cons, h2]
  rfl

section chol
variable [CommRing R] [StarRing R] [DecidableEq R] {E : LinOps R} {ad : ClusterTree G → ClusterTree G → Prop} {u : UploType} {m : Mask}
variable {bad : Bool} {c : ClusterTree G} {N f : ℕ} {dn : ClusterTree G → ClusterTree G → Prop} {S T : ℕ → ℕ → R} {A : FTree G R}

theorem cholApply_skip {p o : ClusterTree G} (h : ¬ p.off < o.off) : cholApply E f u p A o = some A := by
  unfold cholApply; rw [if_neg h]

theorem cholUpdate_skip {p : ClusterTree G} {x : ClusterTree G × ClusterTree G} (h : ¬ (p.off < x.1.off ∧ p.off < x.2.off)) : cholUpdate E f u p A x = some A := by
  unfold cholUpdate
  rw [if_neg (fun h' => h ⟨h'.2.1, h'.2.2.1⟩), if_neg (fun h' => h ⟨h'.2.1, h'.2.2.1⟩)]

/-- Rows of a triangular factor stop, or start, with their cluster. -/
def ZT (u : UploType) (cl : List (ClusterTree G)) (T : ℕ → ℕ → R) : Prop :=
  ∀ p ∈ cl, ∀ i j, (p.off ≤ i ∧ i < p.fin) → (u = .L → p.fin ≤ j → T i j = 0) ∧ (u = .U → j < p.off → T i j = 0)

omit [StarRing R] [DecidableEq R] in
theorem ZT.set (hc : ClOK c) (ht : c.Top) {x y : ClusterTree G} (hx : x ∈ clList bad c) (hy : y ∈ clList bad c) (h : ZT u (clList bad c) T)
    (hk : x = y ∨ (u = .L ∧ y.off < x.off) ∨ (u = .U ∧ x.off < y.off)) (Y : ℕ → ℕ → R) : ZT u (clList bad c) (setB x y Y T) := by
  have L : ClL c (clList bad c) := clL_of hc ht bad
  intro q hq i j hi
  have z := h q hq i j hi
  have out : ∀ {P : Prop}, (P → ¬ (y.off ≤ j ∧ j < y.fin) ∨ ¬ q = x) → P → setB x y Y T i j = T i j := by
    intro P h hP
    refine setB_out fun h' => ?_
    rcases h hP with e | e
    · exact e h'.2
    · exact e (tiling_inj L.tiles L.pos hq hx (by omega))
  have a1 := fun h => (clL_apart hc ht hy hx h).1
  have a2 := fun h => (clL_apart hc ht hx hy h).1
  refine ⟨fun hu hj => (out (P := u = .L ∧ q.fin ≤ j) (fun h' => ?_) ⟨hu, hj⟩).trans (z.1 hu hj), fun hu hj => (out (P := u = .U ∧ j < q.off) (fun h' => ?_) ⟨hu, hj⟩).trans (z.2 hu hj)⟩
  · by_cases e : q = x
    · left
      rw [e] at hj
      rcases hk with hk | ⟨-, hk⟩ | ⟨hk, -⟩
      · rw [← hk]; omega
      · have := a1 hk
        have := L.pos x hx
        unfold ClusterTree.fin at *
        omega
      · rw [hu] at hk; cases hk
    · exact Or.inr e
  · by_cases e : q = x
    · left
      rw [e] at hj
      rcases hk with hk | ⟨hk, -⟩ | ⟨-, hk⟩
      · rw [← hk]; omega
      · rw [hu] at hk; cases hk
      · omega
    · exact Or.inr e

/-- The end: all the blocks contain the factor. -/
theorem chol_finish (h : FState m bad c N (QC u m ad dn S T) A) (hc : ClOK c) (ht : c.Top) (hu : u ≠ .N)
    (hd : ∀ x ∈ clList bad c, ∀ y ∈ clList bad c, (x = y ∨ (u = .L ∧ y.off < x.off) ∨ (u = .U ∧ x.off < y.off)) → dn x y)
    (hz : ZT u (clList bad c) T) : Shape m (fun n => Flag m n ∧ TriP u false ad T n) A := by
  have L : ClL c (clList bad c) := clL_of hc ht bad
  have hh' : A.isHier = true := by
    rcases h.hier with hb | hb
    · have r : A.label.t.rk < 0 ∨ A.label.s.rk < 0 := by
        rw [← bad_iff, h.badE]; exact hb
      by_contra hn
      have := h.shape.self.leaf (by simpa using hn)
      omega
    · exact hb
  intro X hX
  have bX := h.shape X hX
  refine ⟨⟨bX.prop.1, ?_⟩, bX.clT, bX.clS, bX.leaf, bX.split⟩
  rcases Shape.below_or_above h.shape (h.t.trans h.s.symm) hh' (by rw [h.t]; exact ht) hX with ⟨p, hp, q, hq, d1, d2⟩ | ⟨u1, u2⟩
  · rw [h.t, h.badE] at hp hq
    by_cases hk : p = q ∨ (u = .L ∧ q.off < p.off) ∨ (u = .U ∧ p.off < q.off)
    · exact (bX.prop.2 p hp q hq d1 d2 hk).1 (hd p hp q hq hk)
    · -- a block of the other half
      have op := hc.desc (clList_desc hc ht hp)
      have oq := hc.desc (clList_desc hc ht hq)
      have b1 := op.desc_bounds d1
      have b2 := oq.desc_bounds d2
      have s1 := bX.clT.sz_pos
      have s2 := bX.clS.sz_pos
      refine ⟨fun e => absurd (Or.inl ?_) hk, fun hH => absurd (Or.inr ?_) hk⟩
      · exact clL_unique hc ht hp hq d1 (by rw [e]; exact d2)
      · have ne : p ≠ q := fun e => hk (Or.inl e)
        have : ¬ (p.off < q.fin ∧ q.off < p.fin) := fun h => ne (tiling_inj L.tiles L.pos hp hq h)
        rcases hH with ⟨e, hH⟩ | ⟨e, hH⟩
        · left
          refine ⟨e, ?_⟩
          unfold ClusterTree.fin at *
          omega
        · right
          refine ⟨e, ?_⟩
          unfold ClusterTree.fin at *
          omega
  · have hx := isHier_iff.1 u1
    rw [h.t, h.badE] at u2
    refine ⟨fun hts => ⟨fun i j hi => ⟨fun e hj => ?_, fun e hj => ?_⟩, by rw [hx]; trivial⟩, fun hH => ⟨Or.inl ?_, by rw [hx]; trivial⟩⟩
    · obtain ⟨p, hp, hip, h1, h2⟩ := u2 hts i hi.1 hi.2
      exact (hz p hp i j hip).1 e (by omega)
    · obtain ⟨p, hp, hip, h1, h2⟩ := u2 hts i hi.1 hi.2
      exact (hz p hp i j hip).2 e (by omega)
    · rcases bX.prop.1 with e | e
      · exact e
      · exfalso
        rcases hH with ⟨-, hH⟩ | ⟨-, hH⟩ <;> omega

/-- The factorization of an H-matrix, without truncation, when the lists have at most two clusters. -/
theorem cholH_spec (hEx : E.Exact) (hT : TrsmOK E) (hP : PotrfOK E) (hd : ∀ c, ¬ ad c c) (hu : u ≠ .N) (hm : MaskOK u m) :
    ∀ (f : ℕ) (A : FTree G R) (M : ℕ → ℕ → R), 2 * A.ht ≤ f → Rep m ad M A → A.NP → A.label.t = A.label.s → A.label.t.Top → A.label.t.Bin →
      HasChol M A.label.t.off A.label.t.fin →
      ∃ A' T, cholH E u f A = some A' ∧ A'.label.t = A.label.t ∧ A'.label.s = A.label.s ∧ A'.ht ≤ A.ht ∧
        Shape m (fun n => Flag m n ∧ TriP u false ad T n) A' ∧ CholF (lowF u T) M A.label.t.off A.label.t.fin := by
  intro f
  induction f with
  | zero => intro A M hA; have := Tree.ht_pos A; omega
  | succ f ih =>
    intro A M hf hA hnp hsq ht hbin hM
    have b := Shape.self hA
    cases hdat : A.label.data with
    | dense D piv =>
      obtain ⟨T, h1, h2⟩ := chol_leaf hP hu hm hA hsq hM hdat (hnp A (Tree.mem_pre_self A) D piv hdat)
      refine ⟨_, T, by unfold cholH; rw [hdat], ?_, ?_, ?_, h1, h2⟩
      · rw [setData_label]
      · rw [setData_label]
      · rw [setData_ht]
    | lowRank W =>
      exfalso
      have := b.prop.2
      rw [hdat] at this
      rw [← hsq] at this
      exact hd _ this.1
    | hier =>
      have hh : A.isHier = true := isHier_iff.2 hdat
      set c := A.label.t with hc
      have hbad : A.bad = decide (c.rk < 0) := by unfold FTree.bad; rw [← hsq, ← hc, Bool.or_self]
      have L : ClL c (clList A.bad c) := clL_of b.clT ht A.bad
      have hrk : ∀ p ∈ clList A.bad c, 0 ≤ p.rk := fun p hp => clList_rank b.clT ht (fun hr => bad_iff.2 (Or.inl hr)) hp
      have hlen : (clList A.bad c).length ≤ 2 := by rw [hbad]; exact hbin c (.refl _)
      have st0 : FState m A.bad c A.ht (QC u m ad (fun _ _ => False) M (0 : ℕ → ℕ → R)) A := by
        refine ⟨fun X hX => ?_, rfl, hsq.symm, Nat.le_refl _, rfl, Or.inr hh⟩
        have bX := hA X hX
        exact ⟨⟨bX.prop.1, fun p _ q _ _ _ _ => ⟨fun h => h.elim, fun _ => ⟨bX.prop, hnp X hX⟩⟩⟩, bX.clT, bX.clS, bX.leaf, bX.split⟩
      have z0 : ZT u (clList A.bad c) (0 : ℕ → ℕ → R) := fun _ _ _ _ _ => ⟨fun _ _ => rfl, fun _ _ => rfl⟩
      have IH : ∀ p ∈ clList A.bad c, ∀ S : ℕ → ℕ → R, HasChol S p.off p.fin → ∀ X : FTree G R, Rep m ad S X → X.NP → X.label.t = p → X.label.s = p → X.ht < A.ht →
          ∃ X' T1, cholH E u f X = some X' ∧ X'.label.t = p ∧ X'.label.s = p ∧ X'.ht ≤ X.ht ∧ Shape m (fun n => Flag m n ∧ TriP u false ad T1 n) X' ∧
            CholF (lowF u T1) S p.off p.fin := by
        intro p hp S hS X hX hX' e1 e2 e3
        obtain ⟨X', T1, k1, k2, k3, k4, k5, k6⟩ := ih X S (by omega) hX hX' (e1.trans e2.symm) (by rw [e1]; exact Or.inl (hrk p hp))
          (by rw [e1]; exact fun d hd => hbin d ((clList_desc b.clT ht hp).trans hd)) (by rw [e1]; exact hS)
        rw [e1] at k2 k6
        rw [e2] at k3
        exact ⟨X', T1, k1, k2, k3, k4, k5, k6⟩
      unfold cholH
      rw [hdat]
      simp only
      cases hl : clList A.bad c with
      | nil =>
        exfalso
        have := L.tiles
        rw [hl] at this
        have h0 : c.off = c.fin := this
        have := b.clT.sz_pos
        rw [← hc] at this
        unfold ClusterTree.fin at h0
        omega
      | cons p l1 =>
        have hp : p ∈ clList A.bad c := by rw [hl]; simp
        have tl := L.tiles
        rw [hl] at tl
        obtain ⟨t1, t2⟩ : p.off = c.off ∧ Tiles (c.off + p.sz) c.fin (l1.map ClusterTree.iv) := tl
        have hpf : p.fin = c.off + p.sz := by unfold ClusterTree.fin; rw [t1]
        have bp := L.bounds hp
        have hps := L.pos p hp
        have cM : HasChol M p.off p.fin := by rw [t1]; exact hM.lead bp.2
        -- the first diagonal block
        obtain ⟨A1, T1, a1, a2, a3⟩ := chol_diag hu b.clT ht st0 hp (fun h => h) (z0 p hp) (cholH E u f) (IH p hp M cM)
        have z1 := ZT.set b.clT ht hp hp z0 (Or.inl rfl) T1
        cases l1 with
        | nil =>
          have t3 : c.off + p.sz = c.fin := t2
          have hpc : p.fin = c.fin := by omega
          refine ⟨A1, setB p p T1 0, ?_, a2.t, a2.s.trans hsq, a2.ht, chol_finish a2 b.clT ht hu ?_ z1, ?_⟩
          · rw [List.foldlM_cons, a1]
            show Option.bind (Option.bind (some A1) fun A1 => [p].foldlM (cholApply E f u p) A1 |>.bind fun A2 => (pairs [p] [p]).foldlM (cholUpdate E f u p) A2) _ = _
            have e1 : [p].foldlM (cholApply E f u p) A1 = some A1 := by rw [List.foldlM_cons, cholApply_skip (by omega)]; rfl
            have e2 : (pairs [p] [p]).foldlM (cholUpdate E f u p) A1 = some A1 := by
              show List.foldlM (cholUpdate E f u p) A1 [(p, p)] = _
              rw [List.foldlM_cons, cholUpdate_skip (by simp)]; rfl
            rw [show Option.bind (some A1) (fun A1 => [p].foldlM (cholApply E f u p) A1 |>.bind fun A2 => (pairs [p] [p]).foldlM (cholUpdate E f u p) A2) =
              ([p].foldlM (cholApply E f u p) A1 |>.bind fun A2 => (pairs [p] [p]).foldlM (cholUpdate E f u p) A2) from rfl, e1]
            show Option.bind ((pairs [p] [p]).foldlM (cholUpdate E f u p) A1) _ = _
            rw [e2]
            rfl
          · intro x hx y hy _
            rw [hl, List.mem_singleton] at hx hy
            exact Or.inr ⟨hx, hy⟩
          · rw [← t1, ← hpc]
            have e : ∀ i ∈ Ico p.off p.fin, ∀ j ∈ Ico p.off p.fin, lowF u (setB p p T1 0) i j = lowF u T1 i j := by
              intro i hi j hj
              unfold lowF
              rw [setB_in (mem_Ico.1 hi) (mem_Ico.1 hj), setB_in (mem_Ico.1 hj) (mem_Ico.1 hi)]
            refine ⟨fun i hi j hj hij => by rw [e i hi j hj]; exact a3.1 i hi j hj hij, fun i hi => by rw [e i hi i hi]; exact a3.2.1 i hi, fun i hi j hj => ?_⟩
            rw [← a3.2.2 i hi j hj]
            exact sum_congr rfl fun l hl => by rw [e i hi l hl, e j hj l hl]
        | cons o l2 =>
          cases l2 with
          | cons q l3 => rw [hl] at hlen; simp at hlen
          | nil =>
            have ho : o ∈ clList A.bad c := by rw [hl]; simp
            obtain ⟨t3, t4⟩ : o.off = c.off + p.sz ∧ c.off + p.sz + o.sz = c.fin := t2
            have hoff : p.fin = o.off := by omega
            have hof : o.fin = c.fin := by unfold ClusterTree.fin at *; omega
            have hos := L.pos o ho
            have hpo : p.off < o.off := by unfold ClusterTree.fin at *; omega
            have hne : p ≠ o := by rintro rfl; omega
            -- the off-diagonal block
            obtain ⟨A2, Y, b1, b2, b3⟩ := chol_apply_one hEx hT hu hm b.clT ht hrk (by omega : 2 * A.ht ≤ f + 2) a2 hp ho hpo (Or.inr ⟨rfl, rfl⟩) (by
                rintro (h | ⟨h1, h2⟩)
                · exact h
                · unfold cblk at h1 h2
                  by_cases e : u = .L
                  · rw [if_pos e] at h1; exact hne h1.symm
                  · rw [if_neg e] at h2; exact hne h2.symm) (fun i hi j hj => by
                refine hM.herm ?_ ?_
                · have := mem_Ico.1 hi; exact mem_Ico.2 (by omega)
                · have := mem_Ico.1 hj; exact mem_Ico.2 (by omega))
            have hck : (cblk u o p).1 ∈ clList A.bad c ∧ (cblk u o p).2 ∈ clList A.bad c := by unfold cblk; split <;> exact ⟨by assumption, by assumption⟩
            have hkk : (cblk u o p).1 = (cblk u o p).2 ∨ (u = .L ∧ (cblk u o p).2.off < (cblk u o p).1.off) ∨ (u = .U ∧ (cblk u o p).1.off < (cblk u o p).2.off) := by
              cases u with
              | N => exact absurd rfl hu
              | L => exact Or.inr (Or.inl ⟨rfl, hpo⟩)
              | U => exact Or.inr (Or.inr ⟨rfl, hpo⟩)
            have z2 := ZT.set b.clT ht hck.1 hck.2 z1 hkk Y
            -- the Schur complement
            obtain ⟨A3, c1, c2⟩ := chol_update_one hEx hu hm b.clT ht hrk (by omega : 2 * A.ht ≤ f + 2) b2 hp ho hpo (Or.inr ⟨rfl, rfl⟩) (by
              rintro ((h | ⟨h1, -⟩) | ⟨h1, h2⟩)
              · exact h
              · exact hne h1.symm
              · unfold cblk at h1 h2
                by_cases e : u = .L
                · rw [if_pos e] at h2; exact hne h2.symm
                · rw [if_neg e] at h1; exact hne h1.symm)
            set T2 := setB (cblk u o p).1 (cblk u o p).2 Y (setB p p T1 0) with hT2
            set S2 : ℕ → ℕ → R := fun i j => M i j - if (o.off ≤ i ∧ i < o.fin) ∧ o.off ≤ j ∧ j < o.fin then
              ∑ l ∈ Ico p.off p.fin, lowF u T2 i l * star (lowF u T2 j l) else 0 with hS2
            -- entries of the factor
            have f1 : ∀ i ∈ Ico p.off p.fin, ∀ l ∈ Ico p.off p.fin, lowF u T2 i l = lowF u T1 i l := by
              intro i hi l hl
              have hi := mem_Ico.1 hi
              have hl := mem_Ico.1 hl
              cases u with
              | N => exact absurd rfl hu
              | L => rw [lowF_L, lowF_L, hT2]; exact (setB_out (p := o) (q := p) (by omega)).trans (setB_in hi hl)
              | U => rw [lowF_U, lowF_U, hT2]; exact congrArg star ((setB_out (p := p) (q := o) (by omega)).trans (setB_in hl hi))
            have f2 : ∀ i ∈ Ico o.off o.fin, ∀ l ∈ Ico p.off p.fin, lowF u T2 i l = lowF u Y i l := by
              intro i hi l hl
              have hi := mem_Ico.1 hi
              have hl := mem_Ico.1 hl
              cases u with
              | N => exact absurd rfl hu
              | L => rw [lowF_L, lowF_L, hT2]; exact setB_in (p := o) (q := p) hi hl
              | U => rw [lowF_U, lowF_U, hT2]; exact congrArg star (setB_in (p := p) (q := o) hl hi)
            have f3 : ∀ i ∈ Ico p.off p.fin, ∀ l ∈ Ico o.off o.fin, lowF u T2 i l = 0 := by
              intro i hi l hl
              have hi := mem_Ico.1 hi
              have hl := mem_Ico.1 hl
              cases u with
              | N => exact absurd rfl hu
              | L => rw [lowF_L, hT2]; exact (setB_out (p := o) (q := p) (by omega)).trans (setB_out (p := p) (q := p) (by omega))
              | U => rw [lowF_U, hT2]; exact (congrArg star ((setB_out (p := p) (q := o) (by omega)).trans (setB_out (p := p) (q := p) (by omega)))).trans (star_zero R)
            have g1 : ∀ j ∈ Ico p.off p.fin, ∀ l ∈ Ico p.off p.fin, lowF u (setB p p T1 0) j l = lowF u T1 j l := by
              intro i hi j hj
              unfold lowF
              rw [setB_in (mem_Ico.1 hi) (mem_Ico.1 hj), setB_in (mem_Ico.1 hj) (mem_Ico.1 hi)]
            have b3' : ∀ k ∈ Ico o.off o.fin, ∀ j ∈ Ico p.off p.fin, ∑ l ∈ Ico p.off p.fin, lowF u T2 k l * star (lowF u T2 j l) = M k j := by
              intro k hk j hj
              rw [← b3 k hk j hj]
              exact sum_congr rfl fun l hl => by rw [f2 k hk l hl, f1 j hj l hl, g1 j hj l hl]
            have a3' : CholF (lowF u T2) M p.off p.fin := by
              refine ⟨fun i hi j hj hij => by rw [f1 i hi j hj]; exact a3.1 i hi j hj hij, fun i hi => by rw [f1 i hi i hi]; exact a3.2.1 i hi, fun i hi j hj => ?_⟩
              rw [← a3.2.2 i hi j hj]
              exact sum_congr rfl fun l hl => by rw [f1 i hi l hl, f1 j hj l hl]
            have cS : HasChol S2 o.off o.fin := by
              have hM' : HasChol M p.off o.fin := by rw [t1, hof]; exact hM
              rw [← hoff]
              refine HasChol.schur (M := M) (L := lowF u T2) (K := lowF u T2) (by omega : p.off ≤ p.fin) (by unfold ClusterTree.fin at *; omega) hM' a3'.1 a3'.2.1 a3'.2.2 ?_ ?_
              · rw [hoff]
                intro i hi j hj
                exact hoff ▸ b3' i hi j (hoff ▸ hj)
              · intro i hi j hj
                have hi := mem_Ico.1 hi
                have hj := mem_Ico.1 hj
                show M i j - ite _ _ _ = _
                rw [if_pos (by omega)]
            -- the last diagonal block
            obtain ⟨A4, T3, d1, d2, d3⟩ := chol_diag hu b.clT ht c2 ho (by
              rintro ((h | ⟨h1, -⟩) | ⟨h1, h2⟩)
              · exact h
              · exact hne h1.symm
              · unfold cblk at h1 h2
                by_cases e : u = .L
                · rw [if_pos e] at h2; exact hne h2.symm
                · rw [if_neg e] at h1; exact hne h1.symm) (z2 o ho) (cholH E u f) (IH o ho S2 cS)
            have z3 := ZT.set b.clT ht ho ho z2 (Or.inl rfl) T3
            refine ⟨A4, setB o o T3 T2, ?_, d2.t, d2.s.trans hsq, d2.ht, chol_finish d2 b.clT ht hu ?_ z3, ?_⟩
            · have s1 : [p, o].foldlM (cholApply E f u p) A1 = some A2 := by
                rw [List.foldlM_cons, cholApply_skip (by omega)]
                show List.foldlM (cholApply E f u p) A1 [o] = _
                rw [List.foldlM_cons, b1]; rfl
              have s2 : (pairs [p, o] [p, o]).foldlM (cholUpdate E f u p) A2 = some A3 := by
                show List.foldlM (cholUpdate E f u p) A2 [(p, p), (p, o), (o, p), (o, o)] = _
                rw [List.foldlM_cons, cholUpdate_skip (by simp)]
                show List.foldlM (cholUpdate E f u p) A2 [(p, o), (o, p), (o, o)] = _
                rw [List.foldlM_cons, cholUpdate_skip (by simp)]
                show List.foldlM (cholUpdate E f u p) A2 [(o, p), (o, o)] = _
                rw [List.foldlM_cons, cholUpdate_skip (by simp)]
                show List.foldlM (cholUpdate E f u p) A2 [(o, o)] = _
                rw [List.foldlM_cons, c1]; rfl
              have s3 : [p, o].foldlM (cholApply E f u o) A4 = some A4 := by
                rw [List.foldlM_cons, cholApply_skip (by omega)]
                show List.foldlM (cholApply E f u o) A4 [o] = _
                rw [List.foldlM_cons, cholApply_skip (by omega)]; rfl
              have s4 : (pairs [p, o] [p, o]).foldlM (cholUpdate E f u o) A4 = some A4 := by
                show List.foldlM (cholUpdate E f u o) A4 [(p, p), (p, o), (o, p), (o, o)] = _
                rw [List.foldlM_cons, cholUpdate_skip (by show ¬ (o.off < p.off ∧ o.off < p.off); omega)]
                show List.foldlM (cholUpdate E f u o) A4 [(p, o), (o, p), (o, o)] = _
                rw [List.foldlM_cons, cholUpdate_skip (by show ¬ (o.off < p.off ∧ o.off < o.off); omega)]
                show List.foldlM (cholUpdate E f u o) A4 [(o, p), (o, o)] = _
                rw [List.foldlM_cons, cholUpdate_skip (by show ¬ (o.off < o.off ∧ o.off < p.off); omega)]
                show List.foldlM (cholUpdate E f u o) A4 [(o, o)] = _
                rw [List.foldlM_cons, cholUpdate_skip (by show ¬ (o.off < o.off ∧ o.off < o.off); omega)]; rfl
              have st : ∀ (q : ClusterTree G) (B B1 B2 B3 : FTree G R), updSub q q (cholH E u f) B = some B1 → [p, o].foldlM (cholApply E f u q) B1 = some B2 →
                  (pairs [p, o] [p, o]).foldlM (cholUpdate E f u q) B2 = some B3 →
                  ((updSub q q (cholH E u f) B).bind (fun A1 => [p, o].foldlM (cholApply E f u q) A1)).bind (fun A2 => (pairs [p, o] [p, o]).foldlM (cholUpdate E f u q) A2) = some B3 := by
                intro q B B1 B2 B3 r1 r2 r3
                rw [r1]
                show Option.bind ([p, o].foldlM (cholApply E f u q) B1) _ = _
                rw [r2]
                exact r3
              have q1 := st p A A1 A2 A3 a1 s1 s2
              have q2 := st o A3 A4 A4 A4 d1 s3 s4
              exact foldlM_two q1 q2
            · intro x hx y hy hk
              rw [hl] at hx hy
              simp only [List.mem_cons, List.not_mem_nil, or_false] at hx hy
              rcases hx with rfl | rfl <;> rcases hy with rfl | rfl
              · exact Or.inl (Or.inl (Or.inr ⟨rfl, rfl⟩))
              · refine Or.inl (Or.inr ?_)
                rcases hk with e | ⟨-, e⟩ | ⟨rfl, e⟩
                · exact absurd e hne
                · omega
                · exact ⟨rfl, rfl⟩
              · refine Or.inl (Or.inr ?_)
                rcases hk with e | ⟨rfl, e⟩ | ⟨-, e⟩
                · exact absurd e.symm hne
                · exact ⟨rfl, rfl⟩
                · omega
              · exact Or.inr ⟨rfl, rfl⟩
            · -- the product
              have h1 : ∀ i ∈ Ico o.off o.fin, ∀ l ∈ Ico o.off o.fin, lowF u (setB o o T3 T2) i l = lowF u T3 i l := by
                intro i hi j hj
                unfold lowF
                rw [setB_in (mem_Ico.1 hi) (mem_Ico.1 hj), setB_in (mem_Ico.1 hj) (mem_Ico.1 hi)]
              have h2 : ∀ i l, (i ∈ Ico p.off p.fin ∨ l ∈ Ico p.off p.fin) → lowF u (setB o o T3 T2) i l = lowF u T2 i l := by
                intro i l hil
                simp only [mem_Ico] at hil
                unfold lowF
                rw [setB_out (by omega), setB_out (by omega)]
              have hcase : ∀ i ∈ Ico c.off c.fin, i ∈ Ico p.off p.fin ∨ i ∈ Ico o.off o.fin := by
                intro i hi
                simp only [mem_Ico] at *
                omega
              have hsum : ∀ F : ℕ → R, ∑ l ∈ Ico c.off c.fin, F l = ∑ l ∈ Ico p.off p.fin, F l + ∑ l ∈ Ico o.off o.fin, F l := by
                intro F
                rw [← hof, ← hoff, ← t1, sum_Ico_consecutive _ (by unfold ClusterTree.fin; omega) (by unfold ClusterTree.fin at *; omega)]
              have zero : ∀ i ∈ Ico p.off p.fin, ∀ l ∈ Ico o.off o.fin, lowF u (setB o o T3 T2) i l = 0 := fun i hi l hl => by
                rw [h2 i l (Or.inl hi)]; exact f3 i hi l hl
              have pp : ∀ i ∈ Ico p.off p.fin, ∀ j ∈ Ico p.off p.fin, ∑ l ∈ Ico c.off c.fin, lowF u (setB o o T3 T2) i l * star (lowF u (setB o o T3 T2) j l) = M i j := by
                intro i hi j hj
                rw [hsum, sum_eq_zero (s := Ico o.off o.fin) (fun l hl => by rw [zero i hi l hl, zero_mul]), add_zero, ← a3'.2.2 i hi j hj]
                exact sum_congr rfl fun l hl => by rw [h2 i l (Or.inl hi), h2 j l (Or.inl hj)]
              have qp : ∀ i ∈ Ico o.off o.fin, ∀ j ∈ Ico p.off p.fin, ∑ l ∈ Ico c.off c.fin, lowF u (setB o o T3 T2) i l * star (lowF u (setB o o T3 T2) j l) = M i j := by
                intro i hi j hj
                rw [hsum, sum_eq_zero (s := Ico o.off o.fin) (fun l hl => by rw [zero j hj l hl, star_zero, mul_zero]), add_zero, ← b3' i hi j hj]
                exact sum_congr rfl fun l hl => by rw [h2 i l (Or.inr hl), h2 j l (Or.inl hj)]
              refine ⟨fun i hi j hj hij => ?_, fun i hi => ?_, fun i hi j hj => ?_⟩
              · rcases hcase i hi with hi | hi <;> rcases hcase j hj with hj | hj
                · rw [h2 i j (Or.inl hi)]; exact a3'.1 i hi j hj hij
                · exact zero i hi j hj
                · simp only [mem_Ico] at hi hj
                  omega
                · rw [h1 i hi j hj]; exact d3.1 i hi j hj hij
              · rcases hcase i hi with hi | hi
                · rw [h2 i i (Or.inl hi)]; exact a3'.2.1 i hi
                · rw [h1 i hi i hi]; exact d3.2.1 i hi
              · have herm := hM.herm hj hi
                rcases hcase i hi with hi | hi <;> rcases hcase j hj with hj | hj
                · exact pp i hi j hj
                · rw [← herm, ← qp j hj i hi, lowF_star_comm]
                · exact qp i hi j hj
                · rw [hsum]
                  have e1 := d3.2.2 i hi j hj
                  have e2 : S2 i j = M i j - ∑ l ∈ Ico p.off p.fin, lowF u T2 i l * star (lowF u T2 j l) := by
                    show M i j - ite _ _ _ = _
                    rw [if_pos ⟨mem_Ico.1 hi, mem_Ico.1 hj⟩]
                  rw [sum_congr rfl fun l hl => by rw [h2 i l (Or.inr hl), h2 j l (Or.inr hl)],
                    sum_congr (s₁ := Ico o.off o.fin) rfl fun l hl => by rw [h1 i hi l hl, h1 j hj l hl], e1, e2]
                  ring

end chol
end Htool
