import Verif.HLinCholAcc2

/-! # Without truncation every block given to `potrf` has a factor when the matrix has one -/

namespace Htool
variable {G R : Type*}
open Finset

section chol
variable [CommRing R] [StarRing R] [DecidableEq R] {E : LinOps R} {ad : ClusterTree G → ClusterTree G → Prop} {u : UploType} {m : Mask}

/-- A dense diagonal block of a matrix with a Cholesky factor. -/
theorem canPotrf_leaf (hu : u ≠ .N) (hm : MaskOK u m) {A : FTree G R} {M : ℕ → ℕ → R} (hA : Rep m ad M A) (hsq : A.label.t = A.label.s)
    (hs : HasChol M A.label.t.off A.label.t.fin) {D : Mat R} {piv : List ℕ} (hd : A.label.data = .dense D piv) : CanPotrf u D := by
  have b := Shape.self hA
  have hpos := b.clT.sz_pos
  have I := b.prop.2
  rw [hd] at I
  simp only at I
  have fin : A.label.t.fin = A.label.t.off + A.label.t.sz := rfl
  have has : ∀ i j, A.label.Has i j ↔ (A.label.t.off ≤ i ∧ i < A.label.t.fin) ∧ (A.label.t.off ≤ j ∧ j < A.label.t.fin) := by
    intro i j
    unfold FNode.Has
    rw [← hsq]
  have ok : ∀ i j, (u = .L ∧ j ≤ i) ∨ (u = .U ∧ i ≤ j) → m.ok i j := by
    intro i j h
    rcases hm with rfl | ⟨rfl, rfl⟩ | ⟨rfl, rfl⟩
    · trivial
    · rcases h with h | h
      · exact h.2
      · cases h.1
    · rcases h with h | h
      · cases h.1
      · exact h.2
  have hD : ∀ i < A.label.t.sz, ∀ j < A.label.t.sz, (u = .L ∧ j ≤ i) ∨ (u = .U ∧ i ≤ j) → D.get i j = M (A.label.t.off + i) (A.label.t.off + j) := by
    intro i hi j hj hij
    have := I.2.2 (A.label.t.off + i) (A.label.t.off + j) ((has _ _).2 (by omega)) (ok _ _ (hij.imp (fun h => ⟨h.1, by omega⟩) fun h => ⟨h.1, by omega⟩))
    rw [← hsq, Nat.add_sub_cancel_left, Nat.add_sub_cancel_left] at this
    exact this
  obtain ⟨F, F1, F2, F3⟩ := hs
  -- the factor which exists
  have sumI : ∀ f : ℕ → R, ∑ l ∈ Ico A.label.t.off A.label.t.fin, f l = ∑ l ∈ range A.label.t.sz, f (A.label.t.off + l) := fun f => by
    rw [fin, sum_Ico_range]
  unfold CanPotrf
  rw [I.1]
  exact ⟨fun i j => lowF u (fun a b => F (A.label.t.off + a) (A.label.t.off + b)) i j,
    fun i hi => by
      have := F2 (A.label.t.off + i) (mem_Ico.2 (by omega))
      unfold lowF
      beta_reduce
      by_cases h : u = .L
      · rw [if_pos h]; exact this
      · rw [if_neg h]; exact this.star,
    fun i hi j hj hij => by
      rw [hD i hi j hj hij, ← F3 _ (mem_Ico.2 (by omega)) _ (mem_Ico.2 (by omega)), sumI]
      have key : ∀ a < A.label.t.sz, ∀ l < A.label.t.sz, lowF u (tri u false (fun i j => lowF u (fun a b => F (A.label.t.off + a) (A.label.t.off + b)) i j)) a l =
          F (A.label.t.off + a) (A.label.t.off + l) := by
        intro a ha l hl
        by_cases hal : a < l
        · rw [lowF_tri hu _ hal, F1 _ (mem_Ico.2 (by omega)) _ (mem_Ico.2 (by omega)) (by omega)]
        · cases u with
          | N => exact absurd rfl hu
          | L =>
            rw [lowF_L]
            unfold tri
            by_cases h : a = l
            · rw [if_pos h]; rfl
            · rw [if_neg h, if_pos (Or.inl ⟨rfl, by omega⟩)]; rfl
          | U =>
            rw [lowF_U]
            unfold tri
            by_cases h : l = a
            · rw [if_pos h]
              simp only [Bool.false_eq_true, if_false, lowF_U, star_star]
            · rw [if_neg h, if_pos (Or.inr ⟨rfl, by omega⟩)]
              simp only [lowF_U, star_star]
      refine sum_congr rfl fun l hl => ?_
      have hl := mem_range.1 hl
      rw [key i hi l hl, key j hj l hl]⟩

/-- Without truncation every block given to `potrf` has a factor when the matrix has one. -/
theorem cholH_pivots (hEx : E.Exact) (hT : TrsmOK E) (hP : PotrfOK E) (hd : ∀ c, ¬ ad c c) (hu : u ≠ .N) (hm : MaskOK u m) :
    ∀ (f : ℕ) (A : FTree G R) (M : ℕ → ℕ → R), 2 * A.ht ≤ f → Rep m ad M A → A.NP → A.label.t = A.label.s → A.label.t.Top → A.label.t.Bin →
      HasChol M A.label.t.off A.label.t.fin → A.PivotsC E u f := by
  intro f
  induction f with
  | zero => intro A M hA; have := Tree.ht_pos A; omega
  | succ f ih =>
    intro A M hf hA hnp hsq ht hbin hM
    have b := Shape.self hA
    unfold FTree.PivotsC
    cases hdat : A.label.data with
    | dense D piv => exact canPotrf_leaf hu hm hA hsq hM hdat
    | lowRank W => trivial
    | hier =>
      have hh : A.isHier = true := isHier_iff.2 hdat
      set c := A.label.t with hc
      have hbad : A.bad = decide (c.rk < 0) := by unfold FTree.bad; rw [← hsq, ← hc, Bool.or_self]
      have L : ClL c (clList A.bad c) := clL_of b.clT ht A.bad
      have hrk : ∀ p ∈ clList A.bad c, 0 ≤ p.rk := fun p hp => clList_rank b.clT ht (fun hr => bad_iff.2 (Or.inl hr)) hp
      have hlen : (clList A.bad c).length ≤ 2 := by rw [hbad]; exact hbin c (.refl _)
      have st0 : FState m A.bad c A.ht (QC u m ad (fun _ _ => False) M (0 : ℕ → ℕ → R)) A := by
        refine ⟨fun X hX => ?_, rfl, hsq.symm, Nat.le_refl _, rfl, Or.inr hh⟩
        have bX := hA X hX
        exact ⟨⟨bX.prop.1, fun p _ q _ _ _ _ => ⟨fun h => h.elim, fun _ => ⟨bX.prop, hnp X hX⟩⟩⟩, bX.clT, bX.clS, bX.leaf, bX.split⟩
      have z0 : ZT u (clList A.bad c) (0 : ℕ → ℕ → R) := fun _ _ _ _ _ => ⟨fun _ _ => rfl, fun _ _ => rfl⟩
      have IH : ∀ p ∈ clList A.bad c, ∀ S : ℕ → ℕ → R, HasChol S p.off p.fin → ∀ X : FTree G R, Rep m ad S X → X.NP → X.label.t = p → X.label.s = p → X.ht < A.ht →
          (∃ X' T1, cholH E u f X = some X' ∧ X'.label.t = p ∧ X'.label.s = p ∧ X'.ht ≤ X.ht ∧ Shape m (fun n => Flag m n ∧ TriP u false ad T1 n) X' ∧
            CholF (lowF u T1) S p.off p.fin) ∧ FTree.PivotsC E u f X := by
        intro p hp S hS X hX hX' e1 e2 e3
        have tp : X.label.t.Top := by rw [e1]; exact Or.inl (hrk p hp)
        have bn : X.label.t.Bin := by rw [e1]; exact fun d hd => hbin d ((clList_desc b.clT ht hp).trans hd)
        have hS' : HasChol S X.label.t.off X.label.t.fin := by rw [e1]; exact hS
        refine ⟨?_, ih X S (by omega) hX hX' (e1.trans e2.symm) tp bn hS'⟩
        obtain ⟨X', T1, k1, k2, k3, k4, k5, k6⟩ := cholH_spec hEx hT hP hd hu hm f X S (by omega) hX hX' (e1.trans e2.symm) tp bn hS'
        rw [e1] at k2 k6
        rw [e2] at k3
        exact ⟨X', T1, k1, k2, k3, k4, k5, k6⟩
      show ∀ (l1 l2 : List (ClusterTree G)) (p : ClusterTree G) (A1 X : FTree G R), clList A.bad c = l1 ++ p :: l2 →
        l1.foldlM (cholStep E u f (clList A.bad c)) A = some A1 → getBlock p p A1 = some X → FTree.PivotsC E u f X
      have first : ∀ (p : ClusterTree G) (l2 : List (ClusterTree G)) (X : FTree G R), clList A.bad c = p :: l2 → getBlock p p A = some X → FTree.PivotsC E u f X := by
        intro p l2 X hl hX
        have hp : p ∈ clList A.bad c := by rw [hl]; simp
        have tl := L.tiles
        rw [hl] at tl
        have t1 : p.off = c.off := tl.1
        have bp := L.bounds hp
        obtain ⟨Y, y1, y2, y3, y4, y5, -, -⟩ := st0.focus b.clT ht hp hp (keep_diag m (L.pos p hp))
        rw [hX] at y1
        obtain rfl := Option.some.inj y1
        exact (IH p hp M (by rw [t1]; exact hM.lead bp.2) X (Shape.imp y2 fun V _ hV => ((hV.2 (Or.inl rfl)).2 fun h => h).1)
          (fun V hV => (((y2 V hV).prop.2 (Or.inl rfl)).2 fun h => h).2) y3 y4 y5).2
      intro l1 l2 q B X hl0 hrun hX
      cases l1 with
      | nil =>
        obtain rfl : A = B := Option.some.inj hrun
        exact first q l2 X hl0 hX
      | cons p l3 =>
        obtain ⟨rfl, rfl⟩ : l3 = [] ∧ l2 = [] := by
          rw [hl0] at hlen
          simp only [List.cons_append, List.length_cons, List.length_append] at hlen
          exact ⟨List.length_eq_zero_iff.1 (by omega), List.length_eq_zero_iff.1 (by omega)⟩
        have hl : clList A.bad c = [p, q] := hl0
        generalize ho' : q = o at *
        have hp : p ∈ clList A.bad c := by rw [hl]; simp
        have tl := L.tiles
        rw [hl] at tl
        obtain ⟨t1, t2⟩ : p.off = c.off ∧ Tiles (c.off + p.sz) c.fin ([o].map ClusterTree.iv) := tl
        have hpf : p.fin = c.off + p.sz := by unfold ClusterTree.fin; rw [t1]
        have bp := L.bounds hp
        have hps := L.pos p hp
        have cM : HasChol M p.off p.fin := by rw [t1]; exact hM.lead bp.2
        -- the first diagonal block
        obtain ⟨A1, T1, a1, a2, a3⟩ := chol_diag hu b.clT ht st0 hp (fun h => h) (z0 p hp) (cholH E u f) (fun X x1 x2 x3 x4 x5 => (IH p hp M cM X x1 x2 x3 x4 x5).1)
        have z1 := ZT.set b.clT ht hp hp z0 (Or.inl rfl) T1
        have ho : o ∈ clList A.bad c := by rw [hl]; simp
        obtain ⟨t3, t4⟩ : o.off = c.off + p.sz ∧ c.off + p.sz + o.sz = c.fin := t2
        have hoff : p.fin = o.off := by omega
        have hof : o.fin = c.fin := by unfold ClusterTree.fin at *; omega
        have hos := L.pos o ho
        have hpo : p.off < o.off := by unfold ClusterTree.fin at *; omega
        have hne : p ≠ o := by rintro rfl; omega
        -- the off-diagonal block
        obtain ⟨A2, Y, b1, b2, b3⟩ := chol_apply_one hEx hT hu hm b.clT ht hrk (by omega : 2 * A.ht ≤ f + 2) a2 hp ho hpo (Or.inr ⟨rfl, rfl⟩) (by
            rintro (h | ⟨h1, h2⟩)
            · exact h
            · unfold cblk at h1 h2
              by_cases e : u = .L
              · rw [if_pos e] at h1; exact hne h1.symm
              · rw [if_neg e] at h2; exact hne h2.symm) (fun i hi j hj => by
            refine hM.herm ?_ ?_
            · have := mem_Ico.1 hi; exact mem_Ico.2 (by omega)
            · have := mem_Ico.1 hj; exact mem_Ico.2 (by omega))
        have hck : (cblk u o p).1 ∈ clList A.bad c ∧ (cblk u o p).2 ∈ clList A.bad c := by unfold cblk; split <;> exact ⟨by assumption, by assumption⟩
        have hkk : (cblk u o p).1 = (cblk u o p).2 ∨ (u = .L ∧ (cblk u o p).2.off < (cblk u o p).1.off) ∨ (u = .U ∧ (cblk u o p).1.off < (cblk u o p).2.off) := by
          cases u with
          | N => exact absurd rfl hu
          | L => exact Or.inr (Or.inl ⟨rfl, hpo⟩)
          | U => exact Or.inr (Or.inr ⟨rfl, hpo⟩)
        have z2 := ZT.set b.clT ht hck.1 hck.2 z1 hkk Y
        -- the Schur complement
        obtain ⟨A3, c1, c2⟩ := chol_update_one hEx hu hm b.clT ht hrk (by omega : 2 * A.ht ≤ f + 2) b2 hp ho hpo (Or.inr ⟨rfl, rfl⟩) (by
          rintro ((h | ⟨h1, -⟩) | ⟨h1, h2⟩)
          · exact h
          · exact hne h1.symm
          · unfold cblk at h1 h2
            by_cases e : u = .L
            · rw [if_pos e] at h2; exact hne h2.symm
            · rw [if_neg e] at h1; exact hne h1.symm)
        set T2 := setB (cblk u o p).1 (cblk u o p).2 Y (setB p p T1 0) with hT2
        set S2 : ℕ → ℕ → R := fun i j => M i j - if (o.off ≤ i ∧ i < o.fin) ∧ o.off ≤ j ∧ j < o.fin then
          ∑ l ∈ Ico p.off p.fin, lowF u T2 i l * star (lowF u T2 j l) else 0 with hS2
        -- entries of the factor
        have f1 : ∀ i ∈ Ico p.off p.fin, ∀ l ∈ Ico p.off p.fin, lowF u T2 i l = lowF u T1 i l := by
          intro i hi l hl
          have hi := mem_Ico.1 hi
          have hl := mem_Ico.1 hl
          cases u with
          | N => exact absurd rfl hu
          | L => rw [lowF_L, lowF_L, hT2]; exact (setB_out (p := o) (q := p) (by omega)).trans (setB_in hi hl)
          | U => rw [lowF_U, lowF_U, hT2]; exact congrArg star ((setB_out (p := p) (q := o) (by omega)).trans (setB_in hl hi))
        have f2 : ∀ i ∈ Ico o.off o.fin, ∀ l ∈ Ico p.off p.fin, lowF u T2 i l = lowF u Y i l := by
          intro i hi l hl
          have hi := mem_Ico.1 hi
          have hl := mem_Ico.1 hl
          cases u with
          | N => exact absurd rfl hu
          | L => rw [lowF_L, lowF_L, hT2]; exact setB_in (p := o) (q := p) hi hl
          | U => rw [lowF_U, lowF_U, hT2]; exact congrArg star (setB_in (p := p) (q := o) hl hi)
        have f3 : ∀ i ∈ Ico p.off p.fin, ∀ l ∈ Ico o.off o.fin, lowF u T2 i l = 0 := by
          intro i hi l hl
          have hi := mem_Ico.1 hi
          have hl := mem_Ico.1 hl
          cases u with
          | N => exact absurd rfl hu
          | L => rw [lowF_L, hT2]; exact (setB_out (p := o) (q := p) (by omega)).trans (setB_out (p := p) (q := p) (by omega))
          | U => rw [lowF_U, hT2]; exact (congrArg star ((setB_out (p := p) (q := o) (by omega)).trans (setB_out (p := p) (q := p) (by omega)))).trans (star_zero R)
        have g1 : ∀ j ∈ Ico p.off p.fin, ∀ l ∈ Ico p.off p.fin, lowF u (setB p p T1 0) j l = lowF u T1 j l := by
          intro i hi j hj
          unfold lowF
          rw [setB_in (mem_Ico.1 hi) (mem_Ico.1 hj), setB_in (mem_Ico.1 hj) (mem_Ico.1 hi)]
        have b3' : ∀ k ∈ Ico o.off o.fin, ∀ j ∈ Ico p.off p.fin, ∑ l ∈ Ico p.off p.fin, lowF u T2 k l * star (lowF u T2 j l) = M k j := by
          intro k hk j hj
          rw [← b3 k hk j hj]
          exact sum_congr rfl fun l hl => by rw [f2 k hk l hl, f1 j hj l hl, g1 j hj l hl]
        have a3' : CholF (lowF u T2) M p.off p.fin := by
          refine ⟨fun i hi j hj hij => by rw [f1 i hi j hj]; exact a3.1 i hi j hj hij, fun i hi => by rw [f1 i hi i hi]; exact a3.2.1 i hi, fun i hi j hj => ?_⟩
          rw [← a3.2.2 i hi j hj]
          exact sum_congr rfl fun l hl => by rw [f1 i hi l hl, f1 j hj l hl]
        have cS : HasChol S2 o.off o.fin := by
          have hM' : HasChol M p.off o.fin := by rw [t1, hof]; exact hM
          rw [← hoff]
          refine HasChol.schur (M := M) (L := lowF u T2) (K := lowF u T2) (by omega : p.off ≤ p.fin) (by unfold ClusterTree.fin at *; omega) hM' a3'.1 a3'.2.1 a3'.2.2 ?_ ?_
          · rw [hoff]
            intro i hi j hj
            exact hoff ▸ b3' i hi j (hoff ▸ hj)
          · intro i hi j hj
            have hi := mem_Ico.1 hi
            have hj := mem_Ico.1 hj
            show M i j - ite _ _ _ = _
            rw [if_pos (by omega)]
        have s1 : [p, o].foldlM (cholApply E f u p) A1 = some A2 := by
          rw [List.foldlM_cons, cholApply_skip (by omega)]
          show List.foldlM (cholApply E f u p) A1 [o] = _
          rw [List.foldlM_cons, b1]; rfl
        have s2 : (pairs [p, o] [p, o]).foldlM (cholUpdate E f u p) A2 = some A3 := by
          show List.foldlM (cholUpdate E f u p) A2 [(p, p), (p, o), (o, p), (o, o)] = _
          rw [List.foldlM_cons, cholUpdate_skip (by simp)]
          show List.foldlM (cholUpdate E f u p) A2 [(p, o), (o, p), (o, o)] = _
          rw [List.foldlM_cons, cholUpdate_skip (by simp)]
          show List.foldlM (cholUpdate E f u p) A2 [(o, p), (o, o)] = _
          rw [List.foldlM_cons, cholUpdate_skip (by simp)]
          show List.foldlM (cholUpdate E f u p) A2 [(o, o)] = _
          rw [List.foldlM_cons, c1]; rfl
        have q1 : cholStep E u f [p, o] A p = some A3 := by
          unfold cholStep
          rw [a1]
          show Option.bind ([p, o].foldlM (cholApply E f u p) A1) _ = _
          rw [s1]
          exact s2
        rw [hl, List.foldlM_cons, q1] at hrun
        obtain rfl : A3 = B := Option.some.inj hrun
        obtain ⟨Z, y1, y2, y3, y4, y5, -, -⟩ := c2.focus b.clT ht ho ho (keep_diag m hos)
        rw [hX] at y1
        obtain rfl := Option.some.inj y1
        have nd : ¬ ((False ∨ o = p ∧ o = p) ∨ o = (cblk u o p).1 ∧ o = (cblk u o p).2) := by
          rintro ((h | ⟨h1, -⟩) | ⟨h1, h2⟩)
          · exact h
          · exact hne h1.symm
          · unfold cblk at h1 h2
            by_cases e : u = .L
            · rw [if_pos e] at h2; exact hne h2.symm
            · rw [if_neg e] at h1; exact hne h1.symm
        exact (IH o ho S2 cS X (Shape.imp y2 fun V _ hV => ((hV.2 (Or.inl rfl)).2 nd).1) (fun V hV => (((y2 V hV).prop.2 (Or.inl rfl)).2 nd).2) y3 y4 y5).2

end chol
end Htool
