import Verif.HLinLUAcc2

/-! # Without truncation the pivots are nonsingular when the leading parts of the matrix are -/

namespace Htool
variable {G R : Type*}
open Finset

section lu
variable [CommRing R] [StarRing R] [DecidableEq R] {E : LinOps R} {ad : ClusterTree G → ClusterTree G → Prop}

/-- The state of the factorization after the clusters `m1`. -/
theorem lu_prefix (hEx : E.Exact) (hT : TrsmOK E) (hG : GetrfOK E) (hd : ∀ c, ¬ ad c c) {f : ℕ} {A : FTree G R} {M : ℕ → ℕ → R} (hf : 2 * A.ht ≤ f + 1)
    (hA : Rep .full ad M A) (hsq : A.label.t = A.label.s) (ht : A.label.t.Top) (hM : A.Lead M) (hdat : A.label.data = .hier) :
    ∀ (m1 m2 : List (ClusterTree G)), clList A.bad A.label.t = m1 ++ m2 →
      ∃ A1, m1.foldlM (luStep E f (clList A.bad A.label.t)) A = some A1 ∧
        ∃ b S L U, Tiles A.label.t.off b (m1.map ClusterTree.iv) ∧ b ≤ A.label.t.fin ∧ Nonsing M A.label.t.off b ∧ FTree.Sub A1 A ∧
          FState .full A.bad A.label.t A.ht (QL ad (fun x y => x.off < b ∨ y.off < b) S L U) A1 ∧ ZL (clList A.bad A.label.t) L ∧ ZU (clList A.bad A.label.t) U ∧
          ∀ i ∈ Ico A.label.t.off A.label.t.fin, ∀ j ∈ Ico A.label.t.off A.label.t.fin,
            ∑ l ∈ Ico A.label.t.off b, L i l * U l j + (if b ≤ i ∧ b ≤ j then S i j else 0) = M i j := by
  have b := Shape.self hA
  have hh : A.isHier = true := isHier_iff.2 hdat
  intro m1 m2 hm
  set c := A.label.t with hc
  have T : ClL c (clList A.bad c) := clL_of b.clT ht A.bad
  have hrk : ∀ p ∈ clList A.bad c, 0 ≤ p.rk := fun p hp => clList_rank b.clT ht (fun hr => bad_iff.2 (Or.inl hr)) hp
  refine foldlM_inv (f := luStep E f (clList A.bad c))
    (fun l1 A1 => ∃ b S L U, Tiles c.off b (l1.map ClusterTree.iv) ∧ b ≤ c.fin ∧ Nonsing M c.off b ∧ FTree.Sub A1 A ∧
      FState .full A.bad c A.ht (QL ad (fun x y => x.off < b ∨ y.off < b) S L U) A1 ∧ ZL (clList A.bad c) L ∧ ZU (clList A.bad c) U ∧
      ∀ i ∈ Ico c.off c.fin, ∀ j ∈ Ico c.off c.fin, ∑ l ∈ Ico c.off b, L i l * U l j + (if b ≤ i ∧ b ≤ j then S i j else 0) = M i j)
    m1 [] A
    ⟨c.off, M, 0, 0, rfl, by unfold ClusterTree.fin; omega, nonsing_empty M _, FTree.Sub.refl A, ⟨?_, rfl, hsq.symm, le_refl _, rfl, Or.inr hh⟩, fun _ _ _ _ _ _ => rfl, fun _ _ _ _ _ _ => rfl, ?_⟩ ?_
  · refine Shape.imp hA fun X hX hP => ⟨hP.1, fun p hp q hq _ _ => ⟨fun hh => ?_, fun _ => hP⟩⟩
    have := T.bounds hp
    have := T.bounds hq
    omega
  · intro i hi j hj
    have hi := mem_Ico.1 hi
    have hj := mem_Ico.1 hj
    rw [Ico_self, sum_empty, zero_add, if_pos (by omega)]
  · intro l1 p l2 B hl _ hI
    obtain ⟨bb, S, L, U, t1, t2, t3, tS, t4, t5, t6, t7⟩ := hI
    rw [List.nil_append] at hl
    have hl' : clList A.bad c = l1 ++ p :: (l2 ++ m2) := by rw [hm, hl]; simp
    have hp : p ∈ clList A.bad c := by rw [hl']; simp
    have t8 : Tiles bb c.fin ((p :: (l2 ++ m2)).map ClusterTree.iv) := by
      refine Tiles.split t1 ?_
      rw [← List.map_append, ← hl']
      exact T.tiles
    obtain ⟨e, -⟩ : p.off = bb ∧ Tiles (bb + p.sz) c.fin ((l2 ++ m2).map ClusterTree.iv) := t8
    subst e
    have bp := T.bounds hp
    have dp := clList_desc b.clT ht hp
    obtain ⟨A', S', L', U', a1, a2, a3, a4, a5, a6, a7⟩ := lu_step hEx hT b.clT ht hrk (by omega : 2 * A.ht ≤ f + 2) hp (luH E f) (by
        intro X hgX hX h1 h2 h3
        obtain ⟨X', L1, U1, u1, u2, u3, u4, u5, u6⟩ := luH_spec hEx hT hG hd f X S (by omega) hX (h1.trans h2.symm) (by rw [h1]; exact Or.inl (hrk p hp)) (by
          intro Y hY hYY
          obtain ⟨d0, hd0, e1, e2⟩ := ((FTree.Sub.of_mem (getBlock_mem hgX)).trans tS) Y hY
          have hMd := hM d0 hd0 (e1.symm.trans (hYY.trans e2))
          rw [← e1] at hMd
          have hdd := (Shape.pre_desc hX hY).1
          rw [h1] at hdd ⊢
          revert hMd hdd
          generalize Y.label.t = d
          intro hMd hdd
          have bd := (b.clT.desc dp).desc_bounds hdd
          have sd := ((b.clT.desc dp).desc hdd).sz_pos
          refine nonsing_schur (M := M) (L := L) (U := U) bp.1 (by unfold ClusterTree.fin at *; omega) t3 hMd fun i hi j hj => ?_
          have hi := mem_Ico.1 hi
          have hj := mem_Ico.1 hj
          exact t7 i (mem_Ico.2 (by omega)) j (mem_Ico.2 (by omega)))
        rw [h1] at u2 u6
        rw [h2] at u3
        exact ⟨X', L1, U1, u1, u2, u3, u4, u5, u6⟩) t4 t5 t6
    refine ⟨A', a1, p.fin, S', L', U', ?_, bp.2, ?_, (luBody_sub (luH_sub f) a1).trans tS, a2, a3, a4, fun i hi j hj => ?_⟩
    · rw [List.map_append]
      exact t1.append ⟨rfl, rfl⟩
    · obtain ⟨X, x1, -, x3, x4, -⟩ := t4.focus b.clT ht hp hp rfl
      obtain ⟨Y, hY, e1, e2⟩ := tS X (getBlock_mem x1)
      have := hM Y hY (e1.symm.trans (x3.trans (x4.symm.trans e2)))
      rw [← e1, x3] at this
      exact this
    · have h0 := t7 i hi j hj
      have hi' := mem_Ico.1 hi
      have hj' := mem_Ico.1 hj
      rw [← sum_Ico_consecutive _ bp.1 (by unfold ClusterTree.fin; omega : p.off ≤ p.fin)]
      rw [sum_congr rfl (fun l hl => by rw [a5 i l (mem_Ico.1 hl).2, a6 l j (mem_Ico.1 hl).2] : ∀ l ∈ Ico c.off p.off, L' i l * U' l j = L i l * U l j)]
      by_cases hb : p.off ≤ i ∧ p.off ≤ j
      · have := a7 i j hb.1 hi'.2 hb.2 hj'.2
        rw [if_pos hb, ← this] at h0
        rw [← h0, add_assoc]
      · rw [if_neg hb, add_zero] at h0
        have hps := T.pos p hp
        rw [if_neg (by unfold ClusterTree.fin; omega), add_zero, h0, sum_eq_zero, add_zero]
        intro l hl
        have hl := mem_Ico.1 hl
        by_cases hi0 : i < p.off
        · obtain ⟨q, hq, hiq⟩ := T.cover hi
          have hiq := mem_Ico.1 hiq
          have : q.fin ≤ l := by
            by_contra hn
            have e := tiling_inj T.tiles T.pos hq hp (by unfold ClusterTree.fin at *; omega)
            rw [e] at hiq
            omega
          rw [a3 q hq i l hiq this, zero_mul]
        · rw [a4 p hp l j hl (by omega), mul_zero]

/-- Without truncation every block given to `getrf` is a Schur complement of leading parts of the matrix: it is nonsingular when they are. -/
theorem luH_pivots (hEx : E.Exact) (hT : TrsmOK E) (hG : GetrfOK E) (hd : ∀ c, ¬ ad c c) :
    ∀ (f : ℕ) (A : FTree G R) (M : ℕ → ℕ → R), 2 * A.ht ≤ f → Rep .full ad M A → A.label.t = A.label.s → A.label.t.Top → A.Lead M → A.Pivots E f := by
  intro f
  induction f with
  | zero => intro A M hA; have := Tree.ht_pos A; omega
  | succ f ih =>
    intro A M hf hA hsq ht hM
    have b := Shape.self hA
    unfold FTree.Pivots
    cases hdat : A.label.data with
    | dense D piv =>
      have I := hA.dense_is hdat
      have h := hM A (Tree.mem_pre_self A) hsq
      show Nonsing D.get 0 D.nr
      rw [I.1]
      unfold Nonsing at h ⊢
      have e : A.label.t.fin - A.label.t.off = A.label.t.sz := by unfold ClusterTree.fin; omega
      rw [e] at h
      rw [Nat.sub_zero]
      have : subM D.get 0 A.label.t.sz = subM M A.label.t.off A.label.t.sz := by
        ext i j
        show D.get (0 + i) (0 + j) = M (A.label.t.off + i) (A.label.t.off + j)
        rw [Nat.zero_add, Nat.zero_add]
        have := I.2.2 i i.2 j (by rw [← hsq]; exact j.2)
        rw [this, ← hsq]
        rfl
      rw [this]; exact h
    | lowRank W => trivial
    | hier =>
      intro l1 l2 p A1 X hl hrun hgX
      obtain ⟨A1', e1, bb, S, L, U, t1, t2, t3, tS, t4, t5, t6, t7⟩ := lu_prefix hEx hT hG hd hf hA hsq ht hM hdat l1 (p :: l2) hl
      rw [hrun] at e1
      obtain rfl := Option.some.inj e1
      have T : ClL A.label.t (clList A.bad A.label.t) := clL_of b.clT ht A.bad
      have hp : p ∈ clList A.bad A.label.t := by rw [hl]; simp
      have t8 : Tiles bb A.label.t.fin ((p :: l2).map ClusterTree.iv) := by
        refine Tiles.split t1 ?_
        rw [← List.map_append, ← hl]
        exact T.tiles
      obtain ⟨e, -⟩ : p.off = bb ∧ Tiles (bb + p.sz) A.label.t.fin (l2.map ClusterTree.iv) := t8
      subst e
      have bp := T.bounds hp
      have dp := clList_desc b.clT ht hp
      obtain ⟨X', x1, x2, h1, h2, h3, -⟩ := t4.focus b.clT ht hp hp rfl
      rw [hgX] at x1
      obtain rfl := Option.some.inj x1
      have hX : Rep .full ad S X := Shape.imp x2 fun Y _ hY => hY.2.2 (by omega)
      refine ih X S (by omega) hX (h1.trans h2.symm) (by rw [h1]; exact Or.inl (clList_rank b.clT ht (fun hr => bad_iff.2 (Or.inl hr)) hp)) ?_
      intro Y hY hYY
      obtain ⟨d0, hd0, e1, e2⟩ := ((FTree.Sub.of_mem (getBlock_mem hgX)).trans tS) Y hY
      have hMd := hM d0 hd0 (e1.symm.trans (hYY.trans e2))
      rw [← e1] at hMd
      have hdd := (Shape.pre_desc hX hY).1
      rw [h1] at hdd ⊢
      revert hMd hdd
      generalize Y.label.t = d
      intro hMd hdd
      have bd := (b.clT.desc dp).desc_bounds hdd
      have sd := ((b.clT.desc dp).desc hdd).sz_pos
      refine nonsing_schur (M := M) (L := L) (U := U) bp.1 (by unfold ClusterTree.fin at *; omega) t3 hMd fun i hi j hj => ?_
      have hi := mem_Ico.1 hi
      have hj := mem_Ico.1 hj
      exact t7 i (mem_Ico.2 (by omega)) j (mem_Ico.2 (by omega))

end lu
end Htool
