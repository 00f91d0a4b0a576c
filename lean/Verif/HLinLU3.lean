import Verif.HLinSub

/-! # `lu_factorization` of a hierarchical matrix: the result -/

namespace Htool
variable {G R : Type*}
open Finset

theorem Tiles.split {b c : ℕ} {l m : List (ℕ × ℕ)} : ∀ {a : ℕ}, Tiles a b l → Tiles a c (l ++ m) → Tiles b c m := by
  induction l with
  | nil => intro a h h'; cases h; exact h'
  | cons x l ih => intro a h h'; obtain ⟨o, s⟩ := x; exact ih h.2 h'.2

section lu
variable [CommRing R] [StarRing R] [DecidableEq R] {E : LinOps R} {ad : ClusterTree G → ClusterTree G → Prop}

/-- The leading parts of `M` which end with a diagonal block of `A` are nonsingular. -/
def FTree.Lead (A : FTree G R) (M : ℕ → ℕ → R) : Prop := ∀ X ∈ A.pre, X.label.t = X.label.s → Nonsing M A.label.t.off X.label.t.fin

/-- The factorization of an H-matrix, without truncation. -/
theorem luH_spec (hEx : E.Exact) (hT : TrsmOK E) (hG : GetrfOK E) (hd : ∀ c, ¬ ad c c) :
    ∀ (f : ℕ) (A : FTree G R) (M : ℕ → ℕ → R), 2 * A.ht ≤ f → Rep .full ad M A → A.label.t = A.label.s → A.label.t.Top → A.Lead M →
      ∃ A' L U, luH E f A = some A' ∧ A'.label.t = A.label.t ∧ A'.label.s = A.label.s ∧ A'.ht ≤ A.ht ∧ Shape .full (fun n => Flag .full n ∧ LUP ad L U n) A' ∧
        ∀ i ∈ Ico A.label.t.off A.label.t.fin, ∀ j ∈ Ico A.label.t.off A.label.t.fin, ∑ l ∈ Ico A.label.t.off A.label.t.fin, L i l * U l j = M i j := by
  intro f
  induction f with
  | zero => intro A M hA; have := Tree.ht_pos A; omega
  | succ f ih =>
    intro A M hf hA hsq ht hM
    have b := Shape.self hA
    cases hdat : A.label.data with
    | dense D piv =>
      obtain ⟨L, U, h1, h2⟩ := lu_leaf hG hA hsq (hM A (Tree.mem_pre_self A) hsq) hdat
      refine ⟨_, L, U, by unfold luH; rw [hdat], ?_, ?_, ?_, h1, h2⟩
      · rw [setData_label]
      · rw [setData_label]
      · rw [setData_ht]
    | lowRank W =>
      exfalso
      have := b.prop.2
      rw [hdat] at this
      rw [← hsq] at this
      exact hd _ this.1
    | hier =>
      have hh : A.isHier = true := isHier_iff.2 hdat
      set c := A.label.t with hc
      have T : ClL c (clList A.bad c) := clL_of b.clT ht A.bad
      have hrk : ∀ p ∈ clList A.bad c, 0 ≤ p.rk := fun p hp => clList_rank b.clT ht (fun hr => bad_iff.2 (Or.inl hr)) hp
      have key := foldlM_inv (f := fun A1 p => ((updSub p p (luH E f) A1).bind (fun A1 => (clList A.bad c).foldlM (luApply E f p) A1)).bind
          (fun A2 => (pairs (clList A.bad c) (clList A.bad c)).foldlM (luUpdate E f p) A2))
        (fun l1 A1 => ∃ b S L U, Tiles c.off b (l1.map ClusterTree.iv) ∧ b ≤ c.fin ∧ Nonsing M c.off b ∧ FTree.Sub A1 A ∧
          FState .full A.bad c A.ht (QL ad (fun x y => x.off < b ∨ y.off < b) S L U) A1 ∧ ZL (clList A.bad c) L ∧ ZU (clList A.bad c) U ∧
          ∀ i ∈ Ico c.off c.fin, ∀ j ∈ Ico c.off c.fin, ∑ l ∈ Ico c.off b, L i l * U l j + (if b ≤ i ∧ b ≤ j then S i j else 0) = M i j)
        (clList A.bad c) [] A
        ⟨c.off, M, 0, 0, rfl, by unfold ClusterTree.fin; omega, nonsing_empty M _, FTree.Sub.refl A, ⟨?_, rfl, hsq.symm, le_refl _, rfl, Or.inr hh⟩, fun _ _ _ _ _ _ => rfl, fun _ _ _ _ _ _ => rfl, ?_⟩ ?_
      · obtain ⟨A', e1, bb, S, L, U, t1, t2, t3, tS, t4, t5, t6, t7⟩ := key
        rw [List.nil_append] at t1
        have hbb : bb = c.fin := by
          have := Tiles.split t1 (m := []) (by rw [List.append_nil]; exact T.tiles)
          exact this
        subst hbb
        have hh' : A'.isHier = true := by
          rcases t4.hier with hb | hb
          · -- the root of `A'` is above the partition
            have r : A'.label.t.rk < 0 ∨ A'.label.s.rk < 0 := by
              rw [← bad_iff, t4.badE]; exact hb
            by_contra hn
            have := t4.shape.self.leaf (by simpa using hn)
            omega
          · exact hb
        refine ⟨A', L, U, ?_, t4.t, t4.s.trans hsq, t4.ht, ?_, fun i hi j hj => ?_⟩
        · unfold luH
          rw [hdat]
          exact e1
        · intro X hX
          have bX := t4.shape X hX
          refine ⟨⟨bX.prop.1, ?_⟩, bX.clT, bX.clS, bX.leaf, bX.split⟩
          have hbc : A'.bad = A.bad := t4.badE
          rcases Shape.below_or_above t4.shape (t4.t.trans t4.s.symm) hh' (by rw [t4.t]; exact ht) hX with ⟨p, hp, q, hq, d1, d2⟩ | ⟨u1, u2⟩
          · rw [t4.t, hbc] at hp hq
            refine (bX.prop.2 p hp q hq d1 d2).1 (Or.inl ?_)
            have := T.bounds hp
            have := T.pos p hp
            unfold ClusterTree.fin at *
            omega
          · have hx := isHier_iff.1 u1
            rw [t4.t, hbc] at u2
            refine ⟨⟨fun hts => ⟨fun i j hi => ⟨fun _ hj => ?_, fun h => by cases h⟩, by rw [hx]; trivial⟩, fun _ => ⟨bX.prop.1, by rw [hx]; trivial⟩⟩,
              ⟨fun hts => ⟨fun i j hi => ⟨fun h => by (cases h), fun _ hj => ?_⟩, by rw [hx]; trivial⟩, fun _ => ⟨bX.prop.1, by rw [hx]; trivial⟩⟩⟩
            · obtain ⟨p, hp, hip, h1, h2⟩ := u2 hts i hi.1 hi.2
              exact t5 p hp i j hip (by omega)
            · obtain ⟨p, hp, hip, h1, h2⟩ := u2 hts i hi.1 hi.2
              exact t6 p hp i j hip (by omega)
        · have := t7 i hi j hj
          have hi := mem_Ico.1 hi
          rw [if_neg (by omega), add_zero] at this
          exact this
      · refine Shape.imp hA fun X hX hP => ⟨hP.1, fun p hp q hq _ _ => ⟨fun hh => ?_, fun _ => hP⟩⟩
        have := T.bounds hp
        have := T.bounds hq
        omega
      · intro i hi j hj
        have hi := mem_Ico.1 hi
        have hj := mem_Ico.1 hj
        rw [Ico_self, sum_empty, zero_add, if_pos (by omega)]
      · intro l1 p l2 B hl _ hI
        obtain ⟨bb, S, L, U, t1, t2, t3, tS, t4, t5, t6, t7⟩ := hI
        rw [List.nil_append] at hl
        have hp : p ∈ clList A.bad c := by rw [hl]; simp
        have t8 : Tiles bb c.fin ((p :: l2).map ClusterTree.iv) := by
          refine Tiles.split t1 ?_
          rw [← List.map_append, ← hl]
          exact T.tiles
        obtain ⟨e, -⟩ : p.off = bb ∧ Tiles (bb + p.sz) c.fin (l2.map ClusterTree.iv) := t8
        subst e
        have bp := T.bounds hp
        have dp := clList_desc b.clT ht hp
        obtain ⟨A', S', L', U', a1, a2, a3, a4, a5, a6, a7⟩ := lu_step hEx hT b.clT ht hrk (by omega : 2 * A.ht ≤ f + 2) hp (luH E f) (by
            intro X hgX hX h1 h2 h3
            obtain ⟨X', L1, U1, u1, u2, u3, u4, u5, u6⟩ := ih X S (by omega) hX (h1.trans h2.symm) (by rw [h1]; exact Or.inl (hrk p hp)) (by
              intro Y hY hYY
              obtain ⟨d0, hd0, e1, e2⟩ := ((FTree.Sub.of_mem (getBlock_mem hgX)).trans tS) Y hY
              have hMd := hM d0 hd0 (e1.symm.trans (hYY.trans e2))
              rw [← e1] at hMd
              have hdd := (Shape.pre_desc hX hY).1
              rw [h1] at hdd ⊢
              revert hMd hdd
              generalize Y.label.t = d
              intro hMd hdd
              have bd := (b.clT.desc dp).desc_bounds hdd
              have sd := ((b.clT.desc dp).desc hdd).sz_pos
              refine nonsing_schur (M := M) (L := L) (U := U) bp.1 (by unfold ClusterTree.fin at *; omega) t3 hMd fun i hi j hj => ?_
              have hi := mem_Ico.1 hi
              have hj := mem_Ico.1 hj
              exact t7 i (mem_Ico.2 (by omega)) j (mem_Ico.2 (by omega)))
            rw [h1] at u2 u6
            rw [h2] at u3
            exact ⟨X', L1, U1, u1, u2, u3, u4, u5, u6⟩) t4 t5 t6
        refine ⟨A', a1, p.fin, S', L', U', ?_, bp.2, ?_, (luBody_sub (luH_sub f) a1).trans tS, a2, a3, a4, fun i hi j hj => ?_⟩
        · rw [List.map_append]
          exact t1.append ⟨rfl, rfl⟩
        · obtain ⟨X, x1, -, x3, x4, -⟩ := t4.focus b.clT ht hp hp rfl
          obtain ⟨Y, hY, e1, e2⟩ := tS X (getBlock_mem x1)
          have := hM Y hY (e1.symm.trans (x3.trans (x4.symm.trans e2)))
          rw [← e1, x3] at this
          exact this
        · have h0 := t7 i hi j hj
          have hi' := mem_Ico.1 hi
          have hj' := mem_Ico.1 hj
          rw [← sum_Ico_consecutive _ bp.1 (by unfold ClusterTree.fin; omega : p.off ≤ p.fin)]
          rw [sum_congr rfl (fun l hl => by rw [a5 i l (mem_Ico.1 hl).2, a6 l j (mem_Ico.1 hl).2] : ∀ l ∈ Ico c.off p.off, L' i l * U' l j = L i l * U l j)]
          by_cases hb : p.off ≤ i ∧ p.off ≤ j
          · have := a7 i j hb.1 hi'.2 hb.2 hj'.2
            rw [if_pos hb, ← this] at h0
            rw [← h0, add_assoc]
          · rw [if_neg hb, add_zero] at h0
            have hps := T.pos p hp
            rw [if_neg (by unfold ClusterTree.fin; omega), add_zero, h0, sum_eq_zero, add_zero]
            intro l hl
            have hl := mem_Ico.1 hl
            by_cases hi0 : i < p.off
            · obtain ⟨q, hq, hiq⟩ := T.cover hi
              have hiq := mem_Ico.1 hiq
              have : q.fin ≤ l := by
                by_contra hn
                have e := tiling_inj T.tiles T.pos hq hp (by unfold ClusterTree.fin at *; omega)
                rw [e] at hiq
                omega
              rw [a3 q hq i l hiq this, zero_mul]
            · rw [a4 p hp l j hl (by omega), mul_zero]

end lu
end Htool
