import Verif.HLinTri5
import Verif.HLinMask

/-! # Factorizations of hierarchical matrices: the state of the loops

During a block factorization some blocks contain factors and other ones a Schur complement. `FState` says what every block contains; `FState.focus`
reads or replaces one of them. -/

namespace Htool
variable {G R : Type*}
open Finset

/-- Induction over a loop which can fail. -/
theorem foldlM_inv {α β : Type*} {f : β → α → Option β} (I : List α → β → Prop) : ∀ (l l0 : List α) (b : β), I l0 b →
    (∀ l1 x l2 b, l0 ++ l = l1 ++ x :: l2 → l0.length ≤ l1.length → I l1 b → ∃ b', f b x = some b' ∧ I (l1 ++ [x]) b') →
    ∃ b', l.foldlM f b = some b' ∧ I (l0 ++ l) b'
  | [], l0, b, h, _ => ⟨b, rfl, by rw [List.append_nil]; exact h⟩
  | x :: l, l0, b, h, hs => by
    obtain ⟨b', e1, e2⟩ := hs l0 x l b rfl (le_refl _) h
    obtain ⟨b'', e3, e4⟩ := foldlM_inv I l (l0 ++ [x]) b' e2 (by
      intro l1 y l2 c hc hl
      refine hs l1 y l2 c (by rw [← hc]; simp) ?_
      rw [List.length_append] at hl
      omega)
    refine ⟨b'', ?_, by rw [List.append_assoc] at e4; exact e4⟩
    rw [List.foldlM_cons, e1]; exact e3

section state
variable [CommRing R]

/-- What a block contains, according to the pair of clusters it is in. -/
def BlkP (m : Mask) (cl : List (ClusterTree G)) (Q : ClusterTree G → ClusterTree G → FNode G R → Prop) (n : FNode G R) : Prop :=
  Flag m n ∧ ∀ p ∈ cl, ∀ q ∈ cl, p.Desc n.t → q.Desc n.s → Q p q n

/-- State of a factorization: `Q p q` is the property of the block `p`, `q`. -/
structure FState (m : Mask) (bad : Bool) (c : ClusterTree G) (N : ℕ) (Q : ClusterTree G → ClusterTree G → FNode G R → Prop) (A : FTree G R) : Prop where
  shape : Shape m (BlkP m (clList bad c) Q) A
  t : A.label.t = c
  s : A.label.s = c
  ht : A.ht ≤ N
  badE : A.bad = bad
  hier : bad = true ∨ A.isHier = true

variable {m : Mask} {bad : Bool} {c : ClusterTree G} {N : ℕ} {Q Q' : ClusterTree G → ClusterTree G → FNode G R → Prop} {A : FTree G R}

/-- A cluster is below at most one cluster of the list. -/
theorem clL_unique (hc : ClOK c) (ht : c.Top) {p p' d : ClusterTree G} (hp : p ∈ clList bad c) (hp' : p' ∈ clList bad c) (h : p.Desc d) (h' : p'.Desc d) :
    p = p' := by
  have L := clL_of hc ht bad
  have o1 := hc.desc (clList_desc hc ht hp)
  have o2 := hc.desc (clList_desc hc ht hp')
  have b1 := o1.desc_bounds h
  have b2 := o2.desc_bounds h'
  have s := (o1.desc h).sz_pos
  refine tiling_inj L.tiles L.pos hp hp' ?_
  unfold ClusterTree.fin at *
  omega

theorem FState.congr (h : FState m bad c N Q A) (hc : ∀ p ∈ clList bad c, ∀ q ∈ clList bad c, ∀ n : FNode G R, p.Desc n.t → q.Desc n.s → Q p q n → Q' p q n) :
    FState m bad c N Q' A :=
  ⟨Shape.imp h.shape fun X _ hX => ⟨hX.1, fun p hp q hq d1 d2 => hc p hp q hq X.label d1 d2 (hX.2 p hp q hq d1 d2)⟩, h.t, h.s, h.ht, h.badE, h.hier⟩

/-- Reading or replacing a block. -/
theorem FState.focus (h : FState m bad c N Q A) (hok : ClOK c) (ht : c.Top) {p q : ClusterTree G} (hp : p ∈ clList bad c) (hq : q ∈ clList bad c)
    (hk : m.keep p q = true) :
    ∃ X, getBlock p q A = some X ∧ Shape m (fun n => Flag m n ∧ Q p q n) X ∧ X.label.t = p ∧ X.label.s = q ∧ X.ht < N ∧ X.ht < A.ht ∧
      ∀ (g : FTree G R → Option (FTree G R)) (Q' : ClusterTree G → ClusterTree G → FNode G R → Prop) (X' : FTree G R), g X = some X' →
        Shape m (fun n => Flag m n ∧ Q' p q n) X' → X'.label.t = p → X'.label.s = q → X'.ht ≤ X.ht →
        (∀ p' ∈ clList bad c, ∀ q' ∈ clList bad c, ¬ (p' = p ∧ q' = q) → ∀ n : FNode G R, p'.Desc n.t → q'.Desc n.s → Q p' q' n → Q' p' q' n) →
        ∃ A', updSub p q g A = some A' ∧ FState m bad c N Q' A' := by
  have L := clL_of hok ht bad
  have op := hok.desc (clList_desc hok ht hp)
  have oq := hok.desc (clList_desc hok ht hq)
  have hbb : bad = false ∨ A.bad = true := by rw [h.badE]; cases bad <;> simp
  obtain ⟨X, x1, x2, x3, x4, x5, x6, x7⟩ := Shape.focus' h.shape (by rw [h.t]; exact ht) (by rw [h.s]; exact ht) (bad := bad)
    (by rw [h.badE]; exact id) h.hier (p := p) (q := q) (by rw [h.t]; exact hp) (by rw [h.s]; exact hq) hk
  refine ⟨X, x6, ?_, x2, x3, Nat.lt_of_lt_of_le (x5 hbb) h.ht, x5 hbb, ?_⟩
  · refine Shape.imp x1 fun Y hY hP => ?_
    have d := Shape.pre_desc x1 hY
    rw [x2, x3] at d
    exact ⟨hP.1, hP.2 p hp q hq d.1 d.2.1⟩
  · intro g Q' X' g1 g2 g3 g4 g5 g6
    obtain ⟨A', e1, e2, e3, e4, e5, e6⟩ := x7 g (BlkP m (clList bad c) Q') X' g1 (by
      refine Shape.imp g2 fun Y hY hP => ⟨hP.1, fun p' hp' q' hq' d1 d2 => ?_⟩
      have d := Shape.pre_desc g2 hY
      rw [g3, g4] at d
      rw [clL_unique hok ht hp' hp d1 d.1, clL_unique hok ht hq' hq d2 d.2.1]
      exact hP.2) g3 g4 g5 (by
      intro n hn hd
      refine ⟨hn.1, fun p' hp' q' hq' d1 d2 => ?_⟩
      refine g6 p' hp' q' hq' ?_ n d1 d2 (hn.2 p' hp' q' hq' d1 d2)
      rintro ⟨rfl, rfl⟩
      rcases hd with hd | hd
      · obtain ⟨-, -, -, hd⟩ := hd
        rw [x2, x3] at hd
        have k1 : p'.root.label.depth ≤ n.t.root.label.depth := by
          rcases op.desc_depth d1 with e | e
          · rw [e]
          · exact Nat.le_of_lt e
        have k2 : q'.root.label.depth ≤ n.s.root.label.depth := by
          rcases oq.desc_depth d2 with e | e
          · rw [e]
          · exact Nat.le_of_lt e
        omega
      · have b1 := op.desc_bounds d1
        have b2 := oq.desc_bounds d2
        have s1 := (op.desc d1).sz_pos
        have s2 := (oq.desc d2).sz_pos
        refine hd n.t.off n.s.off ?_
        unfold FNode.Has
        rw [x2, x3]
        unfold ClusterTree.fin at *
        omega)
    refine ⟨A', e1, e2, e3.trans h.t, e4.trans h.s, Nat.le_trans e5 h.ht, ?_, e6⟩
    rw [← h.badE]
    unfold FTree.bad
    rw [e3, e4]

/-- Every block is in a pair of clusters of the list, or is above. -/
theorem Shape.below_or_above {P : FNode G R → Prop} (h : Shape m P A) (hs : A.label.t = A.label.s) (hh : A.isHier = true) (ht : A.label.t.Top)
    {X : FTree G R} (hX : X ∈ A.pre) :
    (∃ p ∈ clList A.bad A.label.t, ∃ q ∈ clList A.bad A.label.t, p.Desc X.label.t ∧ q.Desc X.label.s) ∨
    (X.isHier = true ∧ (X.label.t = X.label.s → ∀ i, X.label.t.off ≤ i → i < X.label.t.fin →
      ∃ p ∈ clList A.bad A.label.t, (p.off ≤ i ∧ i < p.fin) ∧ X.label.t.off ≤ p.off ∧ p.fin ≤ X.label.t.fin)) := by
  have b := h.self
  have hl := (b.split hh).1
  have hl' : A.label.t.leaf = false := by
    cases e : A.label.t.leaf
    · rfl
    · exact absurd ⟨e, by rw [← hs]; exact e⟩ hl
  by_cases hb : A.bad = true
  · -- the list is the partition
    have hr : A.label.t.rk < 0 := by
      rcases bad_iff.1 hb with e | e
      · exact e
      · rw [hs]; exact e
    rw [hb, clList_true b.clT ht]
    have dX := h.pre_desc hX
    have bX := h X hX
    -- clusters below or above the partition
    have side : ∀ d : ClusterTree G, A.label.t.Desc d → 0 ≤ d.rk → ∃ p ∈ A.label.t.front, p.Desc d := by
      intro d hd hdr
      have : ∀ x : CTree G, d.root ∈ x.pre → (∀ y ∈ x.pre, y ∈ A.label.t.root.pre) → ∃ p ∈ x.front, d.root ∈ p.pre := by
        intro x
        induction x using Tree.ind with
        | h a cs ih =>
          intro hx hsub
          by_cases hrx : 0 ≤ (Tree.node a cs).rk
          · exact ⟨_, by rw [Tree.front_rank hrx]; simp, hx⟩
          · rcases Tree.mem_pre.1 hx with e | ⟨y, hy, hxy⟩
            · have : d.root.rk = (Tree.node a cs).rk := by rw [e]
              unfold ClusterTree.rk at hdr
              omega
            · obtain ⟨p, hp, hdp⟩ := ih y hy hxy fun z hz => hsub z (Tree.mem_pre_trans (child_mem_pre hy) hz)
              refine ⟨p, ?_, hdp⟩
              rw [Tree.front_neg (by omega), List.mem_flatMap]
              exact ⟨y, hy, hp⟩
      obtain ⟨p, hp, hdp⟩ := this A.label.t.root hd.1 (fun _ h => h)
      refine ⟨⟨p, A.label.t.parts⟩, ?_, hdp, hd.2⟩
      unfold ClusterTree.front
      exact List.mem_map_of_mem hp
    by_cases h1 : 0 ≤ X.label.t.rk ∧ 0 ≤ X.label.s.rk
    · left
      obtain ⟨p, hp, dp⟩ := side _ dX.1 h1.1
      obtain ⟨q, hq, dq⟩ := side X.label.s (by rw [hs]; exact dX.2.1) h1.2
      exact ⟨p, hp, q, hq, dp, dq⟩
    · right
      refine ⟨?_, fun hts i hi hi' => ?_⟩
      · by_contra hc
        exact h1 (bX.leaf (by simpa using hc)).2
      · have okX := bX.clT
        have tl := okX.front_tiles
        have hrX : X.label.t.rk < 0 := by
          rw [← hts] at h1
          by_contra hc
          exact h1 ⟨by omega, by omega⟩
        have L : ClL X.label.t X.label.t.front := ⟨tl, fun p hp => (okX.desc (ClusterTree.front_desc hp).1).sz_pos⟩
        obtain ⟨p, hp, hip⟩ := L.cover (mem_Ico.2 ⟨hi, hi'⟩)
        refine ⟨p, ?_, mem_Ico.1 hip, L.bounds hp⟩
        -- the partition below a cluster is a part of the partition
        have sub : ∀ x : CTree G, ∀ u ∈ x.pre, u.rk < 0 → ∀ p ∈ u.front, (∀ y ∈ x.pre, 0 ≤ y.rk → ∀ z ∈ y.children, 0 ≤ z.rk) → p ∈ x.front := by
          intro x
          induction x using Tree.ind with
          | h a cs ih =>
            intro u hu hur p hp hrk
            rcases Tree.mem_pre.1 hu with rfl | ⟨y, hy, huy⟩
            · exact hp
            · have hx : (Tree.node a cs).rk < 0 := by
                by_contra hc
                have key : ∀ y : CTree G, 0 ≤ y.rk → (∀ z ∈ y.pre, 0 ≤ z.rk → ∀ w ∈ z.children, 0 ≤ w.rk) → ∀ w ∈ y.pre, 0 ≤ w.rk := by
                  intro y
                  induction y using Tree.ind with
                  | h b ds ihd =>
                    intro h0 hz w hw
                    rcases Tree.mem_pre.1 hw with rfl | ⟨v, hv, hwv⟩
                    · exact h0
                    · exact ihd v hv (hz _ (Tree.mem_pre_self _) h0 v hv) (fun z hzz => hz z (Tree.mem_pre_trans (child_mem_pre hv) hzz)) w hwv
                have := key _ (by omega) hrk u hu
                omega
              rw [Tree.front_neg hx, List.mem_flatMap]
              exact ⟨y, hy, ih y hy u huy hur p hp fun z hz => hrk z (Tree.mem_pre_trans (child_mem_pre hy) hz)⟩
        unfold ClusterTree.front at hp ⊢
        rw [List.mem_map] at hp ⊢
        obtain ⟨v, hv, rfl⟩ := hp
        exact ⟨v, sub _ _ dX.1.1 hrX v hv b.clT.rank, by rw [dX.1.2]⟩
  · -- the list is the list of the children
    have hb : A.bad = false := by simpa using hb
    rw [hb, clList_false, hl']
    simp only [Bool.false_eq_true, if_false]
    rcases Tree.mem_pre.1 hX with e | ⟨Y, hY, hXY⟩
    · right
      subst e
      refine ⟨hh, fun _ i hi hi' => ?_⟩
      have L : ClL X.label.t X.label.t.kids := ⟨b.clT.kids_tiles hl', fun p hp => (b.clT.desc (ClusterTree.kids_desc hp)).sz_pos⟩
      obtain ⟨p, hp, hip⟩ := L.cover (mem_Ico.2 ⟨hi, hi'⟩)
      exact ⟨p, hp, mem_Ico.1 hip, L.bounds hp⟩
    · left
      have hm := List.mem_map_of_mem (f := fun c : FTree G R => (c.label.t, c.label.s)) hY
      rw [(b.split hh).2, List.mem_filter, mem_pairs] at hm
      have hnb : ¬ (A.label.t.rk < 0) := fun hr => by have := bad_iff.2 (Or.inl hr : A.label.t.rk < 0 ∨ A.label.s.rk < 0); rw [hb] at this; cases this
      have e : subs A.label.t A.label.s = (A.label.t.kids, A.label.t.kids) := by
        unfold subs
        rw [← hs, if_neg (by rw [hl']; simp), if_neg (by rw [hl']; simp), if_neg (by omega), if_neg (by omega)]
      rw [e] at hm
      have d := (h.child hY).pre_desc hXY
      exact ⟨_, hm.1.1, _, hm.1.2, d.1, d.2.1⟩

end state
end Htool
