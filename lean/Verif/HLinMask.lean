import Verif.HLinProd5

/-! # Leaves of an H-matrix of which one half is stored -/

namespace Htool
variable {G R : Type*} {m : Mask} {P : FNode G R → Prop} {A : FTree G R}

/-- The symmetry flags a block may have. -/
def Flag (m : Mask) (n : FNode G R) : Prop := n.NoSym ∨ (m ≠ .full ∧ n.s.off < n.t.fin ∧ n.t.off < n.s.fin)

instance (m : Mask) (i j : ℕ) : Decidable (m.ok i j) := by
  unfold Mask.ok
  cases m <;> infer_instance

theorem countP_flatMap_le {α β : Type*} (l : List α) (g : α → List β) (f : β → Bool) (c : α → Bool)
    (h : ∀ a ∈ l, (g a).countP f ≤ if c a then 1 else 0) : (l.flatMap g).countP f ≤ l.countP c := by
  induction l with
  | nil => exact Nat.le_refl _
  | cons a l ih =>
    rw [List.flatMap_cons, List.countP_append, List.countP_cons, Nat.add_comm]
    exact Nat.add_le_add (ih fun b hb => h b (by simp [hb])) (h a (by simp))

/-- The children which contain an entry. -/
theorem Shape.children_mask (h : Shape m P A) (hh : A.isHier = true) (i j : ℕ) :
    A.children.countP (fun X => decide (X.label.Has i j)) ≤ (if A.label.Has i j then 1 else 0) ∧
      (m.ok i j → A.label.Has i j → ∃ X ∈ A.children, X.label.Has i j) := by
  obtain ⟨hl, hc⟩ := h.self.split hh
  obtain ⟨t1, t2⟩ := subs_tiles h.self.clT h.self.clS hl
  have e : A.children.countP (fun X => decide (X.label.Has i j)) = (A.children.map (fun c => (c.label.t, c.label.s))).countP
      (fun x => decide (x.1.off ≤ i ∧ i < x.1.fin) && decide (x.2.off ≤ j ∧ j < x.2.fin)) := by
    rw [List.countP_map]
    apply List.countP_congr
    intro X _
    rw [decide_eq_true_iff]
    simp only [Function.comp, Bool.and_eq_true, decide_eq_true_iff]
    exact Iff.rfl
  have full := countP_pairs (subs A.label.t A.label.s).1 (subs A.label.t A.label.s).2 (fun x : ClusterTree G => decide (x.off ≤ i ∧ i < x.fin))
    (fun x : ClusterTree G => decide (x.off ≤ j ∧ j < x.fin))
  have c1 := t1.countP i
  have c2 := t2.countP j
  rw [List.countP_map] at c1 c2
  rw [show ((fun iv => decide (InIv i iv)) ∘ ClusterTree.iv : ClusterTree G → Bool) = (fun x => decide (x.off ≤ i ∧ i < x.fin)) from rfl] at c1
  rw [show ((fun iv => decide (InIv j iv)) ∘ ClusterTree.iv : ClusterTree G → Bool) = (fun x => decide (x.off ≤ j ∧ j < x.fin)) from rfl] at c2
  rw [c1, c2] at full
  have val : ((if A.label.t.off ≤ i ∧ i < A.label.t.fin then 1 else 0) * if A.label.s.off ≤ j ∧ j < A.label.s.fin then 1 else 0) =
      if A.label.Has i j then 1 else 0 := by
    unfold FNode.Has
    by_cases h1 : A.label.t.off ≤ i ∧ i < A.label.t.fin <;> by_cases h2 : A.label.s.off ≤ j ∧ j < A.label.s.fin <;> simp [h1, h2]
  refine ⟨?_, fun hok hij => ?_⟩
  · rw [e, hc]
    refine (List.filter_sublist.countP_le).trans ?_
    rw [full]
    exact Nat.le_of_eq val
  · have one : 0 < (pairs (subs A.label.t A.label.s).1 (subs A.label.t A.label.s).2).countP
        (fun x => decide (x.1.off ≤ i ∧ i < x.1.fin) && decide (x.2.off ≤ j ∧ j < x.2.fin)) := by
      rw [full]
      have := val
      rw [if_pos hij] at this
      exact Nat.lt_of_lt_of_eq Nat.one_pos this.symm
    obtain ⟨x, hx, hx'⟩ := List.countP_pos_iff.1 one
    simp only [Bool.and_eq_true, decide_eq_true_eq] at hx'
    have hk : m.keep x.1 x.2 = true := by
      revert hok
      unfold Mask.keep Mask.ok
      cases m with
      | full => intro _; rfl
      | lower => intro h; rw [decide_eq_true_eq]; omega
      | upper => intro h; rw [decide_eq_true_eq]; omega
    have : x ∈ A.children.map (fun c => (c.label.t, c.label.s)) := by rw [hc]; exact List.mem_filter.2 ⟨hx, hk⟩
    obtain ⟨X, hX, rfl⟩ := List.mem_map.1 this
    exact ⟨X, hX, hx'⟩

/-- Leaves do not overlap. -/
theorem Shape.leaves_le (h : Shape m P A) (i j : ℕ) :
    A.leaves.countP (fun X => decide (X.label.Has i j)) ≤ if A.label.Has i j then 1 else 0 := by
  induction A using Tree.ind with
  | h a cs ih =>
    by_cases hcs : cs = []
    · subst hcs
      show List.countP _ [_] ≤ _
      rw [List.countP_singleton]
      by_cases hij : (Tree.node a []).label.Has i j
      · rw [if_pos (decide_eq_true hij)]; exact Nat.le_of_eq (if_pos hij).symm
      · rw [if_neg (by rw [decide_eq_true_iff]; exact hij)]; exact Nat.zero_le _
    · rw [Tree.leaves_node_ne hcs, Tree.leavesL_eq]
      have hh : FTree.isHier (Tree.node a cs) = true := by
        by_contra hh
        exact hcs (h.self.leaf (by simpa using hh)).1
      refine le_trans (countP_flatMap_le cs _ _ (fun X => decide (X.label.Has i j)) fun c hc => ?_) (h.children_mask hh i j).1
      refine (ih c hc (h.child hc)).trans (Nat.le_of_eq ?_)
      simp

/-- Leaves cover the half which is stored. -/
theorem Shape.leaves_ok (h : Shape m P A) {i j : ℕ} (hok : m.ok i j) (hij : A.label.Has i j) : ∃ X ∈ A.leaves, X.label.Has i j := by
  induction A using Tree.ind with
  | h a cs ih =>
    by_cases hcs : cs = []
    · subst hcs
      exact ⟨_, List.mem_singleton.2 rfl, hij⟩
    · have hh : FTree.isHier (Tree.node a cs) = true := by
        by_contra hh
        exact hcs (h.self.leaf (by simpa using hh)).1
      obtain ⟨c, hc, hc'⟩ := (h.children_mask hh i j).2 hok hij
      obtain ⟨X, hX, hX'⟩ := ih c hc (h.child hc) hc'
      rw [Tree.leaves_node_ne hcs, Tree.leavesL_eq]
      exact ⟨X, List.mem_flatMap.2 ⟨c, hc, hX⟩, hX'⟩

/-- Blocks of a square matrix are diagonal, or in the half which is stored. -/
theorem Shape.diag_or_ok (h : Shape m P A) (hs : A.label.t = A.label.s) {X : FTree G R} (hX : X ∈ A.pre) :
    X.label.t = X.label.s ∨ ∀ i j, X.label.Has i j → m.ok i j := by
  induction A using Tree.ind with
  | h a cs ih =>
    rcases Tree.mem_pre.1 hX with rfl | ⟨c, hc, hX⟩
    · exact Or.inl hs
    · have hh : FTree.isHier (Tree.node a cs) = true := by
        by_contra hh
        have := (h.self.leaf (by simpa using hh)).1
        have e : cs = [] := this
        rw [e] at hc
        cases hc
      obtain ⟨hl, he⟩ := h.self.split hh
      obtain ⟨t1, t2⟩ := subs_tiles h.self.clT h.self.clS hl
      have hm : (c.label.t, c.label.s) ∈ (Tree.node a cs).children.map (fun c => (c.label.t, c.label.s)) := List.mem_map.2 ⟨c, hc, rfl⟩
      rw [he, List.mem_filter, mem_pairs] at hm
      obtain ⟨⟨m1, m2⟩, mk⟩ := hm
      by_cases ec : c.label.t = c.label.s
      · exact ih c hc (h.child hc) ec hX
      · right
        have e2 : (subs (Tree.node a cs).label.t (Tree.node a cs).label.s).2 = (subs (Tree.node a cs).label.t (Tree.node a cs).label.s).1 := by
          rw [← hs] at hl ⊢
          unfold subs
          by_cases h1 : (Tree.node a cs).label.t.leaf = true
          · exact absurd ⟨h1, h1⟩ hl
          · rw [if_neg h1, if_neg h1, if_neg (by omega), if_neg (by omega)]
        rw [e2] at m2
        have pos : ∀ d ∈ (subs (Tree.node a cs).label.t (Tree.node a cs).label.s).1, 0 < d.sz := fun d hd =>
          (h.self.clT.desc (subs_desc h.self.clT h.self.clS hd (e2 ▸ hd)).1).sz_pos
        have ap : ¬ (c.label.t.off < c.label.s.fin ∧ c.label.s.off < c.label.t.fin) := fun hx => ec (tiling_inj t1 pos m1 m2 hx)
        intro i j hij
        have hij := Shape.pre_has (h.child hc) hX hij
        unfold FNode.Has at hij
        revert mk
        unfold Mask.keep Mask.ok
        simp only
        cases m with
        | full => intro _; trivial
        | lower => rw [decide_eq_true_eq]; intro mk; show j ≤ i; omega
        | upper => rw [decide_eq_true_eq]; intro mk; show i ≤ j; omega

end Htool
