import Verif.HLinProd3

/-! # Products of hierarchical matrices into a hierarchical matrix -/

namespace Htool
variable {G R : Type*}
open Finset

/-! ## `get_child_or_this` -/

/-- The partition is one level below the cluster, or the cluster is on the partition or below it. -/
def ClusterTree.Flat (c : ClusterTree G) : Prop := 0 ≤ c.rk ∨ (c.parts = c.root.children ∧ ∀ u ∈ c.root.children, 0 ≤ u.rk)

theorem ClusterTree.Flat.front {c : ClusterTree G} (h : c.Flat) (hr : c.rk < 0) : c.front = c.kids ∧ c.parts = c.root.front := by
  have h := h.resolve_left (by omega)
  have e : c.root.front = c.root.children := by
    rw [Tree.front_neg hr]
    have : ∀ l : List (CTree G), (∀ u ∈ l, 0 ≤ u.rk) → l.flatMap Tree.front = l := by
      intro l
      induction l with
      | nil => intro _; rfl
      | cons u l ih =>
        intro hu
        rw [List.flatMap_cons, Tree.front_rank (hu u (by simp)), ih fun v hv => hu v (by simp [hv])]; rfl
    exact this _ h.2
  refine ⟨?_, ?_⟩
  · unfold ClusterTree.front ClusterTree.kids; rw [e]
  · rw [e]; exact h.1

theorem ClusterTree.Flat.top {c : ClusterTree G} (h : c.Flat) : c.Top := by
  by_cases hr : 0 ≤ c.rk
  · exact Or.inl hr
  · exact Or.inr (h.front (by omega)).2

section child
variable {m : Mask} {P : FNode G R → Prop} {A X : FTree G R}

theorem Shape.list_existsC (h : Shape m P A) (t1 : A.label.t.Flat) (t2 : A.label.s.Flat) {bad : Bool} (hb : A.bad = true → bad = true)
    (hf : bad = true ∨ A.isHier = true) {p q : ClusterTree G} (hp : p ∈ clList bad A.label.t) (hq : q ∈ clList bad A.label.s)
    (hk : m.keep p q = true) :
    ∃ π X, A.at? π = some X ∧ X.label.t = p ∧ X.label.s = q ∧ (bad = false ∨ A.bad = true → X.ht < A.ht) ∧
      (π = [] ∨ ∃ k, π = [k]) := by
  have child : A.isHier = true → p ∈ (subs A.label.t A.label.s).1 → q ∈ (subs A.label.t A.label.s).2 →
      ∃ π X, A.at? π = some X ∧ X.label.t = p ∧ X.label.s = q ∧ (bad = false ∨ A.bad = true → X.ht < A.ht) ∧ (π = [] ∨ ∃ k, π = [k]) := by
    intro hh hp hq
    obtain ⟨X, hX, e1, e2⟩ := h.child_exists hh hp hq hk
    obtain ⟨k, hk, e⟩ := List.mem_iff_getElem.1 hX
    refine ⟨[k], X, ?_, e1, e2, fun _ => Tree.ht_child hX, Or.inr ⟨k, rfl⟩⟩
    rw [Tree.at?]
    simp only [List.getElem?_eq_getElem hk, e]
    rfl
  cases bad with
  | true =>
    rw [clList_true h.self.clT t1.top] at hp
    rw [clList_true h.self.clS t2.top] at hq
    by_cases hA : A.bad = true
    · have hA' := bad_iff.1 hA
      have hh : A.isHier = true := by
        by_contra hh
        have := (h.self.leaf (by simpa using hh)).2
        omega
      have lr1 := h.self.clT.leaf_rank
      have lr2 := h.self.clS.leaf_rank
      have hmem : p ∈ (subs A.label.t A.label.s).1 ∧ q ∈ (subs A.label.t A.label.s).2 := by
        unfold subs
        by_cases hs : A.label.s.leaf = true
        · have := lr2 hs
          rw [if_pos hs]
          rw [(t1.front (by omega)).1] at hp
          rw [ClusterTree.front_rank this] at hq
          exact ⟨hp, hq⟩
        · rw [if_neg hs]
          by_cases ht : A.label.t.leaf = true
          · have := lr1 ht
            rw [if_pos ht]
            rw [(t2.front (by omega)).1] at hq
            rw [ClusterTree.front_rank this] at hp
            exact ⟨hp, hq⟩
          · rw [if_neg ht]
            by_cases c1 : A.label.t.rk < 0 ∧ 0 ≤ A.label.s.rk
            · rw [if_pos c1]
              rw [ClusterTree.front_rank c1.2] at hq
              exact ⟨hp, hq⟩
            · rw [if_neg c1]
              by_cases c2 : A.label.s.rk < 0 ∧ 0 ≤ A.label.t.rk
              · rw [if_pos c2]
                rw [ClusterTree.front_rank c2.2] at hp
                exact ⟨hp, hq⟩
              · rw [if_neg c2]
                rw [(t1.front (by omega)).1] at hp
                rw [(t2.front (by omega)).1] at hq
                exact ⟨hp, hq⟩
      exact child hh hmem.1 hmem.2
    · have hr : ¬ (A.label.t.rk < 0 ∨ A.label.s.rk < 0) := fun hr => hA (bad_iff.2 hr)
      rw [ClusterTree.front_rank (by omega), List.mem_singleton] at hp
      rw [ClusterTree.front_rank (by omega), List.mem_singleton] at hq
      exact ⟨[], A, by rw [Tree.at?], hp.symm, hq.symm, fun h => absurd (h.resolve_left (by simp)) hA, Or.inl rfl⟩
  | false =>
    have hh := hf.resolve_left (by simp)
    have hr : ¬ (A.label.t.rk < 0 ∨ A.label.s.rk < 0) := fun hr => absurd (hb (bad_iff.2 hr)) (by simp)
    have hs := subs_rank (t := A.label.t) (s := A.label.s) (by omega) (by omega) (h.self.split hh).1
    exact child hh (by rw [hs]; exact hp) (by rw [hs]; exact hq)

theorem at_single {k : ℕ} (hX : A.at? [k] = some X) : A.children[k]? = some X := by
  rw [Tree.at?] at hX
  cases hc : A.children[k]? with
  | none => rw [hc] at hX; simp at hX
  | some c => rw [hc] at hX; simpa [Tree.at?] using hX

theorem Shape.getChild_eq (h : Shape m P A) {π : List ℕ} (hX : A.at? π = some X) (hπ : π = [] ∨ ∃ k, π = [k]) :
    getChild X.label.t X.label.s A = some X ∧ ∀ f, updChild X.label.t X.label.s f A = Tree.updAt f π A := by
  rcases hπ with rfl | ⟨k, rfl⟩
  · rw [Tree.at?] at hX
    cases hX
    unfold getChild getChildOrThis updChild
    rw [isBlock_self, if_pos rfl]
    refine ⟨rfl, fun f => ?_⟩
    rw [if_pos rfl, Tree.updAt]
  · have hk := at_single hX
    have hself : A.label.isBlock X.label.t X.label.s = false := by
      by_contra hc
      have := h.unique hX (show A.at? [] = some A by rw [Tree.at?]) (isBlock_self _) (by simpa using hc)
      exact absurd this (by simp)
    have huniq : ∀ k' Y, A.children[k']? = some Y → Y.label.isBlock X.label.t X.label.s = true → k' = k := by
      intro k' Y hY hb
      have hat : A.at? [k'] = some Y := by
        rw [Tree.at?, hY]
        simp [Tree.at?]
      have := h.unique hat hX hb (isBlock_self _)
      simpa using this
    unfold getChild getChildOrThis updChild
    rw [hself]
    simp only [Bool.false_eq_true, if_false]
    constructor
    · cases hf : A.children.find? (fun c => c.label.isBlock X.label.t X.label.s) with
      | none =>
        have := List.find?_eq_none.1 hf X (List.mem_of_getElem? hk)
        rw [isBlock_self] at this
        exact absurd rfl this
      | some Y =>
        have hb := List.find?_some hf
        obtain ⟨k', hk', e⟩ := List.mem_iff_getElem.1 (List.mem_of_find?_eq_some hf)
        have hY : A.children[k']? = some Y := by rw [List.getElem?_eq_getElem hk', e]
        have := huniq k' Y hY hb
        subst this
        rw [hk] at hY
        exact hY.symm
    · intro f
      cases hf : A.children.findIdx? (fun c => c.label.isBlock X.label.t X.label.s) with
      | none =>
        have := List.findIdx?_eq_none_iff.1 hf X (List.mem_of_getElem? hk)
        rw [isBlock_self] at this
        exact absurd this (by simp)
      | some k' =>
        obtain ⟨hlt, hb, -⟩ := List.findIdx?_eq_some_iff_getElem.1 hf
        have := huniq k' _ (List.getElem?_eq_getElem hlt) hb
        subst this
        rfl

/-- `get_child_or_this` finds the blocks the loops of the product ask for. -/
theorem Shape.focusC (h : Shape m P A) (t1 : A.label.t.Flat) (t2 : A.label.s.Flat) {bad : Bool} (hb : A.bad = true → bad = true)
    (hf : bad = true ∨ A.isHier = true) {p q : ClusterTree G} (hp : p ∈ clList bad A.label.t) (hq : q ∈ clList bad A.label.s)
    (hk : m.keep p q = true) :
    ∃ X, Shape m P X ∧ X.label.t = p ∧ X.label.s = q ∧ X.ht ≤ A.ht ∧ (bad = false ∨ A.bad = true → X.ht < A.ht) ∧ getChild p q A = some X ∧
      ∀ (f : FTree G R → Option (FTree G R)) (P' : FNode G R → Prop) (X' : FTree G R), f X = some X' → Shape m P' X' →
        X'.label.t = p → X'.label.s = q → X'.ht ≤ X.ht → (∀ n, P n → (n.data = .hier ∨ n.Disj X.label) → P' n) →
        ∃ A', updChild p q f A = some A' ∧ Shape m P' A' ∧ A'.label.t = A.label.t ∧ A'.label.s = A.label.s ∧ A'.ht ≤ A.ht ∧
          (bad = true ∨ A'.isHier = true) := by
  obtain ⟨π, X, hX, e1, e2, hlt, hπ⟩ := h.list_existsC t1 t2 hb hf hp hq hk
  obtain ⟨g1, g2⟩ := h.getChild_eq hX hπ
  rw [e1, e2] at g1 g2
  have hle : X.ht ≤ A.ht := by
    rcases Tree.ht_pre (Tree.at_mem_pre hX) with e | e
    · rw [e]
    · exact Nat.le_of_lt e
  refine ⟨X, h.sub (Tree.at_mem_pre hX), e1, e2, hle, hlt, g1, ?_⟩
  intro f P' X' hfX hs ht hS hht hP
  obtain ⟨A', u1, u2, u3, u4, u5, u6⟩ := h.updAt hX hfX hs (ht.trans e1.symm) (hS.trans e2.symm) hht hP
  refine ⟨A', by rw [g2]; exact u1, u2, u3, u4, u5, ?_⟩
  cases bad with
  | true => exact Or.inl rfl
  | false =>
    right
    have hh := hf.resolve_left (by simp)
    have hne : π ≠ [] := by
      rintro rfl
      rw [Tree.at?] at hX
      cases hX
      exact absurd (hlt (Or.inl rfl)) (by omega)
    unfold FTree.isHier at hh ⊢
    rw [u6 hne]; exact hh

/-- A block which is not stored is not found. -/
theorem Shape.getChild_none (h : Shape m P A) (hk : m.keep A.label.t A.label.s = true) {p q : ClusterTree G} (hn : m.keep p q = false) :
    getChild p q A = none := by
  have key : ∀ n : FNode G R, n.isBlock p q = true → m.keep n.t n.s = true → False := by
    intro n hb hk
    obtain ⟨e1, e2, -⟩ := isBlock_eq hb
    have e : m.keep n.t n.s = m.keep p q := by
      unfold ClusterTree.iv at e1 e2
      have a1 := congrArg Prod.fst e1
      have a2 := congrArg Prod.snd e1
      have a3 := congrArg Prod.fst e2
      have a4 := congrArg Prod.snd e2
      simp only at a1 a2 a3 a4
      unfold Mask.keep ClusterTree.fin
      cases m <;> simp only [a1, a2, a3, a4]
    rw [hk, hn] at e
    exact absurd e (by simp)
  unfold getChild getChildOrThis
  rw [if_neg fun hb => key _ hb hk, List.find?_eq_none]
  intro Y hY hb
  refine key _ hb ?_
  have hh := h.hier_of_child hY
  have := List.mem_map_of_mem (f := fun c : FTree G R => (c.label.t, c.label.s)) hY
  rw [(h.self.split hh).2, List.mem_filter] at this
  exact this.2

/-! ## Changing the data of all blocks -/

theorem children_map {α β : Type*} (f : α → β) (t : Tree α) : (t.map f).children = t.children.map (Tree.map f) := by
  cases t with
  | node a cs => rw [Tree.map_node]; rfl

theorem ht_map {α β : Type*} (f : α → β) (t : Tree α) : (t.map f).ht = t.ht := by
  induction t using Tree.ind with
  | h a cs ih =>
    rw [Tree.map_node, Tree.ht, Tree.ht]
    congr 1
    have : ∀ l : List (Tree α), (∀ c ∈ l, (c.map f).ht = c.ht) → Tree.htL (l.map (Tree.map f)) = Tree.htL l := by
      intro l
      induction l with
      | nil => intro _; rfl
      | cons c l ihl =>
        intro hl
        rw [List.map_cons, Tree.htL, Tree.htL, hl c (by simp), ihl fun d hd => hl d (by simp [hd])]
    exact this cs ih

theorem Shape.mapData {P P' : FNode G R → Prop} (h : Shape m P A) (g : FNode G R → FNode G R) (ht : ∀ n, (g n).t = n.t) (hs : ∀ n, (g n).s = n.s)
    (hh : ∀ n, (g n).data = .hier ↔ n.data = .hier) (hP : ∀ X ∈ A.pre, P X.label → P' (g X.label)) : Shape m P' (A.map g) := by
  intro Y hY
  rw [pre_map, List.mem_map] at hY
  obtain ⟨X, hX, rfl⟩ := hY
  have b := h X hX
  have e : FTree.isHier (X.map g) = FTree.isHier X := by
    unfold FTree.isHier
    rw [label_map]
    have := hh X.label
    revert this
    cases (g X.label).data <;> cases X.label.data <;> simp
  have el : Tree.label (X.map g) = g X.label := label_map g X
  refine ⟨by rw [el]; exact hP X hX b.prop, by rw [el, ht]; exact b.clT, by rw [el, hs]; exact b.clS, fun hx => ?_, fun hx => ?_⟩
  · rw [e] at hx
    have := b.leaf hx
    refine ⟨by rw [children_map, this.1]; rfl, by rw [el, ht]; exact this.2.1, by rw [el, hs]; exact this.2.2⟩
  · rw [e] at hx
    have := b.split hx
    rw [el, ht, hs, children_map, List.map_map]
    refine ⟨this.1, ?_⟩
    rw [← this.2]
    apply List.map_congr_left
    intro c _
    show ((Tree.label (Tree.map g c)).t, (Tree.label (Tree.map g c)).s) = _
    rw [label_map, ht, hs]

end child

section linear
variable [CommRing R] {m : Mask} {ad : ClusterTree G → ClusterTree G → Prop} {M : ℕ → ℕ → R} {A : FTree G R}

/-- The body of `fscale`. -/
def scaleNode (a : R) (n : FNode G R) : FNode G R :=
  match n.data with
  | .dense D piv => { n with data := .dense (Mat.scale a D) piv }
  | .lowRank X => { n with data := .lowRank (X.scale a) }
  | .hier => n

theorem fscale_eq (a : R) (A : FTree G R) : fscale a A = A.map (scaleNode a) := rfl

theorem FNode.Has.sub {n : FNode G R} {i j : ℕ} (h : n.Has i j) : i - n.t.off < n.t.sz ∧ j - n.s.off < n.s.sz := by
  unfold FNode.Has ClusterTree.fin at h; omega

theorem scaleNode_fields (a : R) (n : FNode G R) : (scaleNode a n).t = n.t ∧ (scaleNode a n).s = n.s ∧ ((scaleNode a n).data = .hier ↔ n.data = .hier) ∧
    (scaleNode a n).sym = n.sym ∧ (scaleNode a n).symL = n.symL := by
  unfold scaleNode
  cases h : n.data <;> simp [h]

theorem Rep.fscale (h : Rep m ad M A) (a : R) : Rep m ad (fun i j => a * M i j) (Htool.fscale a A) := by
  rw [fscale_eq]
  refine Shape.mapData h _ (fun n => (scaleNode_fields a n).1) (fun n => (scaleNode_fields a n).2.1) (fun n => (scaleNode_fields a n).2.2.1) ?_
  intro X _ hp
  obtain ⟨h1, h2⟩ := hp
  refine ⟨?_, ?_⟩
  · unfold FNode.NoSym
    obtain ⟨e1, e2, -, e4, e5⟩ := scaleNode_fields a X.label
    rw [e1, e2, e4, e5]
    exact h1
  · unfold scaleNode
    cases hdat : X.label.data with
    | dense D p =>
      rw [hdat] at h2
      obtain ⟨d1, d2, d3⟩ := h2
      refine ⟨d1, d2, fun i j hi hm => ?_⟩
      have hi' : X.label.Has i j := hi
      have := hi'.sub
      show (Mat.scale a D).get (i - X.label.t.off) (j - X.label.s.off) = _
      rw [scale_get a D (by rw [d1]; exact this.1) (by rw [d2]; exact this.2), d3 i j hi' hm]
    | lowRank L =>
      rw [hdat] at h2
      obtain ⟨d0, d1, d2, d3, d4⟩ := h2
      have c := C28_scale a L d1
      refine ⟨d0, c.1, c.2.1.trans d2, c.2.2.1.trans d3, fun i j hi hm => ?_⟩
      have hi' : X.label.Has i j := hi
      have := hi'.sub
      show (LR.scale a L).entry (i - X.label.t.off) (j - X.label.s.off) = _
      refine (c.2.2.2 _ (by rw [d2]; exact this.1) _ (by rw [d3]; exact this.2)).trans ?_
      beta_reduce
      rw [d4 i j hi' hm]
    | hier => simp only [hdat]

theorem fscale_same (a : R) (A : FTree G R) : (fscale a A).label.t = A.label.t ∧ (fscale a A).label.s = A.label.s ∧ Tree.ht (fscale a A) = A.ht ∧
    (fscale a A).isHier = A.isHier := by
  rw [fscale_eq]
  have el : Tree.label (A.map (scaleNode a)) = scaleNode a A.label := label_map _ A
  refine ⟨by rw [el, (scaleNode_fields a A.label).1], by rw [el, (scaleNode_fields a A.label).2.1], ht_map _ _, ?_⟩
  unfold FTree.isHier
  rw [el]
  have := (scaleNode_fields a A.label).2.2.1
  revert this
  cases (scaleNode a A.label).data <;> cases A.label.data <;> simp

/-! ## Adding a low-rank matrix to all blocks -/

/-- A low-rank matrix with the entries of `V` on a block, or a temporary which was never filled. -/
def LR.On (L : LR R) (p q : ClusterTree G) (V : ℕ → ℕ → R) : Prop :=
  L.IsMat p.sz q.sz (rel V p.off q.off) ∨ ((∃ m' n', L = nilLR R m' n') ∧ ∀ i j, (p.off ≤ i ∧ i < p.fin) → (q.off ≤ j ∧ j < q.fin) → V i j = 0)

theorem loop2_zero_left (n : ℕ) (idx : ℕ → ℕ → ℕ) (val : ℕ → ℕ → R) (out : Buf R) : loop2 0 n idx val out = out := rfl
theorem loop2_zero_right (m : ℕ) (idx : ℕ → ℕ → ℕ) (val : ℕ → ℕ → R) (out : Buf R) : loop2 m 0 idx val out = out := by
  unfold loop2
  simp

/-- The sizes of an empty low-rank matrix play no role in a sum. -/
theorem addLR_nil (rc : LR R → LR R) (m n m' n' : ℕ) (xt xs : ℕ × ℕ) (Y : LR R) (yt ys : ℕ × ℕ) :
    LR.addLR rc (nilLR R m n) xt xs Y yt ys = LR.addLR rc (nilLR R m' n') xt xs Y yt ys := by
  have u : ∀ a b, (nilLR R a b).U.nc = 0 := fun _ _ => rfl
  have v : ∀ a b, (nilLR R a b).V.nr = 0 := fun _ _ => rfl
  have r : ∀ a b, (nilLR R a b).rank = 0 := fun _ _ => rfl
  unfold LR.addLR
  simp only [u, v, r, loop2_zero_left, loop2_zero_right]

theorem addLRDense_get {L : LR R} {p q : ClusterTree G} {V : ℕ → ℕ → R} (hL : L.On p q V) {D : Mat R} {ro co m n : ℕ} (h1 : D.nr = m) (h2 : D.nc = n)
    (hr : ro + m ≤ p.sz) (hc : co + n ≤ q.sz) [StarRing R] :
    (addLRDense L ro co m n D).Is m n (fun i j => V (p.off + ro + i) (q.off + co + j) + D.get i j) := by
  refine ⟨h1, h2, fun i hi j hj => ?_⟩
  unfold addLRDense
  show gemm _ _ _ _ _ _ _ _ _ _ _ _ _ (i + j * D.nr) = _
  rw [h1, gemm_pos hi hi hj, one_mul, one_mul]
  have hd : D.data (i + j * m) = D.get i j := by unfold Mat.get; rw [h1]
  rw [hd]
  congr 1
  rcases hL with hL | ⟨⟨m', n', rfl⟩, hz⟩
  · have hV := hL.2.2.2 (ro + i) (by omega) (co + j) (by omega)
    have : V (p.off + ro + i) (q.off + co + j) = rel V p.off q.off (ro + i) (co + j) := by
      unfold rel; rw [Nat.add_assoc, Nat.add_assoc]
    rw [this, ← hV]
    unfold LR.entry
    refine sum_congr rfl fun l hl => ?_
    have hl := mem_range.1 hl
    have hwf : L.V.nr = L.U.nc := hL.1
    have hU : (fun d i => copyTo m L.U.data (L.U.nr * i + ro) d (m * i)) = fun d i => copyTo m L.U.data (L.U.nr * i + ro) d (m * i) := rfl
    have key : ∀ k (d : Buf R), ∀ l < k, (List.range k).foldl (fun d i => copyTo m L.U.data (L.U.nr * i + ro) d (m * i)) d (i + l * m) =
        L.U.data (ro + i + l * L.U.nr) := by
      intro k d
      induction k with
      | zero => intro l hl; omega
      | succ k ih =>
        intro l hl
        rw [List.range_succ, List.foldl_append, List.foldl_cons, List.foldl_nil]
        by_cases e : l = k
        · subst e
          have : m * l ≤ i + l * m ∧ i + l * m < m * l + m := by rw [Nat.mul_comm l m]; omega
          rw [copyTo_in this]
          congr 1
          rw [Nat.mul_comm l m, Nat.add_sub_cancel, Nat.mul_comm l]; omega
        · rw [copyTo_out, ih l (by omega)]
          have : (l + 1) * m ≤ k * m := Nat.mul_le_mul_right _ (by omega)
          rw [Nat.add_mul] at this
          rw [Nat.mul_comm m k]; omega
    show ldM m _ i l * ldM L.rank (L.V.data.from' (co * L.V.nr)) l j = L.U.get (ro + i) l * L.V.get l (co + j)
    congr 1
    · unfold ldM; rw [Nat.mul_comm m l]; exact key _ _ l hl
    · unfold ldM Buf.from'
      rw [Nat.mul_comm L.rank j]
      show L.V.data (co * L.V.nr + (l + j * L.rank)) = L.V.data (l + (co + j) * L.V.nr)
      congr 1
      rw [Nat.add_mul, hwf]; show _ + (_ + _ * L.U.nc) = _; omega
  · rw [hz _ _ (by unfold ClusterTree.fin; omega) (by unfold ClusterTree.fin; omega)]
    exact sum_range_zero _

variable [StarRing R] [DecidableEq R] {E : LinOps R}

/-- The body of `addLRH`. -/
def addNode (E : LinOps R) (L : LR R) (t s : ClusterTree G) (n : FNode G R) : FNode G R :=
  match n.data with
  | .dense D piv => { n with data := .dense (addLRDense L (n.t.off - t.off) (n.s.off - s.off) n.t.sz n.s.sz D) piv }
  | .lowRank X => { n with data := .lowRank (LR.addLR E.rc L t.iv s.iv X n.t.iv n.s.iv) }
  | .hier => n

theorem addLRH_eq (L : LR R) (C : FTree G R) : addLRH E L C = C.map (addNode E L C.label.t C.label.s) := rfl

theorem addNode_fields (L : LR R) (t s : ClusterTree G) (n : FNode G R) : (addNode E L t s n).t = n.t ∧ (addNode E L t s n).s = n.s ∧
    ((addNode E L t s n).data = .hier ↔ n.data = .hier) ∧ (addNode E L t s n).sym = n.sym ∧ (addNode E L t s n).symL = n.symL := by
  unfold addNode
  cases h : n.data <;> simp [h]

theorem Rep.addLRH (hE : E.Exact) {C : FTree G R} (h : Rep m ad M C) {L : LR R} {V : ℕ → ℕ → R} (hL : L.On C.label.t C.label.s V) :
    Rep m ad (fun i j => V i j + M i j) (Htool.addLRH E L C) := by
  rw [addLRH_eq]
  refine Shape.mapData h _ (fun n => (addNode_fields L _ _ n).1) (fun n => (addNode_fields L _ _ n).2.1) (fun n => (addNode_fields L _ _ n).2.2.1) ?_
  intro X hX hp
  obtain ⟨h1, h2⟩ := hp
  have hd := Shape.pre_desc h hX
  have b1 := (Shape.self h).clT.desc_bounds hd.1
  have b2 := (Shape.self h).clS.desc_bounds hd.2.1
  refine ⟨?_, ?_⟩
  · unfold FNode.NoSym
    obtain ⟨e1, e2, -, e4, e5⟩ := addNode_fields (E := E) L C.label.t C.label.s X.label
    rw [e1, e2, e4, e5]
    exact h1
  · unfold addNode
    cases hdat : X.label.data with
    | dense D p =>
      rw [hdat] at h2
      obtain ⟨d1, d2, d3⟩ := h2
      have g := addLRDense_get hL (D := D) (ro := X.label.t.off - C.label.t.off) (co := X.label.s.off - C.label.s.off) d1 d2
        (by unfold ClusterTree.fin at b1; omega) (by unfold ClusterTree.fin at b2; omega)
      refine ⟨g.1, g.2.1, fun i j hi hm => ?_⟩
      have hi' : X.label.Has i j := hi
      have hs := hi'.sub
      refine (g.2.2 _ hs.1 _ hs.2).trans ?_
      beta_reduce
      rw [d3 i j hi' hm]
      congr 2 <;> (unfold FNode.Has at hi'; omega)
    | lowRank Y =>
      rw [hdat] at h2
      obtain ⟨d0, d1, d2, d3, d4⟩ := h2
      -- a low-rank matrix of the right size
      obtain ⟨L', hL', e⟩ : ∃ L' : LR R, L'.IsMat C.label.t.sz C.label.s.sz (rel V C.label.t.off C.label.s.off) ∧
          LR.addLR E.rc L C.label.t.iv C.label.s.iv Y X.label.t.iv X.label.s.iv = LR.addLR E.rc L' C.label.t.iv C.label.s.iv Y X.label.t.iv X.label.s.iv := by
        rcases hL with hL | ⟨⟨m', n', rfl⟩, hz⟩
        · exact ⟨L, hL, rfl⟩
        · refine ⟨nilLR R C.label.t.sz C.label.s.sz, IsMat.congr' (nilLR_is _ _) fun i hi j hj => ?_, addLR_nil _ _ _ _ _ _ _ _ _ _⟩
          exact (hz _ _ (by unfold ClusterTree.fin; omega) (by unfold ClusterTree.fin; omega)).symm
      obtain ⟨P, P1, P2, P3, -, P5, P6⟩ := C32_sum E.rc L' Y C.label.t.iv C.label.s.iv X.label.t.iv X.label.s.iv hL'.1 d1 hL'.2.1 hL'.2.2.1 d2 d3
        (Or.inr ⟨b1, b2⟩)
      have hP : P.IsMat X.label.t.sz X.label.s.sz P.entry := ⟨P1, P2.trans d2, P3.trans d3, fun _ _ _ _ => rfl⟩
      have hQ : (LR.addLR E.rc L C.label.t.iv C.label.s.iv Y X.label.t.iv X.label.s.iv).IsMat X.label.t.sz X.label.s.sz P.entry := by
        rw [e, P6]
        by_cases h0 : Y.rank = 0
        · rw [if_pos h0]; exact hP
        · rw [if_neg h0]; exact hE.rc P _ _ _ hP
      refine ⟨d0, hQ.1, hQ.2.1, hQ.2.2.1, fun i j hi hm => ?_⟩
      have hi' : X.label.Has i j := hi
      have hs := hi'.sub
      refine (hQ.2.2.2 _ hs.1 _ hs.2).trans ?_
      have hC := Shape.pre_has h hX hi'
      have := P5 i j hi'.1 hi'.2
      have e1 : X.label.t.iv.1 = X.label.t.off := rfl
      have e2 : X.label.s.iv.1 = X.label.s.off := rfl
      rw [e1, e2] at this
      rw [this, d4 i j hi' hm, if_pos (show InCl C.label.t.iv i ∧ InCl C.label.s.iv j from hC), add_comm]
      congr 1
      have hv := hL'.2.2.2 (i - C.label.t.off) (by unfold FNode.Has ClusterTree.fin at hC; omega) (j - C.label.s.off)
        (by unfold FNode.Has ClusterTree.fin at hC; omega)
      refine hv.trans ?_
      unfold rel
      congr 1 <;> (unfold FNode.Has at hC; omega)
    | hier => simp only [hdat]

theorem addLRH_same (L : LR R) (C : FTree G R) : (addLRH E L C).label.t = C.label.t ∧ (addLRH E L C).label.s = C.label.s ∧
    Tree.ht (addLRH E L C) = C.ht ∧ (addLRH E L C).isHier = C.isHier := by
  rw [addLRH_eq]
  have el : Tree.label (C.map (addNode E L C.label.t C.label.s)) = addNode E L C.label.t C.label.s C.label := label_map _ C
  have f := addNode_fields (E := E) L C.label.t C.label.s C.label
  refine ⟨by rw [el, f.1], by rw [el, f.2.1], ht_map _ _, ?_⟩
  unfold FTree.isHier
  rw [el]
  have := f.2.2.1
  revert this
  cases (addNode E L C.label.t C.label.s C.label).data <;> cases C.label.data <;> simp

end linear
end Htool
