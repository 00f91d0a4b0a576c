import Verif.HLinRep

/-! # Products of hierarchical matrices: lemmas -/

namespace Htool
variable {G R : Type*}
open Finset

/-! ## Matrices represented by trees of blocks -/

section rep
variable [CommRing R]

/-- No symmetry flag. -/
def FNode.NoSym (n : FNode G R) : Prop := n.sym = .N ∧ n.symL = .N

/-- One block contains the entries of `M` (cluster numbering) which are stored; `ad` says where low-rank data is allowed. -/
def RepP (m : Mask) (ad : ClusterTree G → ClusterTree G → Prop) (M : ℕ → ℕ → R) (n : FNode G R) : Prop :=
  (n.NoSym ∨ (m ≠ .full ∧ n.s.off < n.t.fin ∧ n.t.off < n.s.fin)) ∧
  match n.data with
  | .dense D _ => D.nr = n.t.sz ∧ D.nc = n.s.sz ∧ ∀ i j, n.Has i j → m.ok i j → D.get (i - n.t.off) (j - n.s.off) = M i j
  | .lowRank L => ad n.t n.s ∧ L.WF ∧ L.nr = n.t.sz ∧ L.nc = n.s.sz ∧ ∀ i j, n.Has i j → m.ok i j → L.entry (i - n.t.off) (j - n.s.off) = M i j
  | .hier => True

/-- The tree of blocks contains the matrix `M`. -/
def Rep (m : Mask) (ad : ClusterTree G → ClusterTree G → Prop) (M : ℕ → ℕ → R) (A : FTree G R) : Prop := Shape m (RepP m ad M) A

/-- Indices relative to a block. -/
def rel (M : ℕ → ℕ → R) (o o' : ℕ) : ℕ → ℕ → R := fun a b => M (o + a) (o' + b)

/-- A dense matrix with given size and entries. -/
def Mat.Is (D : Mat R) (m n : ℕ) (F : ℕ → ℕ → R) : Prop := D.nr = m ∧ D.nc = n ∧ ∀ i < m, ∀ j < n, D.get i j = F i j

variable {m : Mask} {ad : ClusterTree G → ClusterTree G → Prop} {M M' : ℕ → ℕ → R} {A X : FTree G R}

theorem RepP.congr {n : FNode G R} (h : RepP m ad M n) (he : ∀ i j, n.Has i j → m.ok i j → M i j = M' i j) : RepP m ad M' n := by
  obtain ⟨h1, h2⟩ := h
  refine ⟨h1, ?_⟩
  revert h2
  cases n.data with
  | dense D p => exact fun h => ⟨h.1, h.2.1, fun i j hi hm => (h.2.2 i j hi hm).trans (he i j hi hm)⟩
  | lowRank L => exact fun h => ⟨h.1, h.2.1, h.2.2.1, h.2.2.2.1, fun i j hi hm => (h.2.2.2.2 i j hi hm).trans (he i j hi hm)⟩
  | hier => exact fun h => h

/-- The hypothesis of `Shape.focus`. -/
theorem RepP.outside {n x : FNode G R} (he : ∀ i j, ¬ x.Has i j → m.ok i j → M i j = M' i j) (h : RepP m ad M n) (hn : n.data = .hier ∨ n.Disj x) : RepP m ad M' n := by
  rcases hn with hn | hn
  · refine ⟨h.1, ?_⟩
    rw [hn]; trivial
  · exact h.congr fun i j hi hm => he i j (fun hx => hn i j ⟨hi, hx⟩) hm

theorem Shape.imp {P P' : FNode G R → Prop} (h : Shape m P A) (hP : ∀ X ∈ A.pre, P X.label → P' X.label) : Shape m P' A := fun X hX =>
  let b := h X hX
  ⟨hP X hX b.prop, b.clT, b.clS, b.leaf, b.split⟩

theorem Rep.congr (h : Rep m ad M A) (he : ∀ i j, A.label.Has i j → m.ok i j → M i j = M' i j) : Rep m ad M' A :=
  Shape.imp h fun _ hX hp => hp.congr fun i j hi hm => he i j (Shape.pre_has h hX hi) hm

/-- A block in the stored half is entirely stored. -/
theorem Rep.full (h : Rep m ad M A) (hd : ∀ i j, A.label.Has i j → m.ok i j) (ho : A.label.t.fin ≤ A.label.s.off ∨ A.label.s.fin ≤ A.label.t.off) :
    Rep .full ad M A := by
  intro X hX
  have b := h X hX
  have hb := Shape.pre_desc h hX
  have b1 := (Shape.self h).clT.desc_bounds hb.1
  have b2 := (Shape.self h).clS.desc_bounds hb.2.1
  have kk : ∀ p q : ClusterTree G, X.label.t.Desc p → X.label.s.Desc q → m.keep p q = true := by
    intro p q hp hq
    have c1 := b.clT.desc_bounds hp
    have c2 := b.clS.desc_bounds hq
    have p1 := (b.clT.desc hp).sz_pos
    have p2 := (b.clS.desc hq).sz_pos
    have := hd (p.off) (q.off) (by unfold FNode.Has ClusterTree.fin at *; omega)
    cases m with
    | full => rfl
    | lower => simp only [Mask.keep, Mask.ok, decide_eq_true_eq] at *; unfold ClusterTree.fin; omega
    | upper => simp only [Mask.keep, Mask.ok, decide_eq_true_eq] at *; unfold ClusterTree.fin; omega
  refine ⟨?_, b.clT, b.clS, b.leaf, fun hh => ⟨(b.split hh).1, ?_⟩⟩
  · obtain ⟨p1, p2⟩ := b.prop
    refine ⟨Or.inl ?_, ?_⟩
    · rcases p1 with p1 | p1
      · exact p1
      · exfalso; omega
    · revert p2
      have hx : ∀ i j, X.label.Has i j → m.ok i j := fun i j hi => hd i j (Shape.pre_has h hX hi)
      cases X.label.data with
      | dense D p => exact fun h => ⟨h.1, h.2.1, fun i j hi _ => h.2.2 i j hi (hx i j hi)⟩
      | lowRank L => exact fun h => ⟨h.1, h.2.1, h.2.2.1, h.2.2.2.1, fun i j hi _ => h.2.2.2.2 i j hi (hx i j hi)⟩
      | hier => exact fun h => h
  · rw [(b.split hh).2]
    apply List.filter_congr
    intro x hx
    rw [mem_pairs] at hx
    have := subs_desc b.clT b.clS hx.1 hx.2
    rw [kk _ _ this.1 this.2.1]; rfl

theorem Rep.dense_is (h : Rep .full ad M A) {D : Mat R} {p : List ℕ} (hd : A.label.data = .dense D p) :
    D.Is A.label.t.sz A.label.s.sz (rel M A.label.t.off A.label.s.off) := by
  obtain ⟨-, h2⟩ := (Shape.self h).prop
  rw [hd] at h2
  refine ⟨h2.1, h2.2.1, fun i hi j hj => ?_⟩
  have := h2.2.2 (A.label.t.off + i) (A.label.s.off + j) (by unfold FNode.Has ClusterTree.fin; omega) trivial
  rw [Nat.add_sub_cancel_left, Nat.add_sub_cancel_left] at this
  exact this

theorem Rep.lowRank_is (h : Rep .full ad M A) {L : LR R} (hd : A.label.data = .lowRank L) :
    L.IsMat A.label.t.sz A.label.s.sz (rel M A.label.t.off A.label.s.off) := by
  obtain ⟨-, h2⟩ := (Shape.self h).prop
  rw [hd] at h2
  refine ⟨h2.2.1, h2.2.2.1, h2.2.2.2.1, fun i hi j hj => ?_⟩
  have := h2.2.2.2.2 (A.label.t.off + i) (A.label.s.off + j) (by unfold FNode.Has ClusterTree.fin; omega) trivial
  rw [Nat.add_sub_cancel_left, Nat.add_sub_cancel_left] at this
  exact this

end rep

/-! ## The leaves cover every entry once -/

section cover
variable {m : Mask} {P : FNode G R → Prop} {A X : FTree G R}

theorem tiles_ne_nil {a b : ℕ} {l : List (ℕ × ℕ)} (h : Tiles a b l) (hab : a < b) : l ≠ [] := by
  rintro rfl
  exact absurd (show a = b from h) (by omega)

theorem Shape.children_ne (h : Shape .full P A) (hh : A.isHier = true) : A.children ≠ [] := by
  obtain ⟨hl, hc⟩ := h.self.split hh
  obtain ⟨t1, t2⟩ := subs_tiles h.self.clT h.self.clS hl
  have p1 := h.self.clT.sz_pos
  have p2 := h.self.clS.sz_pos
  intro hn
  rw [hn] at hc
  have n1 := tiles_ne_nil t1 (by unfold ClusterTree.fin; omega)
  have n2 := tiles_ne_nil t2 (by unfold ClusterTree.fin; omega)
  obtain ⟨x, hx⟩ := List.exists_mem_of_ne_nil _ (fun h => n1 (by rw [h]; rfl) : (subs A.label.t A.label.s).1 ≠ [])
  obtain ⟨y, hy⟩ := List.exists_mem_of_ne_nil _ (fun h => n2 (by rw [h]; rfl) : (subs A.label.t A.label.s).2 ≠ [])
  have : (x, y) ∈ (pairs (subs A.label.t A.label.s).1 (subs A.label.t A.label.s).2).filter (fun x => Mask.full.keep x.1 x.2) := by
    rw [List.mem_filter, mem_pairs]; exact ⟨⟨hx, hy⟩, rfl⟩
  rw [← hc] at this
  simp at this

instance (n : FNode G R) (i j : ℕ) : Decidable (n.Has i j) := by unfold FNode.Has; infer_instance

theorem countP_pairs {α β : Type*} (l : List α) (l' : List β) (f : α → Bool) (g : β → Bool) :
    (pairs l l').countP (fun x => f x.1 && g x.2) = l.countP f * l'.countP g := by
  unfold pairs
  induction l with
  | nil => simp
  | cons a l ih =>
    rw [List.flatMap_cons, List.countP_append, ih, List.countP_map, List.countP_cons]
    by_cases h : f a = true
    · simp only [h, if_true]
      rw [show (((fun x : α × β => f x.1 && g x.2) ∘ fun b => (a, b)) : β → Bool) = g from by funext b; simp [h]]
      ring
    · simp only [Bool.not_eq_true] at h
      rw [show (((fun x : α × β => f x.1 && g x.2) ∘ fun b => (a, b)) : β → Bool) = (fun _ => false) from by funext b; simp [h]]
      simp [h]

theorem countP_flatMap_single {α β : Type*} (l : List α) (g : α → List β) (f : β → Bool) (c : α → Bool)
    (h : ∀ a ∈ l, (g a).countP f = if c a then 1 else 0) : (l.flatMap g).countP f = l.countP c := by
  induction l with
  | nil => rfl
  | cons a l ih =>
    rw [List.flatMap_cons, List.countP_append, ih (fun b hb => h b (by simp [hb])), h a (by simp), List.countP_cons, Nat.add_comm]

theorem Shape.children_count (h : Shape .full P A) (hh : A.isHier = true) (i j : ℕ) :
    A.children.countP (fun X => decide (X.label.Has i j)) = if A.label.Has i j then 1 else 0 := by
  obtain ⟨hl, hc⟩ := h.self.split hh
  obtain ⟨t1, t2⟩ := subs_tiles h.self.clT h.self.clS hl
  have e : A.children.countP (fun X => decide (X.label.Has i j)) = (A.children.map (fun c => (c.label.t, c.label.s))).countP
      (fun x => decide (x.1.off ≤ i ∧ i < x.1.fin) && decide (x.2.off ≤ j ∧ j < x.2.fin)) := by
    rw [List.countP_map]
    apply List.countP_congr
    intro X _
    rw [decide_eq_true_iff]
    simp only [Function.comp, Bool.and_eq_true, decide_eq_true_iff]
    exact Iff.rfl
  have hfil : (pairs (subs A.label.t A.label.s).1 (subs A.label.t A.label.s).2).filter (fun x => Mask.full.keep x.1 x.2) =
      pairs (subs A.label.t A.label.s).1 (subs A.label.t A.label.s).2 := List.filter_eq_self.2 fun _ _ => rfl
  rw [e, hc, hfil, countP_pairs _ _ (fun x : ClusterTree G => decide (x.off ≤ i ∧ i < x.fin)) (fun x : ClusterTree G => decide (x.off ≤ j ∧ j < x.fin))]
  have c1 := t1.countP i
  have c2 := t2.countP j
  rw [List.countP_map] at c1 c2
  rw [show ((fun iv => decide (InIv i iv)) ∘ ClusterTree.iv : ClusterTree G → Bool) = (fun x => decide (x.off ≤ i ∧ i < x.fin)) from rfl] at c1
  rw [show ((fun iv => decide (InIv j iv)) ∘ ClusterTree.iv : ClusterTree G → Bool) = (fun x => decide (x.off ≤ j ∧ j < x.fin)) from rfl] at c2
  rw [c1, c2]
  unfold FNode.Has
  by_cases h1 : A.label.t.off ≤ i ∧ i < A.label.t.fin <;> by_cases h2 : A.label.s.off ≤ j ∧ j < A.label.s.fin <;> simp [h1, h2]

theorem Shape.leaves_count (h : Shape .full P A) (i j : ℕ) :
    A.leaves.countP (fun X => decide (X.label.Has i j)) = if A.label.Has i j then 1 else 0 := by
  induction A using Tree.ind with
  | h a cs ih =>
    by_cases hcs : cs = []
    · subst hcs
      show List.countP _ [_] = _
      rw [List.countP_singleton]
      by_cases hij : (Tree.node a []).label.Has i j
      · rw [if_pos (decide_eq_true hij)]; exact (if_pos hij).symm
      · rw [if_neg (by rw [decide_eq_true_iff]; exact hij)]; exact (if_neg hij).symm
    · rw [Tree.leaves_node_ne hcs, Tree.leavesL_eq]
      have hh : FTree.isHier (Tree.node a cs) = true := by
        by_contra hh
        exact hcs (h.self.leaf (by simpa using hh)).1
      rw [← h.children_count hh i j]
      apply countP_flatMap_single
      intro c hc
      rw [ih c hc (h.child hc)]
      simp

theorem Shape.leaf_data (h : Shape .full P A) (hX : X ∈ A.leaves) : X.isHier = false := by
  obtain ⟨h1, h2⟩ := (Tree.mem_leaves_iff A X).1 hX
  by_contra hh
  exact (h.sub h1).children_ne (by simpa using hh) h2

end cover

/-! ## Products with a vector or a matrix -/

theorem leaves_map' {α β : Type*} (f : α → β) (t : Tree α) : (t.map f).leaves = t.leaves.map (Tree.map f) := by
  induction t using Tree.ind with
  | h a cs ih =>
    rw [Tree.map_node]
    by_cases hcs : cs = []
    · subst hcs; simp [Tree.leaves, Tree.map_node]
    · rw [Tree.leaves_node_ne (by simpa using hcs), Tree.leaves_node_ne hcs, Tree.leavesL_eq, Tree.leavesL_eq, List.flatMap_map, List.map_flatMap]
      exact List.flatMap_congr ih

theorem label_map {α β : Type*} (f : α → β) (t : Tree α) : (t.map f).label = f t.label := by
  cases t; rw [Tree.map_node]; rfl

theorem pre_map {α β : Type*} (f : α → β) (t : Tree α) : (t.map f).pre = t.pre.map (Tree.map f) := by
  induction t using Tree.ind with
  | h a cs ih =>
    rw [Tree.map_node, Tree.pre, Tree.pre, List.map_cons, Tree.map_node]
    congr 1
    have e : ∀ cs : List (Tree α), (∀ c ∈ cs, (c.map f).pre = c.pre.map (Tree.map f)) → Tree.preL (cs.map (Tree.map f)) = (Tree.preL cs).map (Tree.map f) := by
      intro cs
      induction cs with
      | nil => intro _; rfl
      | cons c cs ih2 =>
        intro hc
        rw [List.map_cons, Tree.preL, Tree.preL, List.map_append, hc c (by simp), ih2 (fun d hd => hc d (by simp [hd]))]
    exact e cs ih

section products
variable [CommRing R] [StarRing R]
variable {ad : ClusterTree G → ClusterTree G → Prop} {M M' : ℕ → ℕ → R} {A X : FTree G R}

theorem symLeavesG_none {α : Type*} (sy od : α → Bool) (t : Tree α) (h : ∀ x ∈ t.pre, sy x.label = false) : symLeavesG sy od false t = [] := by
  induction t using Tree.ind with
  | h a cs ih =>
    by_cases hcs : cs = []
    · subst hcs; rw [symLeavesG_leaf]; rfl
    · rw [symLeavesG_node _ _ _ _ hcs]
      have : sy a = false := h _ (Tree.mem_pre_self _)
      rw [this, List.flatMap_eq_nil_iff]
      exact fun c hc => ih c hc fun x hx => h x (Tree.mem_pre.2 (Or.inr ⟨c, hc, hx⟩))

theorem Rep.noSym (h : Rep .full ad M A) (hX : X ∈ A.pre) : X.label.NoSym := by
  rcases (h X hX).prop.1 with h | h
  · exact h
  · exact absurd rfl h.1

theorem Rep.noMirror (h : Rep .full ad M A) : (getLeavesH A.toH).2 = [] := by
  have hp := (getLeavesH_perm A.toH).2
  have h0 : A.toH.label.isSym = false := by
    unfold FTree.toH
    rw [label_map]
    have := (h.noSym (Tree.mem_pre_self A)).1
    simp [HNode.isSym, FNode.toH, this]
  rw [h0, symLeavesG_none] at hp
  · exact List.perm_nil.1 hp
  · intro x hx
    unfold FTree.toH at hx
    rw [pre_map] at hx
    obtain ⟨y, hy, rfl⟩ := List.mem_map.1 hx
    rw [label_map]
    have := (h.noSym hy).1
    simp [HNode.isSym, FNode.toH, this]

theorem Rep.fit (h : Rep .full ad M A) (cplx : Bool) : A.toH.Fit cplx .N where
  lab := by
    unfold FTree.toH
    rw [label_map]
    exact Or.inl (h.noSym (Tree.mem_pre_self A)).2
  leafOK l hl := by
    unfold FTree.toH at hl
    rw [leaves_map'] at hl
    obtain ⟨x, hx, rfl⟩ := List.mem_map.1 hl
    have hxp := ((Tree.mem_leaves_iff A x).1 hx).1
    have hs := (h.noSym hxp).1
    have hd := Shape.leaf_data h hx
    rw [label_map]
    refine ⟨?_, Or.inl hs, fun h => absurd hs h, fun h => absurd hs h, fun h => ?_⟩
    · unfold FTree.isHier at hd
      show x.label.data.toH ≠ .hier
      revert hd
      cases x.label.data <;> simp [FData.toH]
    · exact absurd (hs.symm.trans h) (by simp)
  inside l hl := by
    unfold FTree.toH at hl ⊢
    rw [leaves_map'] at hl
    obtain ⟨x, hx, rfl⟩ := List.mem_map.1 hl
    have hxp := ((Tree.mem_leaves_iff A x).1 hx).1
    obtain ⟨h1, h2, -⟩ := Shape.pre_desc h hxp
    rw [label_map, label_map]
    exact ⟨(Shape.self h).clT.desc_bounds h1, (Shape.self h).clS.desc_bounds h2⟩
  mirror l hl := by rw [h.noMirror] at hl; simp at hl

theorem FNode.toH_has (n : FNode G R) (i j : ℕ) : n.toH.Has i j ↔ n.Has i j := Iff.rfl

theorem Rep.leaf_val (h : Rep .full ad M A) (hX : X ∈ A.leaves) {i j : ℕ} (hi : X.label.Has i j) :
    X.label.toH.val (i - X.label.t.off) (j - X.label.s.off) = M i j ∧ X.label.toH.raw (i - X.label.t.off) (j - X.label.s.off) = M i j := by
  have hxp := ((Tree.mem_leaves_iff A X).1 hX).1
  have hs := (h.noSym hxp).1
  have hd := Shape.leaf_data h hX
  obtain ⟨-, h2⟩ := (h X hxp).prop
  unfold FTree.isHier at hd
  have hs' : X.label.toH.sym = .N := hs
  have e : X.label.toH.data = X.label.data.toH := rfl
  unfold HNode.val HNode.raw
  rw [e, hs']
  revert h2 hd
  cases X.label.data with
  | dense D p => exact fun _ h2 => ⟨h2.2.2 i j hi trivial, h2.2.2 i j hi trivial⟩
  | lowRank L => exact fun _ h2 => ⟨h2.2.2.2.2 i j hi trivial, h2.2.2.2.2 i j hi trivial⟩
  | hier => exact fun hd _ => absurd hd (by simp)

theorem Rep.represents (h : Rep .full ad M A) : A.toH.Represents M where
  own l hl i j hij := by
    have hl := (getLeavesH_perm A.toH).1.mem_iff.1 hl
    unfold FTree.toH at hl
    rw [leaves_map'] at hl
    obtain ⟨x, hx, rfl⟩ := List.mem_map.1 hl
    rw [label_map] at hij ⊢
    exact (h.leaf_val hx hij).1
  mirror l hl := by rw [h.noMirror] at hl; simp at hl
  flag hne := absurd h.noMirror hne
  cover i j hij := by
    rw [h.noMirror, List.countP_nil, Nat.add_zero, (getLeavesH_perm A.toH).1.countP_eq]
    have e : A.toH.leaves = A.leaves.map (Tree.map FNode.toH) := leaves_map' _ _
    rw [e, List.countP_map]
    have := Shape.leaves_count h i j
    unfold FTree.toH at hij
    rw [label_map] at hij
    rw [if_pos (show A.label.Has i j from hij)] at this
    refine Eq.trans ?_ this
    apply List.countP_congr
    intro x _
    simp only [Function.comp, decide_eq_true_eq]
    rw [label_map]
    exact Iff.rfl

theorem toH_label (A : FTree G R) : A.toH.label = A.label.toH := by unfold FTree.toH; rw [label_map]

theorem Rep.mat_eq (h : Rep .full ad M A) {a b : ℕ} (ha : a < A.label.t.sz) (hb : b < A.label.s.sz) :
    A.toH.mat a b = rel M A.label.t.off A.label.s.off a b := by
  unfold HTree.mat
  rw [h.represents.entry_eq]
  · rw [toH_label]; rfl
  · rw [toH_label]
    show A.label.Has _ _
    have : A.label.toH.toff = A.label.t.off ∧ A.label.toH.soff = A.label.s.off := ⟨rfl, rfl⟩
    rw [this.1, this.2]
    unfold FNode.Has ClusterTree.fin; omega

/-- The product with a row-major matrix, for a represented matrix. -/
theorem Rep.seqRM (h : Rep .full ad M A) {cplx : Bool} (hreal : cplx = false → RealType R) (tr : Trans) [DecidableEq R] (α β : R) (x y : Buf R) {mu c : ℕ}
    (hc : c < mu) (i : ℕ) : Htool.seqRM cplx tr α A.toH x β y mu (i * mu + c) =
      if i < opRows tr A.label.t.sz A.label.s.sz then
        β * y (i * mu + c) + α * ∑ j ∈ range (opCols tr A.label.t.sz A.label.s.sz),
          opE tr (rel M A.label.t.off A.label.s.off) i j * x (j * mu + c)
      else y (i * mu + c) := by
  rw [C22_row_major_product hreal (h.fit cplx) (show Supported R .N tr from trivial) α β x y hc i, toH_label]
  show (if i < opRows tr A.label.t.sz A.label.s.sz then _ else _) = _
  by_cases hi : i < opRows tr A.label.t.sz A.label.s.sz
  · rw [if_pos hi, if_pos hi]
    congr 2
    refine sum_congr rfl fun j hj => ?_
    have hj : j < opCols tr A.label.t.sz A.label.s.sz := mem_range.1 hj
    congr 1
    cases tr with
    | N => exact h.mat_eq hi hj
    | T => exact h.mat_eq hj hi
    | C => exact congrArg star (h.mat_eq hj hi)
  · rw [if_neg hi, if_neg hi]

/-! ## Products with dense and low-rank matrices -/

/-- Nothing is truncated: recompression and compression keep the matrix. (A contract on the arguments of the model; it holds when epsilon is 0, see
`exact_ops_exist` and `C31`, `C55`.) `real`: conjugation is trivial for a real coefficient type. -/
structure LinOps.Exact (E : LinOps R) : Prop where
  real : E.cplx = false → RealType R
  rc : ∀ (L : LR R) (m n : ℕ) (F : ℕ → ℕ → R), L.IsMat m n F → (E.rc L).IsMat m n F
  cmp : ∀ (D : Mat R) (old : LR R), (E.cmp D old).IsMat D.nr D.nc D.get

variable [DecidableEq R] {E : LinOps R}

theorem data_of_get (D : Mat R) (i j : ℕ) : D.data (j * D.nr + i) = D.get i j := by unfold Mat.get; rw [Nat.add_comm]

theorem transpose_data (A : Mat R) {i j : ℕ} (hi : i < A.nr) (hj : j < A.nc) :
    (Mat.transpose A (Mat.mk' A.nc A.nr 0)).data (i * A.nc + j) = A.get i j := by
  have := (C33_transpose A (Mat.mk' A.nc A.nr 0) rfl).2.2 i hi j hj
  rw [← this]
  unfold Mat.get
  rw [(C33_transpose A (Mat.mk' A.nc A.nr 0) rfl).1, Nat.add_comm]; rfl

/-- The row-major product applies `op` of a matrix, given in indices relative to the block. -/
def RMOp (E : LinOps R) (A : FTree G R) (tr : Trans) (F : ℕ → ℕ → R) : Prop :=
  ∀ (α β : R) (x y : Buf R) (mu c : ℕ), c < mu → ∀ i, Htool.seqRM E.cplx tr α A.toH x β y mu (i * mu + c) =
    if i < opRows tr A.label.t.sz A.label.s.sz then
      β * y (i * mu + c) + α * ∑ j ∈ range (opCols tr A.label.t.sz A.label.s.sz), opE tr F i j * x (j * mu + c)
    else y (i * mu + c)

theorem Rep.rmop (hE : E.cplx = false → RealType R) (hA : Rep .full ad M A) (tr : Trans) : RMOp E A tr (rel M A.label.t.off A.label.s.off) :=
  fun α β x y _ _ hc i => hA.seqRM hE tr α β x y hc i

theorem hmMat_gen {F : ℕ → ℕ → R} {ta : Trans} (hA : RMOp E A ta F) (tb : Trans) (α β : R) {B C : Mat R}
    (hin : opCols ta A.label.t.sz A.label.s.sz = opRows tb B.nr B.nc) (hr : C.nr = opRows ta A.label.t.sz A.label.s.sz)
    (hc : C.nc = opCols tb B.nr B.nc) :
    (hmMat E ta tb α A B β C).Is C.nr C.nc
      (prodE ta tb α F B.get (opCols ta A.label.t.sz A.label.s.sz) β C.get) := by
  unfold hmMat
  set x : Buf R := if tb = .N then (Mat.transpose B (Mat.mk' B.nc B.nr 0)).data
    else if tb = .C then conjBuf (B.nc * B.nr) B.data else B.data with hx
  have hxv : ∀ j < opRows tb B.nr B.nc, ∀ c < C.nc, x (j * C.nc + c) = opE tb B.get j c := by
    intro j hj c hcc
    rw [hx, hc]
    rw [hc] at hcc
    cases tb with
    | N => exact transpose_data B hj hcc
    | T =>
      show B.data (j * B.nr + c) = B.get c j
      exact data_of_get B c j
    | C =>
      show conjBuf (B.nc * B.nr) B.data (j * B.nr + c) = star (B.get c j)
      rw [conjBuf, if_pos, data_of_get]
      have hj : j < B.nc := hj
      have hcc : c < B.nr := hcc
      have : (j + 1) * B.nr ≤ B.nc * B.nr := Nat.mul_le_mul_right _ hj
      rw [Nat.add_mul] at this; omega
  have t := C33_transpose C (Mat.mk' C.nc C.nr 0) rfl
  set tC := Mat.transpose C (Mat.mk' C.nc C.nr 0) with htC
  have n1 : tC.nr = C.nc := t.1
  have n2 : tC.nc = C.nr := t.2.1
  have t' := C33_transpose { tC with data := Htool.seqRM E.cplx ta α A.toH x β tC.data tC.nr } C n2.symm
  refine ⟨t'.1, t'.2.1, fun i hi j hj => ?_⟩
  have := t'.2.2 j (by rw [show Mat.nr _ = tC.nr from rfl, n1]; exact hj) i (by rw [show Mat.nc _ = tC.nc from rfl, n2]; exact hi)
  rw [this]
  show Htool.seqRM E.cplx ta α A.toH x β tC.data tC.nr (j + i * tC.nr) = _
  rw [Nat.add_comm, hA α β x tC.data _ _ (by rw [n1]; exact hj) i, if_pos (by rw [← hr]; exact hi), n1]
  unfold prodE
  rw [add_comm]
  congr 1
  · congr 1
    refine sum_congr rfl fun l hl => ?_
    rw [hxv l (by rw [← hin]; exact mem_range.1 hl) j hj]
  · congr 1
    exact transpose_data C hi hj

theorem hmMat_is (hE : E.cplx = false → RealType R) (hA : Rep .full ad M A) (ta tb : Trans) (α β : R) {B C : Mat R}
    (hin : opCols ta A.label.t.sz A.label.s.sz = opRows tb B.nr B.nc) (hr : C.nr = opRows ta A.label.t.sz A.label.s.sz)
    (hc : C.nc = opCols tb B.nr B.nc) :
    (hmMat E ta tb α A B β C).Is C.nr C.nc
      (prodE ta tb α (rel M A.label.t.off A.label.s.off) B.get (opCols ta A.label.t.sz A.label.s.sz) β C.get) :=
  hmMat_gen (hA.rmop hE ta) tb α β hin hr hc

theorem conj_prod (ta : Trans) (α : R) (n : ℕ) (f g : ℕ → R) (β c : R) :
    star (star β * star c + star α * ∑ j ∈ range n, f j * g j) = β * c + α * ∑ j ∈ range n, star (f j) * star (g j) := by
  rw [star_add, star_mul', star_mul', star_star, star_star, star_star]
  congr 2
  rw [star_sum]
  exact sum_congr rfl fun j _ => star_mul' _ _

theorem idx_lt' {a b n m : ℕ} (hb : b < n) (ha : a < m) : a * n + b < m * n := by
  have : (a + 1) * n ≤ m * n := Nat.mul_le_mul_right _ ha
  rw [Nat.add_mul] at this; omega

/-- What the product of a dense matrix by an H-matrix needs: the row-major product applies the operation the code chooses, and the matrix is
symmetric or hermitian if the block says so. -/
structure MHOp (E : LinOps R) (B : FTree G R) (ta tb : Trans) (F : ℕ → ℕ → R) : Prop where
  op : RMOp E B (matHmTrans tb B.label.symL) F
  square : tb = .N → B.label.symL = .S ∨ B.label.symL = .H → B.label.t.sz = B.label.s.sz
  sym : tb = .N → B.label.symL = .S → ∀ i < B.label.t.sz, ∀ j < B.label.t.sz, F i j = F j i
  herm : tb = .N → B.label.symL = .H → (∀ i < B.label.t.sz, ∀ j < B.label.t.sz, F i j = star (F j i)) ∧ (ta = .N ∨ RealType R)

theorem Rep.mhop (hE : E.cplx = false → RealType R) {B : FTree G R} (hB : Rep .full ad M B) (ta tb : Trans) :
    MHOp E B ta tb (rel M B.label.t.off B.label.s.off) := by
  have hs : B.label.symL = .N := (hB.noSym (Tree.mem_pre_self B)).2
  refine ⟨hB.rmop hE _, fun _ h => ?_, fun _ h => ?_, fun _ h => ?_⟩ <;> rw [hs] at h <;> simp at h

theorem matHm_gen {F : ℕ → ℕ → R} {B : FTree G R} {ta tb : Trans} (hB : MHOp E B ta tb F) (α β : R) {A C : Mat R}
    (hin : opCols ta A.nr A.nc = opRows tb B.label.t.sz B.label.s.sz) (hr : C.nr = opRows ta A.nr A.nc)
    (hc : C.nc = opCols tb B.label.t.sz B.label.s.sz) :
    (matHm E ta tb α A B β C).Is C.nr C.nc (prodE ta tb α A.get F (opCols ta A.nr A.nc) β C.get) := by
  set nt := matHmTrans tb B.label.symL with hnt
  have hdim : opRows nt B.label.t.sz B.label.s.sz = C.nc ∧ opCols nt B.label.t.sz B.label.s.sz = opRows tb B.label.t.sz B.label.s.sz := by
    rw [hc, hnt]
    unfold matHmTrans
    by_cases htb : tb = .N
    · by_cases hs : B.label.symL = .H ∨ B.label.symL = .S
      · have := hB.square htb hs.symm
        rw [if_pos htb, if_pos hs, htb]
        unfold opRows opCols
        exact ⟨this, this.symm⟩
      · rw [if_pos htb, if_neg hs, htb]; exact ⟨rfl, rfl⟩
    · rw [if_neg htb]; unfold opRows opCols; rw [if_neg htb, if_neg htb]; exact ⟨rfl, rfl⟩
  -- the transposed product, for an input which contains `op(A)` up to conjugation
  have plain : ∀ x : Buf R, (∀ j < C.nc, ∀ l < opRows tb B.label.t.sz B.label.s.sz, opE nt F j l = opE tb F l j) →
      (∀ l < opCols ta A.nr A.nc, ∀ i < C.nr, x (l * C.nr + i) = opE ta A.get i l) →
      ({ C with data := Htool.seqRM E.cplx nt α B.toH x β C.data C.nr } : Mat R).Is C.nr C.nc
        (prodE ta tb α A.get F (opCols ta A.nr A.nc) β C.get) := by
    intro x hF hx
    refine ⟨rfl, rfl, fun i hi j hj => ?_⟩
    show Htool.seqRM _ _ _ _ _ _ _ _ (i + j * C.nr) = _
    rw [Nat.add_comm, hB.op α β x C.data _ _ hi j, hdim.1, if_pos hj, hdim.2, hin]
    unfold prodE
    rw [add_comm]
    congr 1
    · congr 1
      refine sum_congr rfl fun l hl => ?_
      have hl := mem_range.1 hl
      rw [hx l (by rw [hin]; exact hl) i hi, mul_comm, hF j hj l hl]
    · rw [data_of_get]
  have conj : ∀ x : Buf R, (∀ j < C.nc, ∀ l < opRows tb B.label.t.sz B.label.s.sz, star (opE nt F j l) = opE tb F l j) →
      (∀ l < opCols ta A.nr A.nc, ∀ i < C.nr, x (l * C.nr + i) = star (opE ta A.get i l)) →
      ({ C with data := conjBuf (C.nr * C.nc) (Htool.seqRM E.cplx nt (star α) B.toH x (star β)
        (conjBuf (C.nr * C.nc) C.data) C.nr) } : Mat R).Is C.nr C.nc
        (prodE ta tb α A.get F (opCols ta A.nr A.nc) β C.get) := by
    intro x hF hx
    refine ⟨rfl, rfl, fun i hi j hj => ?_⟩
    show conjBuf _ _ (i + j * C.nr) = _
    have hidx : i + j * C.nr < C.nr * C.nc := mat_idx_lt hi hj
    rw [conjBuf, if_pos hidx, Nat.add_comm, hB.op (star α) (star β) x _ _ _ hi j, hdim.1, if_pos hj, hdim.2, hin]
    rw [conjBuf, if_pos (show j * C.nr + i < C.nr * C.nc by omega), conj_prod ta]
    unfold prodE
    rw [add_comm]
    congr 1
    · congr 1
      refine sum_congr rfl fun l hl => ?_
      have hl := mem_range.1 hl
      rw [hx l (by rw [hin]; exact hl) i hi, star_star, mul_comm, hF j hj l hl]
    · rw [data_of_get]
  -- what the operation chosen by the code gives
  have ntC : tb ≠ .N → nt = .N := fun h => by rw [hnt]; exact if_neg h
  have fT : tb = .T → ∀ j l, opE nt F j l = opE tb F l j := fun h j l => by rw [ntC (by rw [h]; simp), h]; rfl
  have fC : tb = .C → ∀ j l, star (opE nt F j l) = opE tb F l j := fun h j l => by rw [ntC (by rw [h]; simp), h]; rfl
  have fH : tb = .N → B.label.symL = .H → ∀ j < C.nc, ∀ l < opRows tb B.label.t.sz B.label.s.sz, star (opE nt F j l) = opE tb F l j := by
    intro h hs j hj l hl
    have hn : nt = .N := by rw [hnt]; unfold matHmTrans; rw [if_pos h, if_pos (Or.inl hs)]
    rw [hc] at hj
    have q := hB.square h (Or.inr hs)
    have f := (hB.herm h hs).1
    rw [hn]
    subst h
    have hj : j < B.label.s.sz := hj
    have hl : l < B.label.t.sz := hl
    exact (f l hl j (by omega)).symm
  have fN : tb = .N → B.label.symL ≠ .H ∨ RealType R →
      ∀ j < C.nc, ∀ l < opRows tb B.label.t.sz B.label.s.sz, opE nt F j l = opE tb F l j := by
    intro h hs j hj l hl
    by_cases hH : B.label.symL = .H
    · rw [← fH h hH j hj l hl]
      exact (hs.resolve_left (fun k => k hH) _).symm
    by_cases hS : B.label.symL = .S
    · have hn : nt = .N := by rw [hnt]; unfold matHmTrans; rw [if_pos h, if_pos (Or.inr hS)]
      rw [hc] at hj
      have q := hB.square h (Or.inl hS)
      have f := hB.sym h hS
      rw [hn]
      subst h
      have hj : j < B.label.s.sz := hj
      have hl : l < B.label.t.sz := hl
      exact f j (by omega) l hl
    · have hn : nt = .T := by rw [hnt]; unfold matHmTrans; rw [if_pos h, if_neg (by rintro (k | k); exacts [hH k, hS k])]
      rw [hn, h]; rfl
  unfold matHm
  dsimp only
  by_cases hta : ta = .N
  · subst hta
    rw [if_pos rfl]
    have hcn : C.nr = A.nr := hr
    by_cases htb : tb = .C ∨ (B.label.symL = .H ∧ tb = .N)
    · rw [if_pos htb]
      refine conj _ ?_ fun l hl i hi => ?_
      · rcases htb with h | h
        · exact fun j _ l _ => fC h j l
        · exact fH h.2 h.1
      have hl : l < A.nc := hl
      rw [hcn] at hi ⊢
      rw [conjBuf, if_pos (idx_lt' hi hl), data_of_get]; rfl
    · rw [if_neg htb]
      refine plain _ ?_ fun l hl i hi => ?_
      · intro j hj l hl
        by_cases h : tb = .N
        · exact fN h (Or.inl fun k => htb (Or.inr ⟨k, h⟩)) j hj l hl
        · refine fT ?_ j l
          cases tb with
          | N => exact absurd rfl h
          | T => rfl
          | C => exact absurd (Or.inl rfl) htb
      rw [hcn, data_of_get]; rfl
  · rw [if_neg hta]
    have hcn : C.nr = A.nc := by rw [hr]; exact if_neg hta
    have hcl : opCols ta A.nr A.nc = A.nr := if_neg hta
    have t := C33_transpose A (Mat.mk' A.nc A.nr 0) rfl
    have d1 : (Mat.transpose A (Mat.mk' A.nc A.nr 0)).nr = A.nc := t.1
    have d2 : (Mat.transpose A (Mat.mk' A.nc A.nr 0)).nc = A.nr := t.2.1
    have hv : ∀ l < A.nr, ∀ i < A.nc, ∀ b : Bool,
        (if b then conjBuf (A.nc * A.nr) (Mat.transpose A (Mat.mk' A.nc A.nr 0)).data else (Mat.transpose A (Mat.mk' A.nc A.nr 0)).data)
          (l * A.nc + i) = if b then star (A.get l i) else A.get l i := by
      intro l hl i hi b
      cases b with
      | true =>
        simp only [if_true]
        rw [conjBuf, if_pos (by rw [Nat.mul_comm A.nc]; exact idx_lt' hi hl), transpose_data A hl hi]
      | false => exact transpose_data A hl hi
    rw [d1, d2]
    rw [hcn] at plain conj
    rw [hcl] at plain conj
    by_cases htb : tb = .C
    · rw [if_pos htb]
      have hb : (if (ta = .T ∧ tb = .C) ∨ (ta = .C ∧ tb ≠ .C) then conjBuf (A.nc * A.nr) (Mat.transpose A (Mat.mk' A.nc A.nr 0)).data
          else (Mat.transpose A (Mat.mk' A.nc A.nr 0)).data) =
          if (decide (ta = .T)) then conjBuf (A.nc * A.nr) (Mat.transpose A (Mat.mk' A.nc A.nr 0)).data
          else (Mat.transpose A (Mat.mk' A.nc A.nr 0)).data := by
        subst htb; cases ta <;> simp
      rw [hb, hcn, hcl]
      refine conj _ (fun j _ l _ => fC htb j l) fun l hl i hi => ?_
      rw [hv l hl i hi]
      cases ta with
      | N => exact absurd rfl hta
      | T => rfl
      | C => exact (star_star _).symm
    · rw [if_neg htb]
      have hb : (if (ta = .T ∧ tb = .C) ∨ (ta = .C ∧ tb ≠ .C) then conjBuf (A.nc * A.nr) (Mat.transpose A (Mat.mk' A.nc A.nr 0)).data
          else (Mat.transpose A (Mat.mk' A.nc A.nr 0)).data) =
          if (decide (ta = .C)) then conjBuf (A.nc * A.nr) (Mat.transpose A (Mat.mk' A.nc A.nr 0)).data
          else (Mat.transpose A (Mat.mk' A.nc A.nr 0)).data := by
        cases ta <;> cases tb <;> first | exact absurd rfl hta | exact absurd rfl htb | rfl | simp
      rw [hb, hcn, hcl]
      refine plain _ ?_ fun l hl i hi => ?_
      · intro j hj l hl
        by_cases h : tb = .N
        · refine fN h ?_ j hj l hl
          by_cases hH : B.label.symL = .H
          · exact Or.inr ((hB.herm h hH).2.resolve_left hta)
          · exact Or.inl hH
        · refine fT ?_ j l
          cases tb with
          | N => exact absurd rfl h
          | T => rfl
          | C => exact absurd rfl htb
      rw [hv l hl i hi]
      cases ta with
      | N => exact absurd rfl hta
      | T => rfl
      | C => rfl

theorem matHm_is (hE : E.cplx = false → RealType R) {B : FTree G R} (hB : Rep .full ad M B) (ta tb : Trans) (α β : R) {A C : Mat R}
    (hin : opCols ta A.nr A.nc = opRows tb B.label.t.sz B.label.s.sz) (hr : C.nr = opRows ta A.nr A.nc)
    (hc : C.nc = opCols tb B.label.t.sz B.label.s.sz) :
    (matHm E ta tb α A B β C).Is C.nr C.nc
      (prodE ta tb α A.get (rel M B.label.t.off B.label.s.off) (opCols ta A.nr A.nc) β C.get) :=
  matHm_gen (hB.mhop hE ta tb) α β hin hr hc

end products

end Htool
