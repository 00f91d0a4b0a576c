import Verif.HLinTri2

/-! # Hierarchical triangular matrices, and their solves with dense right-hand sides -/

namespace Htool
variable {G R : Type*}
open Finset

/-! ## Triangular H-matrices -/

section triRep
variable [CommRing R]

/-- A block strictly below (above) the diagonal. -/
def Half (u : UploType) (n : FNode G R) : Prop := (u = .L ∧ n.s.fin ≤ n.t.off) ∨ (u = .U ∧ n.t.fin ≤ n.s.off)

/-- A block of an H-matrix holding the triangular matrix `T`. Diagonal blocks: the rows of `T` stop there; a dense one holds its triangle (and its
pivots, whose permutation is part of `T`) with an invertible diagonal; it is not low-rank. Blocks of the triangle hold the entries of `T`. Nothing is
said of the other blocks. -/
def TriP (u : UploType) (unit : Bool) (ad : ClusterTree G → ClusterTree G → Prop) (T : ℕ → ℕ → R) (n : FNode G R) : Prop :=
  (n.t = n.s → (∀ i j, (n.t.off ≤ i ∧ i < n.t.fin) → (u = .L → n.t.fin ≤ j → T i j = 0) ∧ (u = .U → j < n.t.off → T i j = 0)) ∧
    match n.data with
    | .dense D piv => D.nr = n.t.sz ∧ D.nc = n.t.sz ∧ PivOK n.t.sz piv ∧ (unit = false → ∀ i < n.t.sz, IsUnit (D.get i i)) ∧
        ∀ i j, n.Has i j → T i j = ptri u unit D.get piv (i - n.t.off) (j - n.t.off)
    | .lowRank _ => False
    | .hier => True) ∧
  (Half u n → RepP .full ad T n)

/-- Which blocks may be missing. -/
def MaskOK (u : UploType) (m : Mask) : Prop := m = .full ∨ (m = .lower ∧ u = .L) ∨ (m = .upper ∧ u = .U)

/-- The H-matrix holds the triangular matrix `T`. -/
structure TriRep (u : UploType) (unit : Bool) (m : Mask) (ad : ClusterTree G → ClusterTree G → Prop) (T : ℕ → ℕ → R) (A : FTree G R) : Prop where
  up : u ≠ .N
  mask : MaskOK u m
  square : A.label.t = A.label.s
  shape : Shape m (TriP u unit ad T) A

variable {u : UploType} {unit : Bool} {m : Mask} {ad : ClusterTree G → ClusterTree G → Prop} {T : ℕ → ℕ → R} {A X : FTree G R}

/-- A shape in which no block is missing. -/
theorem Shape.toFull {P P' : FNode G R → Prop} (h : Shape m P A) (hk : ∀ p q, A.label.t.Desc p → A.label.s.Desc q → m.keep p q = true)
    (hP : ∀ X ∈ A.pre, P X.label → P' X.label) : Shape .full P' A := by
  intro X hX
  have b := h X hX
  have hb := Shape.pre_desc h hX
  refine ⟨hP X hX b.prop, b.clT, b.clS, b.leaf, fun hh => ⟨(b.split hh).1, ?_⟩⟩
  rw [(b.split hh).2]
  apply List.filter_congr
  intro x hx
  rw [mem_pairs] at hx
  have := subs_desc b.clT b.clS hx.1 hx.2
  rw [hk _ _ (hb.1.trans this.1) (hb.2.1.trans this.2.1)]; rfl

theorem TriRep.rep_of_half (hm : MaskOK u m) (h : Shape m (TriP u unit ad T) X) (hh : Half u X.label) : Rep .full ad T X := by
  refine Shape.toFull h (fun p q hp hq => ?_) fun Y hY hP => hP.2 ?_
  · have b1 := h.self.clT.desc_bounds hp
    have b2 := h.self.clS.desc_bounds hq
    have p1 := (h.self.clT.desc hp).sz_pos
    have p2 := (h.self.clS.desc hq).sz_pos
    rcases hm with rfl | ⟨rfl, rfl⟩ | ⟨rfl, rfl⟩
    · rfl
    · simp only [Half, Mask.keep, decide_eq_true_eq, reduceCtorEq, false_and, or_false, true_and] at *
      unfold ClusterTree.fin at *; omega
    · simp only [Half, Mask.keep, decide_eq_true_eq, reduceCtorEq, false_and, false_or, true_and] at *
      unfold ClusterTree.fin at *; omega
  · have hb := Shape.pre_desc h hY
    have b1 := h.self.clT.desc_bounds hb.1
    have b2 := h.self.clS.desc_bounds hb.2.1
    rcases hh with hh | hh
    · exact Or.inl ⟨hh.1, by omega⟩
    · exact Or.inr ⟨hh.1, by omega⟩

theorem keep_diag (m : Mask) {p : ClusterTree G} (hp : 0 < p.sz) : m.keep p p = true := by
  cases m <;> simp [Mask.keep, ClusterTree.fin] <;> omega

theorem after_fin {l : List (ClusterTree G)} {a b : ℕ} (ht : Tiles a b (l.map ClusterTree.iv)) (hpos : ∀ c ∈ l, 0 < c.sz) {p q : ClusterTree G}
    (hp : p ∈ l) (hq : q ∈ l) (h : q.off < p.off) : q.fin ≤ p.off := by
  by_contra hc
  have p1 := hpos p hp
  have := tiling_inj ht hpos hp hq (by unfold ClusterTree.fin at *; omega)
  subst this; omega

theorem ceq_iff {l : List (ClusterTree G)} {a b : ℕ} (ht : Tiles a b (l.map ClusterTree.iv)) (hpos : ∀ c ∈ l, 0 < c.sz) {p q : ClusterTree G}
    (hp : p ∈ l) (hq : q ∈ l) : p.ceq q = true ↔ p = q := by
  constructor
  · intro h
    simp only [ClusterTree.ceq, Bool.and_eq_true, decide_eq_true_eq] at h
    have p1 := hpos p hp
    have p2 := hpos q hq
    exact tiling_inj ht hpos hp hq (by unfold ClusterTree.fin; omega)
  · rintro rfl; simp [ClusterTree.ceq]

/-- `after` in a tiling. -/
theorem after_iff {fw : Bool} {p q : ClusterTree G} : after fw p q = true ↔ (if fw then q.off < p.off else p.off < q.off) := by
  unfold after
  cases fw <;> simp

theorem ordered_mem {α : Type*} {fw : Bool} {l : List α} {x : α} : x ∈ ordered fw l ↔ x ∈ l := by
  unfold ordered; cases fw <;> simp

theorem ordered_pairwise {l : List (ClusterTree G)} {a b : ℕ} (ht : Tiles a b (l.map ClusterTree.iv)) (hpos : ∀ c ∈ l, 0 < c.sz) (fw : Bool) :
    (ordered fw l).Pairwise (fun q p => after fw p q = true) := by
  have h := ht.pairwise
  rw [List.pairwise_map] at h
  have h' : l.Pairwise (fun q p => q.off < p.off) := by
    refine h.imp_of_mem fun hq _ hh => ?_
    have := hpos _ hq
    simp only [ClusterTree.iv] at hh
    omega
  unfold ordered
  cases fw with
  | true => exact h'.imp fun hh => after_iff.2 hh
  | false =>
    simp only [Bool.false_eq_true, if_false]
    rw [List.pairwise_reverse]
    exact h'.imp fun hh => after_iff.2 hh

/-- What the loops need from the clusters. -/
structure ClL (c : ClusterTree G) (l : List (ClusterTree G)) : Prop where
  tiles : Tiles c.off c.fin (l.map ClusterTree.iv)
  pos : ∀ p ∈ l, 0 < p.sz

theorem clL_of {c : ClusterTree G} (h : ClOK c) (ht : c.Top) (bad : Bool) : ClL c (clList bad c) where
  tiles := clList_tiles h ht
  pos _ hp := (h.desc (clList_desc h ht hp)).sz_pos

theorem ClL.bounds {c p : ClusterTree G} {l : List (ClusterTree G)} (h : ClL c l) (hp : p ∈ l) : c.off ≤ p.off ∧ p.fin ≤ c.fin := by
  have := h.tiles.mem_bounds (List.mem_map.2 ⟨p, hp, rfl⟩)
  exact this

theorem ClL.cover {c : ClusterTree G} {l : List (ClusterTree G)} (h : ClL c l) {i : ℕ} (hi : i ∈ Ico c.off c.fin) : ∃ p ∈ l, i ∈ Ico p.off p.fin := by
  rw [mem_Ico] at hi
  have h1 := h.tiles.countP i
  rw [if_pos hi] at h1
  obtain ⟨x, hx, hi'⟩ := List.countP_pos_iff.1 (by rw [h1]; exact Nat.one_pos)
  obtain ⟨p, hp, rfl⟩ := List.mem_map.1 hx
  refine ⟨p, hp, mem_Ico.2 ?_⟩
  exact of_decide_eq_true hi'

/-! ## Blocks of a triangular H-matrix -/

theorem TriRep.label_t (h : TriRep u unit m ad T A) (tr : Trans) : A.outC tr = A.label.t ∧ A.inC tr = A.label.t := by
  have := h.square
  cases tr <;> simp [FTree.outC, FTree.inC, this]

theorem TriRep.diag (h : TriRep u unit m ad T A) (ht : A.label.t.Top) {bad : Bool} (hb : A.bad = true → bad = true)
    (hf : bad = true ∨ A.isHier = true) {p : ClusterTree G} (hp : p ∈ clList bad A.label.t) :
    ∃ X, getBlock p p A = some X ∧ TriRep u unit m ad T X ∧ X.label.t = p ∧ X.label.s = p ∧ X.ht ≤ A.ht ∧
      (bad = false ∨ A.bad = true → X.ht < A.ht) ∧ 0 ≤ p.rk := by
  have hp' : p ∈ clList bad A.label.s := by rw [← h.square]; exact hp
  have cl := clL_of h.shape.self.clT ht bad
  obtain ⟨X, s1, s2, s3, s4, s5, s6, -⟩ := Shape.focus h.shape ht (by rw [← h.square]; exact ht) hb hf hp hp' (keep_diag m (cl.pos p hp))
  refine ⟨X, s6, ⟨h.up, h.mask, by rw [s2, s3], s1⟩, s2, s3, s4, s5, ?_⟩
  exact clList_rank h.shape.self.clT ht (fun hr => hb (bad_iff.2 (Or.inl hr))) hp

theorem TriRep.half (h : TriRep u unit m ad T A) (ht : A.label.t.Top) {bad : Bool} (hb : A.bad = true → bad = true)
    (hf : bad = true ∨ A.isHier = true) {p q : ClusterTree G} (hp : p ∈ clList bad A.label.t) (hq : q ∈ clList bad A.label.t)
    (hh : (u = .L ∧ q.fin ≤ p.off) ∨ (u = .U ∧ p.fin ≤ q.off)) :
    ∃ X, getBlock p q A = some X ∧ Rep .full ad T X ∧ X.label.t = p ∧ X.label.s = q ∧ X.ht ≤ A.ht ∧
      (bad = false ∨ A.bad = true → X.ht < A.ht) ∧ 0 ≤ p.rk ∧ 0 ≤ q.rk := by
  have hq' : q ∈ clList bad A.label.s := by rw [← h.square]; exact hq
  have cl := clL_of h.shape.self.clT ht bad
  have hk : m.keep p q = true := by
    have p1 := cl.pos p hp
    have p2 := cl.pos q hq
    rcases h.mask with rfl | ⟨rfl, rfl⟩ | ⟨rfl, rfl⟩
    · rfl
    · simp only [Mask.keep, decide_eq_true_eq, reduceCtorEq, false_and, or_false, true_and] at *
      unfold ClusterTree.fin at *; omega
    · simp only [Mask.keep, decide_eq_true_eq, reduceCtorEq, false_and, false_or, true_and] at *
      unfold ClusterTree.fin at *; omega
  obtain ⟨X, s1, s2, s3, s4, s5, s6, -⟩ := Shape.focus h.shape ht (by rw [← h.square]; exact ht) hb hf hp hq' hk
  refine ⟨X, s6, TriRep.rep_of_half h.mask s1 ?_, s2, s3, s4, s5, ?_, ?_⟩
  · unfold Half; rw [s2, s3]; exact hh
  · exact clList_rank h.shape.self.clT ht (fun hr => hb (bad_iff.2 (Or.inl hr))) hp
  · exact clList_rank h.shape.self.clT ht (fun hr => hb (bad_iff.2 (Or.inl hr))) hq

theorem TriRep.cut (h : TriRep u unit m ad T A) (ht : A.label.t.Top) {bad : Bool} (hb : A.bad = true → bad = true)
    (hf : bad = true ∨ A.isHier = true) {p q : ClusterTree G} (hp : p ∈ clList bad A.label.t)
    (hh : (u = .U ∧ q.fin ≤ p.off) ∨ (u = .L ∧ p.fin ≤ q.off)) {i j : ℕ} (hi : i ∈ Ico p.off p.fin) (hj : j ∈ Ico q.off q.fin) : T i j = 0 := by
  obtain ⟨X, -, s, s2, s3, -⟩ := h.diag ht hb hf hp
  have c := (s.shape.self.prop.1 s.square).1 i j (by rw [s2]; exact mem_Ico.1 hi)
  rw [s2] at c
  rw [mem_Ico] at hj
  rcases hh with ⟨hu, hh⟩ | ⟨hu, hh⟩
  · exact c.2 hu (by omega)
  · exact c.1 hu (by omega)

theorem TriRep.dense_of_leaf (h : TriRep u unit m ad T A) (hl : A.isHier = false) : ∃ D piv, A.label.data = .dense D piv ∧
    D.nr = A.label.t.sz ∧ D.nc = A.label.t.sz ∧ PivOK A.label.t.sz piv ∧ (unit = false → ∀ i < A.label.t.sz, IsUnit (D.get i i)) ∧
    ∀ i j, A.label.Has i j → T i j = ptri u unit D.get piv (i - A.label.t.off) (j - A.label.t.off) := by
  have c := (h.shape.self.prop.1 h.square).2
  cases hdat : A.label.data with
  | dense D piv =>
    rw [hdat] at c
    exact ⟨D, piv, rfl, c⟩
  | lowRank L => rw [hdat] at c; exact c.elim
  | hier => rw [isHier_iff.2 hdat] at hl; simp at hl

theorem TriRep.hier_not_leaf (h : TriRep u unit m ad T A) (hh : A.isHier = true) : A.isLeaf = false := by
  have b := h.shape.self
  have hl := (b.split hh).1
  rw [← h.square] at hl
  have hl' : A.label.t.leaf = false := by simpa using hl
  have hk := b.clT.kids_tiles hl'
  have hne : A.label.t.kids ≠ [] := by
    have := tiles_ne_nil hk (by have := b.clT.sz_pos; unfold ClusterTree.fin; omega)
    simpa using this
  obtain ⟨p, hp⟩ := List.exists_mem_of_ne_nil _ hne
  have e : subs A.label.t A.label.s = (A.label.t.kids, A.label.t.kids) := by
    rw [← h.square]
    unfold subs
    rw [hl', if_neg (by simp), if_neg (by simp), if_neg (by omega), if_neg (by omega)]
  obtain ⟨X, hX, -⟩ := h.shape.child_exists hh (p := p) (q := p) (by rw [e]; exact hp) (by rw [e]; exact hp)
    (keep_diag m (b.clT.desc (ClusterTree.kids_desc hp)).sz_pos)
  rw [isLeaf_false]
  intro hc
  rw [hc] at hX; simp at hX

/-! ## Sides -/

/-- The block with the coefficients of the unknowns `q` in the equations `p`. -/
def getSide (side : Side) (tr : Trans) (p q : ClusterTree G) (A : FTree G R) : Option (FTree G R) :=
  if side = .L then getOp tr p q A else getOp tr q p A

/-- The direction of the loops. -/
def fwS (side : Side) (u : UploType) (tr : Trans) : Bool := if side = .L then fwd u tr else !fwd u tr

theorem getSide_eq (side : Side) (tr : Trans) (p q : ClusterTree G) (A : FTree G R) :
    getSide side tr p q A = if actsOnRows side tr then getBlock p q A else getBlock q p A := by
  cases side <;> cases tr <;> rfl

theorem fwS_eq {u : UploType} (hu : u ≠ .N) (side : Side) (tr : Trans) : fwS side u tr = (actsOnRows side tr == decide (u = .L)) := by
  cases u <;> cases side <;> cases tr <;> first | rfl | exact absurd rfl hu

variable [StarRing R]

theorem tv_eq (side : Side) (tr : Trans) (T : ℕ → ℕ → R) (i l : ℕ) :
    tv side tr T i l = (if tr = .C then star else id) (if actsOnRows side tr then T i l else T l i) := by
  cases side <;> cases tr <;> rfl

/-- Off-diagonal block of the triangle. -/
theorem TriRep.off_side (h : TriRep u unit m ad T A) (ht : A.label.t.Top) {bad : Bool} (hb : A.bad = true → bad = true)
    (hf : bad = true ∨ A.isHier = true) (side : Side) (tr : Trans) {p q : ClusterTree G} (hp : p ∈ clList bad A.label.t)
    (hq : q ∈ clList bad A.label.t) (ha : after (fwS side u tr) p q = true) :
    ∃ X, getSide side tr p q A = some X ∧ Rep .full ad T X ∧ (if side = .L then X.outC tr else X.inC tr) = p ∧
      (if side = .L then X.inC tr else X.outC tr) = q ∧ X.ht ≤ A.ht ∧ (bad = false ∨ A.bad = true → X.ht < A.ht) ∧
      0 ≤ X.label.t.rk ∧ 0 ≤ X.label.s.rk := by
  have cl := clL_of h.shape.self.clT ht bad
  rw [after_iff, fwS_eq h.up] at ha
  rw [getSide_eq]
  have f1 := fun hh => after_fin cl.tiles cl.pos hp hq hh
  have f2 := fun hh => after_fin cl.tiles cl.pos hq hp hh
  have hu := h.up
  cases hact : actsOnRows side tr with
  | true =>
    rw [hact] at ha
    obtain ⟨X, e, r, l1, l2, g1, g2, r1, r2⟩ := h.half ht hb hf hp hq (by
      cases u with
      | N => exact absurd rfl hu
      | L => exact Or.inl ⟨rfl, f1 (by simpa using ha)⟩
      | U => exact Or.inr ⟨rfl, f2 (by simpa using ha)⟩)
    refine ⟨X, by simpa using e, r, ?_, ?_, g1, g2, by rw [l1]; exact r1, by rw [l2]; exact r2⟩
    · rw [← l1]; cases side <;> cases tr <;> first | rfl | simp [actsOnRows] at hact
    · rw [← l2]; cases side <;> cases tr <;> first | rfl | simp [actsOnRows] at hact
  | false =>
    rw [hact] at ha
    obtain ⟨X, e, r, l1, l2, g1, g2, r1, r2⟩ := h.half ht hb hf hq hp (by
      cases u with
      | N => exact absurd rfl hu
      | L => exact Or.inl ⟨rfl, f2 (by simpa using ha)⟩
      | U => exact Or.inr ⟨rfl, f1 (by simpa using ha)⟩)
    refine ⟨X, by simpa using e, r, ?_, ?_, g1, g2, by rw [l1]; exact r1, by rw [l2]; exact r2⟩
    · rw [← l2]; cases side <;> cases tr <;> first | rfl | simp [actsOnRows] at hact
    · rw [← l1]; cases side <;> cases tr <;> first | rfl | simp [actsOnRows] at hact

theorem TriRep.zero_side (h : TriRep u unit m ad T A) (ht : A.label.t.Top) {bad : Bool} (hb : A.bad = true → bad = true)
    (hf : bad = true ∨ A.isHier = true) (side : Side) (tr : Trans) {p q : ClusterTree G} (hp : p ∈ clList bad A.label.t)
    (hq : q ∈ clList bad A.label.t) (ha : after (fwS side u tr) p q = true) {i l : ℕ} (hi : i ∈ Ico q.off q.fin) (hl : l ∈ Ico p.off p.fin) :
    tv side tr T i l = 0 := by
  have cl := clL_of h.shape.self.clT ht bad
  rw [after_iff, fwS_eq h.up] at ha
  have f1 := fun hh => after_fin cl.tiles cl.pos hp hq hh
  have f2 := fun hh => after_fin cl.tiles cl.pos hq hp hh
  have hu := h.up
  rw [tv_eq]
  have hz : (if actsOnRows side tr then T i l else T l i) = 0 := by
    cases hact : actsOnRows side tr with
    | true =>
      rw [hact] at ha
      refine h.cut ht hb hf hq ?_ hi hl
      cases u with
      | N => exact absurd rfl hu
      | L => exact Or.inr ⟨rfl, f1 (by simpa using ha)⟩
      | U => exact Or.inl ⟨rfl, f2 (by simpa using ha)⟩
    | false =>
      rw [hact] at ha
      refine h.cut ht hb hf hp ?_ hl hi
      cases u with
      | N => exact absurd rfl hu
      | L => exact Or.inr ⟨rfl, f2 (by simpa using ha)⟩
      | U => exact Or.inl ⟨rfl, f1 (by simpa using ha)⟩
  rw [hz]
  by_cases hC : tr = .C
  · rw [if_pos hC, star_zero]
  · rw [if_neg hC]; rfl

end triRep
end Htool
