import Verif.Props.SymBuilt
import Verif.Props.MixedAcc

/-! # C60: the mixed products of an H-matrix produced by the builder

The hypotheses of the theorems of `Verif/Props/MixedProd.lean` and `Verif/Props/MixedAcc.lean` (`Fit`, `Represents`, `RightOK`) hold for every H-matrix built by
the library on one cluster tree, with any symmetry, compressor and schedule. -/

namespace Htool
open Finset
variable {G R : Type*} [CommRing R] [StarRing R]

/-- Two cells with the same geometry and flags, and the same entries in the block. -/
structure NodeEqv (h k : HNode R) : Prop where
  geo : k.toff = h.toff ∧ k.tsz = h.tsz ∧ k.soff = h.soff ∧ k.ssz = h.ssz
  flags : k.sym = h.sym ∧ k.uplo = h.uplo ∧ k.symL = h.symL
  hier : k.data = .hier → h.data = .hier
  dense : ∀ M, k.data = .dense M → ∃ M', h.data = .dense M' ∧ ∀ i < h.tsz, ∀ j < h.ssz, M i j = M' i j
  low : ∀ r U V, k.data = .lowRank r U V → ∃ U' V', h.data = .lowRank r U' V' ∧ ∀ i < h.tsz, ∀ j < h.ssz,
    ∑ k ∈ range r, U i k * V k j = ∑ k ∈ range r, U' i k * V' k j

omit [StarRing R] in
theorem SameNode.eqv {h : HNode R} {n : FNode G R} (s : SameNode h n) : NodeEqv h n.toH := by
  refine ⟨⟨s.t.1, s.t.2, s.s.1, s.s.2⟩, ⟨s.flags.1, s.flags.2.1, s.flags.2.2.1⟩, ?_, ?_, ?_⟩
  all_goals
    have d := s.data
    unfold FNode.toH
    simp only
    cases hd : h.data with
    | dense M =>
      rw [hd] at d
      obtain ⟨D, e, hD⟩ := d
      rw [e]
      simp [FData.toH]
      try exact hD.2.2
    | lowRank r U V =>
      rw [hd] at d
      obtain ⟨L, e, hU, hV⟩ := d
      rw [e]
      have hr : L.rank = r := hU.2.1
      simp [FData.toH, hr]
      try
        exact fun i hi j hj => Finset.sum_congr rfl fun k hk => by
          rw [hU.2.2 i hi k (Finset.mem_range.1 hk), hV.2.2 k (Finset.mem_range.1 hk) j hj]
    | hier =>
      rw [hd] at d
      have d : n.data = .hier := d
      rw [d]
      simp [FData.toH]

omit [CommRing R] [StarRing R] in
theorem FTree.toH_rel [CommRing R] {A : HTree R} : ∀ {F : FTree G R}, Tree.Rel SameNode A F → Tree.Rel NodeEqv A F.toH := by
  induction A using Tree.ind with
  | h a cs ih =>
    intro F h
    cases F with
    | node n ds =>
      obtain ⟨h1, h2⟩ := Tree.Rel_node.1 h
      rw [show FTree.toH (.node n ds) = .node n.toH (ds.map FTree.toH) from Tree.map_node ..]
      refine Tree.Rel_node.2 ⟨h1.eqv, ?_⟩
      rw [List.forall₂_map_right_iff]
      refine (List.forall₂_iff_get.2 ?_)
      obtain ⟨hl, hg⟩ := List.forall₂_iff_get.1 h2
      exact ⟨hl, fun i hi hj => ih _ (List.get_mem _ _) (hg i hi hj)⟩

theorem NodeEqv.has {h k : HNode R} (e : NodeEqv h k) (i j : ℕ) : k.Has i j ↔ h.Has i j := by
  unfold HNode.Has
  rw [e.geo.1, e.geo.2.1, e.geo.2.2.1, e.geo.2.2.2]

/-- Equivalent cells hold the same entries. A flagged block is square. -/
theorem NodeEqv.val {h k : HNode R} (e : NodeEqv h k) (sq : h.sym ≠ .N → h.tsz = h.ssz) {i j : ℕ} (hi : i < h.tsz) (hj : j < h.ssz) : k.val i j = h.val i j := by
  unfold HNode.val
  cases hd : k.data with
  | dense M =>
    obtain ⟨M', e', hM⟩ := e.dense M hd
    rw [e', e.flags.1, e.flags.2.1]
    simp only
    cases hs : h.sym with
    | S =>
      have sq := sq (by simp [hs])
      have := hM j (by omega) i (by omega)
      simp only [symE, hM i hi j hj, this]
    | H =>
      have sq := sq (by simp [hs])
      have := hM j (by omega) i (by omega)
      simp only [herE, hM i hi j hj, this]
    | N => exact hM i hi j hj
    | nul => exact hM i hi j hj
  | lowRank r U V =>
    obtain ⟨U', V', e', hM⟩ := e.low r U V hd
    rw [e']
    exact hM i hi j hj
  | hier => rw [e.hier hd]

omit [StarRing R] in
theorem eqv_leaves {A B : HTree R} (h : Tree.Rel NodeEqv A B) : List.Forall₂ (Tree.Rel NodeEqv) (getLeavesH A).1 (getLeavesH B).1 ∧
    List.Forall₂ (Tree.Rel NodeEqv) (getLeavesH A).2 (getLeavesH B).2 := by
  have fl : ∀ a b : HNode R, NodeEqv a b → a.isSym = b.isSym ∧ a.offDiag = b.offDiag := by
    intro a b e
    unfold HNode.isSym HNode.offDiag
    rw [e.flags.1, e.geo.1, e.geo.2.2.1]
    exact ⟨rfl, rfl⟩
  unfold getLeavesH getLeavesG
  apply leavesLoopG_rel fl
  exact .cons ⟨h, (fl _ _ h.label).1⟩ .nil

/-- An H-matrix equivalent to one fit for products is fit for products. -/
theorem HTree.Fit.eqv {cplx : Bool} {σ : HSym} {A B : HTree R} (hA : A.Fit cplx σ) (h : Tree.Rel NodeEqv A B) : B.Fit cplx σ := by
  have l := h.label
  refine ⟨by rw [l.flags.2.2]; exact hA.lab, ?_, ?_, ?_⟩
  · intro x hx
    obtain ⟨y, hy, e⟩ := forall₂_mem h.leaves hx
    have e := e.label
    have ok := hA.leafOK y hy
    refine ⟨fun hd => ok.data (e.hier hd), by rw [e.flags.1]; exact ok.sym, by rw [e.flags.1, e.geo.2.1, e.geo.2.2.2]; exact ok.square,
      by rw [e.flags.1, e.flags.2.1]; exact ok.uplo, fun hs => ?_⟩
    rw [e.flags.1] at hs
    refine ⟨(ok.herm hs).1, fun M hM i hi => ?_⟩
    obtain ⟨M', e', hM'⟩ := e.dense M hM
    rw [e.geo.2.1] at hi
    have sq := ok.square (by rw [hs]; simp)
    rw [hM' i hi i (by omega)]
    exact (ok.herm hs).2 M' e' i hi
  · intro x hx
    obtain ⟨y, hy, e⟩ := forall₂_mem h.leaves hx
    have e := e.label
    rw [e.geo.1, e.geo.2.1, e.geo.2.2.1, e.geo.2.2.2, l.geo.1, l.geo.2.1, l.geo.2.2.1, l.geo.2.2.2]
    exact hA.inside y hy
  · intro x hx
    obtain ⟨y, hy, e⟩ := forall₂_mem (eqv_leaves h).2 hx
    have e := e.label
    rw [e.flags.1, e.geo.1, e.geo.2.1, e.geo.2.2.1, e.geo.2.2.2, l.geo.1, l.geo.2.1, l.geo.2.2.1, l.geo.2.2.2]
    exact hA.mirror y hy

/-- An H-matrix equivalent to one representing `M` represents `M`. -/
theorem HTree.Represents.eqv {cplx : Bool} {σ : HSym} {A B : HTree R} {M : ℕ → ℕ → R} (hA : A.Fit cplx σ) (hM : A.Represents M) (h : Tree.Rel NodeEqv A B) :
    B.Represents M := by
  have l := h.label
  obtain ⟨h1, h2⟩ := eqv_leaves h
  refine ⟨?_, ?_, ?_, ?_⟩
  · intro x hx i j hh
    obtain ⟨y, hy, e⟩ := forall₂_mem h1 hx
    have e := e.label
    have hh' := (e.has i j).1 hh
    have ok := hA.leafOK y ((getLeavesH_perm A).1.mem_iff.1 hy)
    rw [e.geo.1, e.geo.2.2.1, e.val ok.square, hM.own y hy i j hh']
    · have : y.label.toff ≤ i ∧ i < y.label.toff + y.label.tsz := hh'.1
      omega
    · have : y.label.soff ≤ j ∧ j < y.label.soff + y.label.ssz := hh'.2
      omega
  · intro x hx i j hh
    obtain ⟨y, hy, e⟩ := forall₂_mem h2 hx
    rw [l.flags.2.2]
    exact hM.mirror y hy i j ((e.label.has i j).1 hh)
  · intro hne
    rw [l.flags.2.2]
    refine hM.flag fun h0 => hne ?_
    rw [h0] at h2
    exact List.forall₂_nil_left_iff.1 h2
  · intro i j hh
    rw [← hM.cover i j ((l.has i j).1 hh)]
    congr 1
    · exact (forall₂_countP h1 fun a b e => by rw [decide_eq_decide]; exact (e.label.has i j).symm).symm
    · exact (forall₂_countP h2 fun a b e => by rw [decide_eq_decide]; exact (e.label.has j i).symm).symm

/-- An H-matrix whose leaves and mirrored leaves cover every entry once represents the matrix of its entries. -/
theorem HTree.represents_entry {A : HTree R} (hflag : (getLeavesH A).2 ≠ [] → A.label.symL ≠ .N)
    (hc : ∀ i j, A.label.Has i j →
      (getLeavesH A).1.countP (fun l => decide (l.label.Has i j)) + (getLeavesH A).2.countP (fun l => decide (l.label.Has j i)) = 1)
    (hin : ∀ l ∈ A.leaves, ∀ i j, l.label.Has i j → A.label.Has i j) (hmi : ∀ l ∈ (getLeavesH A).2, ∀ i j, l.label.Has i j → A.label.Has j i)
    (hml : ∀ l ∈ (getLeavesH A).2, l ∈ A.leaves) : A.Represents A.entry := by
  refine ⟨?_, ?_, hflag, hc⟩
  · intro l hl i j hh
    have hl := (getLeavesH_perm A).1.mem_iff.1 hl
    exact (entry_leaf hflag (hc i j (hin l hl i j hh)) hl hh).symm
  · intro l hl i j hh
    rw [entry_mirror_leaf hflag (hc j i (hmi l hl i j hh)) hl hh, entry_leaf hflag (hc i j (hin l (hml l hl) i j hh)) (hml l hl) hh]

section built
variable {D : Type*} {S : Strategies D G} {flog : ℕ → ℕ → ℕ} {fuel n nc : ℕ} {arg : PartArg} {t : CTree G} {st : CState G} {E : BEnv G}
  {lr : LRGen R} {dg : Option (DenseGen R)} {gen : ℕ → ℕ → R}

/-- What the theorems on mixed products ask of an operand holds for the H-matrices in memory produced by the builder. -/
theorem Setting.operand (hS : Setting S flog fuel n nc arg t st E) {T : ℕ} (hT : 0 < T) {cplx : Bool} {fuel' : ℕ} {m m' : Mem R}
    (hgen : UserGen E cplx dg gen t.iv) {B' : Builder} {H : Tree ℕ} (h : BuildStep T E lr dg fuel' t t gen m Builder.empty m' B' H) {F : FTree G R}
    (hF : InMemory E fuel' t m' H F) :
    F.toH.Fit cplx E.sym.toH ∧ F.toH.Represents (HTree.entry (H.map m'.heap)) ∧ F.label.symL = E.sym.toH ∧
      F.label.t.off = 0 ∧ F.label.t.sz = n ∧ F.label.s.off = 0 ∧ F.label.s.sz = n := by
  obtain ⟨b, h1, h2, -⟩ := build_spec hT hS.covered.buildOK (sysInv_empty m) h
  obtain ⟨hb, e1, e2⟩ := hS.covered.blocks h1
  rw [← e1] at hgen
  have hg : GenOK E cplx dg gen b := hgen.genOK
  obtain ⟨b', h1', hV⟩ := hF
  obtain rfl : b = b' := Option.some.inj (h1.symm.trans h1')
  have hrel := FTree.toH_rel hV.cells
  rw [h2] at hrel ⊢
  have fit : (assembled E lr dg gen b).Fit cplx E.sym.toH := assembled_fit hb hg
  obtain ⟨-, w2⟩ := (hS.view hT h)
  obtain ⟨-, w3, w4, -⟩ := w2 F ⟨b, h1, hV⟩
  obtain ⟨o1, o2, o3⟩ := clusterTree_off hS
  have lb : (assembled E lr dg gen b).label = finalNode E lr dg gen b := assembled_label b
  have hroot : ∀ i j, (assembled E lr dg gen b).label.Has i j ↔ InIv i b.label.t.iv ∧ InIv j b.label.s.iv := by
    intro i j; rw [lb]; rfl
  have inb : ∀ {x : ℕ} {u v : ℕ × ℕ}, InIv x u → Inside u v → InIv x v := by
    intro x u v h1 h2
    unfold InIv Inside at *
    omega
  have rep : (assembled E lr dg gen b).Represents (assembled E lr dg gen b).entry := by
    refine HTree.represents_entry (fun hne => ?_) (fun i j hh => assembled_cover hb ((hroot i j).1 hh)) ?_ ?_ ?_
    · obtain ⟨f1, f2⟩ := assembled_flag hb hne
      rw [f2]
      exact fun hN => f1 (toH_inj.2.2.1.1 hN)
    · intro l hl i j hh
      obtain ⟨i1, i2⟩ := fit.inside l hl
      exact ⟨inb hh.1 i1, inb hh.2 i2⟩
    · intro l hl i j hh
      obtain ⟨-, i1, i2⟩ := fit.mirror l hl
      exact ⟨inb hh.2 i1, inb hh.1 i2⟩
    · intro l hl
      exact symLeavesG_sub _ _ ((getLeavesH_perm _).2.mem_iff.1 hl)
  refine ⟨fit.eqv hrel, rep.eqv fit hrel, ?_, by rw [w3]; exact o1, by rw [w3]; exact o2, by rw [w4]; exact o1, by rw [w4]; exact o2⟩
  have : F.label.symL = (H.map m'.heap).label.symL := hV.cells.label.flags.2.2.1
  rw [this, h2, lb]
  show (if symLOf E b.label.sym (b.children.map (fun d => d.label.sym)) then E.sym.toH else .N) = _
  by_cases hN : E.sym = .N
  · rw [hN]; split_ifs <;> rfl
  · have w := hS.built.wf
    have m1 : t ∈ E.tct.root.pre := by rw [hS.tct]; exact Tree.mem_pre_self t
    have hE : E.Symm := ⟨hS.tct ▸ w.1, hS.tct ▸ w.2, hS.sct.trans hS.tct.symm, hS.cons, hN, hS.uplo hN⟩
    obtain ⟨b0, h0, e0⟩ := buildBlocks_inv h1
    rw [resetRoot_same h0 (Or.inl hS.tp)] at e0
    subst e0
    obtain ⟨l1, l2, l3⟩ := buildBlockTree_label h0
    rw [if_pos]
    by_cases hc : b.children = []
    · unfold symLOf
      rw [hc, l3]
      simp [hN, symFlag_self hN]
    · obtain ⟨d, hd, hds⟩ := diag_child hE.pos hE.consistent hN m1 (inPart_below hE.wf m1 (Or.inl hS.tp)) h0 hc
      exact symLOf_child hN hd hds

/-- The right operand: with a symmetric flag every combination is allowed, with a hermitian one `transb = 'N'` with a transposed left operand is excluded (it
gives a wrong result, `C60_hermitian_right_operand_wrong`). -/
theorem Setting.rightOK (hS : Setting S flog fuel n nc arg t st E) (hadm : E.sym ≠ .N → ∀ c ∈ t.pre, ∀ d ∈ t.pre, c.off = d.off → E.adm c.label d.label = false)
    {T : ℕ} (hT : 0 < T) {cplx : Bool} {fuel' : ℕ} {m m' : Mem R}
    (hgen : UserGen E cplx dg gen t.iv) {B' : Builder} {H : Tree ℕ} (h : BuildStep T E lr dg fuel' t t gen m Builder.empty m' B' H) {F : FTree G R}
    (hF : InMemory E fuel' t m' H F) {ta tb : Trans} (hh : E.sym = .H → tb ≠ .N ∨ ta = .N ∨ RealType R) :
    RightOK F (HTree.entry (H.map m'.heap)) E.sym.toH ta tb := by
  obtain ⟨-, -, f1, f2, f3, f4, f5⟩ := hS.operand hT hgen h hF
  have bd : ∀ {i j : ℕ}, F.label.Has i j → i < n ∧ j < n := by
    intro i j hh
    unfold FNode.Has ClusterTree.fin at hh
    omega
  refine ⟨toH_inj.2.2.2, fun _ hN => ?_, fun _ => ⟨by rw [f2, f4], by rw [f3, f5]⟩, fun hs i j hij => ?_, fun hs => ⟨fun i j hij => ?_, ?_⟩⟩
  · rw [← f1, hN]; trivial
  · rw [f1] at hs
    have hs := toH_inj.1.1 hs
    obtain ⟨hi, hj⟩ := bd hij
    rw [C79_symmetric_operator hS (by rw [hs]; simp) (hadm (by rw [hs]; simp)) hT hgen h i hi j hj, if_pos hs]
  · rw [f1] at hs
    have hs := toH_inj.2.1.1 hs
    obtain ⟨hi, hj⟩ := bd hij
    rw [C79_symmetric_operator hS (by rw [hs]; simp) (hadm (by rw [hs]; simp)) hT hgen h i hi j hj, if_neg (by rw [hs]; simp)]
  · rw [f1] at hs
    exact hh (toH_inj.2.1.1 hs)

/-! ## Products of built H-matrices

In all of them `Op` is the operator of the built H-matrix in cluster numbering (`HTree.entry`, close to the coefficients by `C19_built_operator` and exactly
symmetric or hermitian by `C79_symmetric_operator`). -/

section products
variable [DecidableEq R] {L : LinOps R} (hS : Setting S flog fuel n nc arg t st E) {T : ℕ} (hT : 0 < T) {fuel' : ℕ} {m m' : Mem R}
  (hgen : UserGen E L.cplx dg gen t.iv) {B' : Builder} {H : Tree ℕ} (h : BuildStep T E lr dg fuel' t t gen m Builder.empty m' B' H) {F : FTree G R}
  (hF : InMemory E fuel' t m' H F) (hL : L.cplx = false → RealType R)
include hS hT hgen h hF hL

/-- **C60 (end to end).** A built H-matrix times a dense matrix. -/
theorem C60_built_left_product (ta tb : Trans) (hs : Supported R E.sym.toH ta) (α β : R) {B C : Mat R} (hin : opRows tb B.nr B.nc = n) (hr : C.nr = n)
    (hc : C.nc = opCols tb B.nr B.nc) :
    (hmMat L ta tb α F B β C).Is n C.nc (prodE ta tb α (HTree.entry (H.map m'.heap)) B.get n β C.get) := by
  obtain ⟨f0, f1, f2, f3, f4, f5, f6⟩ := hS.operand hT hgen h hF
  have e1 : opRows ta F.label.t.sz F.label.s.sz = n := by unfold opRows; rw [f4, f6]; split_ifs <;> rfl
  have e2 : opCols ta F.label.t.sz F.label.s.sz = n := by unfold opCols; rw [f4, f6]; split_ifs <;> rfl
  have := C60_hmatrix_matrix_product hL f0 f1 ta tb hs α β (B := B) (C := C) (by rw [e2, hin]) (by rw [e1, hr]) hc
  rw [e2, hr, f3, f5] at this
  have er : rel (HTree.entry (H.map m'.heap)) 0 0 = HTree.entry (H.map m'.heap) := by unfold rel; simp
  rwa [er] at this

/-- **C60 (end to end).** A dense matrix times a built H-matrix. Missing: a hermitian one with `transb = 'N'` and a transposed left operand. -/
theorem C60_built_right_product_partial (hadm : E.sym ≠ .N → ∀ c ∈ t.pre, ∀ d ∈ t.pre, c.off = d.off → E.adm c.label d.label = false)
    {ta tb : Trans} (hh : E.sym = .H → tb ≠ .N ∨ ta = .N ∨ RealType R) (α β : R) {A C : Mat R} (hin : opCols ta A.nr A.nc = n) (hr : C.nr = opRows ta A.nr A.nc)
    (hc : C.nc = n) :
    (matHm L ta tb α A F β C).Is C.nr n (prodE ta tb α A.get (HTree.entry (H.map m'.heap)) n β C.get) := by
  obtain ⟨f0, f1, f2, f3, f4, f5, f6⟩ := hS.operand hT hgen h hF
  have ok := hS.rightOK hadm hT hgen h hF hh
  have e1 : opRows tb F.label.t.sz F.label.s.sz = n := by unfold opRows; rw [f4, f6]; split_ifs <;> rfl
  have e2 : opCols tb F.label.t.sz F.label.s.sz = n := by unfold opCols; rw [f4, f6]; split_ifs <;> rfl
  have := C60_matrix_hmatrix_product_partial hL f0 f1 ok α β (A := A) (C := C) (by rw [e1, hin]) hr (by rw [e2, hc])
  rw [hin, hc, f3, f5] at this
  have er : rel (HTree.entry (H.map m'.heap)) 0 0 = HTree.entry (H.map m'.heap) := by unfold rel; simp
  rwa [er] at this

/-- **C60 (end to end).** A built H-matrix times a low-rank matrix. Missing: a rank 0 operand with `beta ≠ 1`. -/
theorem C60_built_left_lrmat_product_partial (ta tb : Trans) (hs : Supported R E.sym.toH ta) (α β : R) {B : LR R} (hB : B.WF) {C : Mat R}
    (hr0 : B.rank ≠ 0 ∨ β = 1) (hin : opRows tb B.nr B.nc = n) (hr : C.nr = n) (hc : C.nc = opCols tb B.nr B.nc) :
    (hmLr L ta tb α F B β C).Is n C.nc (prodE ta tb α (HTree.entry (H.map m'.heap)) B.entry n β C.get) := by
  obtain ⟨f0, f1, f2, f3, f4, f5, f6⟩ := hS.operand hT hgen h hF
  have e1 : opRows ta F.label.t.sz F.label.s.sz = n := by unfold opRows; rw [f4, f6]; split_ifs <;> rfl
  have e2 : opCols ta F.label.t.sz F.label.s.sz = n := by unfold opCols; rw [f4, f6]; split_ifs <;> rfl
  have := C60_hmatrix_lrmat_product_partial hL f0 f1 ta tb hs α β hB (C := C) hr0 (by rw [e2, hin]) (by rw [e1, hr]) hc
  rw [e2, hr, f3, f5] at this
  have er : rel (HTree.entry (H.map m'.heap)) 0 0 = HTree.entry (H.map m'.heap) := by unfold rel; simp
  rwa [er] at this

/-- **C60 (end to end).** A low-rank matrix times a built H-matrix. Missing: a hermitian one with `transb = 'N'` and a transposed left operand, a rank 0 operand
with `beta ≠ 1`. -/
theorem C60_built_right_lrmat_product_partial (hadm : E.sym ≠ .N → ∀ c ∈ t.pre, ∀ d ∈ t.pre, c.off = d.off → E.adm c.label d.label = false)
    {ta tb : Trans} (hh : E.sym = .H → tb ≠ .N ∨ ta = .N ∨ RealType R) (α β : R) {A : LR R} (hA : A.WF) {C : Mat R} (hr0 : A.rank ≠ 0 ∨ β = 1)
    (hin : opCols ta A.nr A.nc = n) (hr : C.nr = opRows ta A.nr A.nc) (hc : C.nc = n) :
    (lrHm L ta tb α A F β C).Is C.nr n (prodE ta tb α A.entry (HTree.entry (H.map m'.heap)) n β C.get) := by
  obtain ⟨f0, f1, f2, f3, f4, f5, f6⟩ := hS.operand hT hgen h hF
  have ok := hS.rightOK hadm hT hgen h hF hh
  have e1 : opRows tb F.label.t.sz F.label.s.sz = n := by unfold opRows; rw [f4, f6]; split_ifs <;> rfl
  have e2 : opCols tb F.label.t.sz F.label.s.sz = n := by unfold opCols; rw [f4, f6]; split_ifs <;> rfl
  have := C60_lrmat_hmatrix_product_partial hL f0 f1 ok α β hA (C := C) hr0 (by rw [e1, hin]) hr (by rw [e2, hc])
  rw [hin, hc, f3, f5] at this
  have er : rel (HTree.entry (H.map m'.heap)) 0 0 = HTree.entry (H.map m'.heap) := by unfold rel; simp
  rwa [er] at this

end products

/-! ## Accuracy of the products into a low-rank matrix -/

section accuracy
variable {𝕜 : Type*} [RCLike 𝕜] [DecidableEq 𝕜] {L : LinOps 𝕜} {ε : ℝ} {lr : LRGen 𝕜} {dg : Option (DenseGen 𝕜)} {gen : ℕ → ℕ → 𝕜}
  (hS : Setting S flog fuel n nc arg t st E) {T : ℕ} (hT : 0 < T) {fuel' : ℕ} {m m' : Mem 𝕜}
  (hgen : UserGen E L.cplx dg gen t.iv) {B' : Builder} {H : Tree ℕ} (h : BuildStep T E lr dg fuel' t t gen m Builder.empty m' B' H) {F : FTree G 𝕜}
  (hF : InMemory E fuel' t m' H F) (hE : L.Acc ε) (hε : 0 ≤ ε)
include hS hT hgen h hF hE hε

/-- **C60 (end to end).** A built H-matrix times a dense matrix into a low-rank matrix, with truncations of relative accuracy `ε`. -/
theorem C60_built_left_lowrank_accuracy (ta tb : Trans) (hs : Supported 𝕜 E.sym.toH ta) (α β : 𝕜) {B : Mat 𝕜} {C : LR 𝕜} {FC : ℕ → ℕ → 𝕜} {k : ℕ}
    (hin : opRows tb B.nr B.nc = n) (hk : opCols tb B.nr B.nc = k) (n0 : 0 < n) (k0 : 0 < k) (hC : C.IsMat n k FC) :
    (hmMatLR L ta tb α F B β C).Near
      (ε * (frob n k (prodE ta tb α (HTree.entry (H.map m'.heap)) B.get n β FC) + (1 + ε) * frob n k (prodE ta tb α (HTree.entry (H.map m'.heap)) B.get n 0 FC))) n k
      (prodE ta tb α (HTree.entry (H.map m'.heap)) B.get n β FC) := by
  obtain ⟨f0, f1, f2, f3, f4, f5, f6⟩ := hS.operand hT hgen h hF
  have e1 : opRows ta F.label.t.sz F.label.s.sz = n := by unfold opRows; rw [f4, f6]; split_ifs <;> rfl
  have e2 : opCols ta F.label.t.sz F.label.s.sz = n := by unfold opCols; rw [f4, f6]; split_ifs <;> rfl
  have := C60_hmatrix_matrix_lowrank_accuracy hE hε f0 f1 ta tb hs α β (B := B) (C := C) (FC := FC) e1 hk e2 hin n0 k0 hC
  rw [f3, f5] at this
  have er : rel (HTree.entry (H.map m'.heap)) 0 0 = HTree.entry (H.map m'.heap) := by unfold rel; simp
  rwa [er] at this

/-- **C60 (end to end).** A dense matrix times a built H-matrix into a low-rank matrix. Missing: a hermitian one with `transb = 'N'` and a transposed left
operand. -/
theorem C60_built_right_lowrank_accuracy_partial (hadm : E.sym ≠ .N → ∀ c ∈ t.pre, ∀ d ∈ t.pre, c.off = d.off → E.adm c.label d.label = false)
    {ta tb : Trans} (hh : E.sym = .H → tb ≠ .N ∨ ta = .N ∨ RealType 𝕜) (α β : 𝕜) {A : Mat 𝕜} {C : LR 𝕜} {FC : ℕ → ℕ → 𝕜} {k : ℕ}
    (hin : opCols ta A.nr A.nc = n) (hk : opRows ta A.nr A.nc = k) (n0 : 0 < n) (k0 : 0 < k) (hC : C.IsMat k n FC) :
    (matHmLR L ta tb α A F β C).Near
      (ε * (frob k n (prodE ta tb α A.get (HTree.entry (H.map m'.heap)) n β FC) + (1 + ε) * frob k n (prodE ta tb α A.get (HTree.entry (H.map m'.heap)) n 0 FC))) k n
      (prodE ta tb α A.get (HTree.entry (H.map m'.heap)) n β FC) := by
  obtain ⟨f0, f1, f2, f3, f4, f5, f6⟩ := hS.operand hT hgen h hF
  have ok := hS.rightOK hadm hT hgen h hF hh
  have e1 : opRows tb F.label.t.sz F.label.s.sz = n := by unfold opRows; rw [f4, f6]; split_ifs <;> rfl
  have e2 : opCols tb F.label.t.sz F.label.s.sz = n := by unfold opCols; rw [f4, f6]; split_ifs <;> rfl
  have := C60_matrix_hmatrix_lowrank_accuracy_partial hE hε f0 f1 ok α β (A := A) (C := C) (FC := FC) hk e2 hin e1 k0 n0 hC
  rw [f3, f5] at this
  have er : rel (HTree.entry (H.map m'.heap)) 0 0 = HTree.entry (H.map m'.heap) := by unfold rel; simp
  rwa [er] at this

end accuracy

end built

/-! ## The hypotheses can be met -/

/-- A hermitian H-matrix on 12 points, compressed by SVD with the tolerance 1/100, can be multiplied from both sides by a matrix into a low-rank matrix. -/
example : ∃ (gesvd : Mat ℂ → SVDOut ℂ) (geqrf gelqf : Mat ℂ → OrthOut ℂ) (L : LinOps ℂ) (t : CTree (List ℕ)) (st : CState (List ℕ))
    (m' : Mem ℂ) (B' : Builder) (H : Tree ℕ) (F : FTree (List ℕ) ℂ), LapackOK gesvd geqrf gelqf ∧ L.UsesSVD gesvd geqrf gelqf (1 / 100) ∧ L.Acc (1 / 100) ∧
      Setting exStrategies Nat.log 16 12 2 (.auto 2) t st (exEnv t st none none .H .L) ∧
      UserGen (R := ℂ) (exEnv t st none none .H .L) L.cplx none (fun i j => ((min i j + 1 : ℕ) : ℂ)) t.iv ∧
      BuildStep 3 (exEnv t st none none .H .L) (lrSVD gesvd (1 / 100) (-1)) none 100 t t (fun i j => ((min i j + 1 : ℕ) : ℂ)) (memZero ℂ) Builder.empty m' B' H ∧
      InMemory (exEnv t st none none .H .L) 100 t m' H F ∧
      (∀ c ∈ t.pre, ∀ d ∈ t.pre, c.off = d.off → (exEnv t st none none .H .L).adm c.label d.label = false) := by
  obtain ⟨gesvd, geqrf, gelqf, h1⟩ := exists_lapack ℂ
  let L : LinOps ℂ := ⟨true, recompress gesvd geqrf gelqf (1 / 100), svdFactors gesvd (1 / 100), fun D => (D, []), fun _ D => D, fun _ _ _ _ _ _ B => B⟩
  have h2 : L.UsesSVD gesvd geqrf gelqf (1 / 100) := ⟨by simp [L], fun _ => rfl, fun _ _ => rfl⟩
  obtain ⟨t, st, -, hS, hB⟩ := exSetting ℂ .H .L (by simp)
  obtain ⟨m0, B0, H0, F0, h3, -⟩ := hB (fun i j => ((min i j + 1 : ℕ) : ℂ))
  obtain ⟨b, hr, -⟩ := build_spec (by omega) hS.covered.buildOK (sysInv_empty (memZero ℂ)) h3
  obtain ⟨m', B', H, hst⟩ := build_exists (T := 3) (lr := lrSVD gesvd (1 / 100) (-1)) (dg := none) hS.covered.buildOK
    (gen := fun i j => ((min i j + 1 : ℕ) : ℂ)) (sysInv_empty (memZero ℂ)) hr
  obtain ⟨F, hF⟩ := (hS.view (by omega) hst).1
  refine ⟨gesvd, geqrf, gelqf, L, t, st, m', B', H, F, h1, h2, h2.acc h1 (by norm_num), hS, ⟨by simp [exEnv], by simp [exEnv], fun _ => ⟨rfl, fun i j _ _ => ?_⟩, by simp⟩,
    hst, hF, fun c hc d hd e => ?_⟩
  · rw [Nat.min_comm]
    simp
  · have e' : c.label.offset = d.label.offset := e
    simp only [exEnv, Bool.or_eq_false_iff, decide_eq_false_iff_not]
    omega

end Htool
