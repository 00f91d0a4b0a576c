import Verif.Props.HLinBuilt
import Verif.Props.Admissibility

/-! # C79: a symmetric H-matrix represents an exactly symmetric matrix

Whatever the errors of the compressions, the matrix represented by an H-matrix built with a symmetry (`HTree.entry`, the one used in products, C19) is exactly
symmetric (hermitian). -/

namespace Htool
variable {G R : Type*}
open Finset

/-- Below a symmetric block all the off-diagonal leaves are mirrored. -/
theorem symLeavesG_true {α : Type*} (sy od : α → Bool) (A : Tree α) : symLeavesG sy od true A = A.leaves.filter (fun l => od l.label) := by
  induction A using Tree.ind with
  | h a cs ih =>
    by_cases hc : cs = []
    · subst hc
      by_cases h : od a = true <;> simp [symLeavesG, Tree.leaves, h]
    · have e : cs.isEmpty = false := by simpa using hc
      have e2 : (Tree.node a cs).leaves = cs.flatMap Tree.leaves := by
        rw [Tree.leaves_node_ne hc]
        exact Tree.leavesL_eq cs
      rw [symLeavesG, e, if_neg (by simp), symLeavesGL_eq, Bool.or_true, e2, List.filter_flatMap]
      exact List.flatMap_congr fun c hc => ih c hc

variable [CommRing R] [StarRing R]

/-- The entry of an H-matrix in the mirror image of a leaf. -/
theorem entry_mirror_leaf {A : HTree R} (hflag : (getLeavesH A).2 ≠ [] → A.label.symL ≠ .N) {i j : ℕ}
    (hc : (getLeavesH A).1.countP (fun l => decide (l.label.Has i j)) + (getLeavesH A).2.countP (fun l => decide (l.label.Has j i)) = 1)
    {l : HTree R} (hm : l ∈ (getLeavesH A).2) (hh : l.label.Has j i) :
    A.entry i j = if A.label.symL = .S then l.label.val (j - l.label.toff) (i - l.label.soff) else star (l.label.val (j - l.label.toff) (i - l.label.soff)) := by
  have h1 : 0 < (getLeavesH A).2.countP (fun l => decide (l.label.Has j i)) := List.countP_pos_iff.2 ⟨l, hm, by simpa using hh⟩
  rcases entry_cases hflag hc with ⟨l', hl', hh', -⟩ | ⟨-, l', hl', hh', he⟩
  · have : 0 < (getLeavesH A).1.countP (fun l => decide (l.label.Has i j)) :=
      List.countP_pos_iff.2 ⟨l', (getLeavesH_perm A).1.mem_iff.2 hl', by simpa using hh'⟩
    omega
  · have : l' = l := count_unique (p := fun l : HTree R => l.label.Has j i) (by omega) hl' hm hh' hh
    rw [he, this]

/-- The operator of an H-matrix whose root is symmetric and whose diagonal leaves are dense symmetric blocks. -/
theorem entry_symmetric {cplx : Bool} {σ : HSym} {A : HTree R} (hfit : A.Fit cplx σ) (hσ : σ = .S ∨ σ = .H) (hroot : A.label.sym ≠ .N)
    (hL : (getLeavesH A).2 ≠ [] → A.label.symL = σ) (hdiag : ∀ l ∈ A.leaves, l.label.toff = l.label.soff → l.label.sym = σ ∧ ∃ M, l.label.data = .dense M) {i j : ℕ}
    (c1 : (getLeavesH A).1.countP (fun l => decide (l.label.Has i j)) + (getLeavesH A).2.countP (fun l => decide (l.label.Has j i)) = 1)
    (c2 : (getLeavesH A).1.countP (fun l => decide (l.label.Has j i)) + (getLeavesH A).2.countP (fun l => decide (l.label.Has i j)) = 1) :
    A.entry i j = if σ = .S then A.entry j i else star (A.entry j i) := by
  have hN : σ ≠ .N := by rcases hσ with h | h <;> rw [h] <;> simp
  have hflag : (getLeavesH A).2 ≠ [] → A.label.symL ≠ .N := fun h => by rw [hL h]; exact hN
  have hmir : ∀ l, l ∈ (getLeavesH A).2 ↔ l ∈ A.leaves ∧ l.label.offDiag = true := by
    intro l
    rw [(getLeavesH_perm A).2.mem_iff]
    have : A.label.isSym = true := by unfold HNode.isSym; simpa using hroot
    rw [this, symLeavesG_true, List.mem_filter]
  rcases entry_cases hflag c1 with ⟨l, hl, hh, he⟩ | ⟨-, l, hl, hh, he⟩
  · by_cases hd : l.label.toff = l.label.soff
    · obtain ⟨d1, M, d2⟩ := hdiag l hl hd
      have ok := hfit.leafOK l hl
      have sq := ok.square (by rw [d1]; exact hN)
      have hh' : l.label.Has j i := by
        unfold HNode.Has at hh ⊢
        rw [← hd, ← sq] at hh ⊢
        exact ⟨hh.2, hh.1⟩
      rw [he, entry_leaf hflag c2 hl hh', ← hd]
      unfold HNode.val
      rw [d2, d1]
      rcases hσ with e | e
      · subst e
        simp only [if_true]
        exact symE_symm _ _ _
      · subst e
        have hb := (ok.herm d1).2 M d2
        have hi : i - l.label.toff < l.label.tsz := by
          have : l.label.toff ≤ i ∧ i < l.label.toff + l.label.tsz := hh.1
          omega
        simp only [reduceCtorEq, if_false]
        exact (herE_symm hb hi).symm
    · have hm := (hmir l).2 ⟨hl, by unfold HNode.offDiag; simpa using hd⟩
      rw [he, entry_mirror_leaf hflag c2 hm hh, hL (List.ne_nil_of_mem hm)]
      split_ifs <;> simp
  · rw [he, entry_leaf hflag c2 ((hmir l).1 hl).1 hh, hL (List.ne_nil_of_mem hl)]

section built
variable {D : Type*} {S : Strategies D G} {flog : ℕ → ℕ → ℕ} {fuel n nc : ℕ} {arg : PartArg} {t : CTree G} {st : CState G} {E : BEnv G}
  {lr : LRGen R} {dg : Option (DenseGen R)} {gen : ℕ → ℕ → R}

omit [CommRing R] [StarRing R] in
/-- Intervals of a tiling with the same beginning. -/
theorem tiles_same {l : List (ℕ × ℕ)} {a b : ℕ} (h : Tiles a b l) (hp : ∀ x ∈ l, 0 < x.2) {x y : ℕ × ℕ} (hx : x ∈ l) (hy : y ∈ l) (e : x.1 = y.1) : x = y := by
  induction l generalizing a with
  | nil => simp at hx
  | cons z l ih =>
    obtain ⟨o, s⟩ := z
    obtain ⟨e1, h2⟩ : o = a ∧ Tiles (a + s) b l := h
    have hs : 0 < s := hp (o, s) (by simp)
    rcases List.mem_cons.1 hx with rfl | hx <;> rcases List.mem_cons.1 hy with rfl | hy
    · rfl
    · have := (h2.mem_bounds hy).1; simp only at e; omega
    · have := (h2.mem_bounds (by assumption)).1; simp only at e; omega
    · exact ih h2 (fun w hw => hp w (by simp [hw])) hx hy

omit [CommRing R] [StarRing R] in
/-- Childless clusters with the same offset have the same size. -/
theorem Setting.leaf_size (hS : Setting S flog fuel n nc arg t st E) {c d : CTree G} (hc : c ∈ t.pre) (hd : d ∈ t.pre) (lc : c.isLeaf = true) (ld : d.isLeaf = true)
    (h : c.off = d.off) : c.sz = d.sz := by
  have good := hS.good
  have hT : HierTiles t := by
    have := good.wfT.hier
    rw [hS.tct] at this
    exact this
  have pos : ∀ u ∈ t.pre, 0 < u.label.size := by
    have := good.posT
    rw [hS.tct] at this
    exact this
  have ml : ∀ {u : CTree G}, u ∈ t.pre → u.isLeaf = true → u.label.iv ∈ t.leaves.map (fun u => u.label.iv) := by
    intro u hu lu
    refine List.mem_map_of_mem (f := fun u : CTree G => u.label.iv) ((Tree.mem_leaves_iff _ _).2 ⟨hu, ?_⟩)
    simpa [Tree.isLeaf] using lu
  have := tiles_same hT.leaves (by
    intro x hx
    obtain ⟨u, hu, rfl⟩ := List.mem_map.1 hx
    exact pos u ((Tree.mem_leaves_iff _ _).1 hu).1) (ml hc lc) (ml hd ld) h
  exact congrArg Prod.snd this

/-- **C79.** An H-matrix built with a symmetry, under any schedule and with any compressor, represents an exactly symmetric matrix ('S') or an exactly hermitian one
('H'), in cluster numbering. The admissibility condition must not hold for two clusters with the same first point. -/
theorem C79_symmetric_operator (hS : Setting S flog fuel n nc arg t st E) (hsym : E.sym ≠ .N)
    (hadm : ∀ c ∈ t.pre, ∀ d ∈ t.pre, c.off = d.off → E.adm c.label d.label = false) {T : ℕ} (hT : 0 < T) {cplx : Bool} {fuel' : ℕ} {m m' : Mem R}
    (hgen : UserGen E cplx dg gen t.iv) {B' : Builder} {H : Tree ℕ} (h : BuildStep T E lr dg fuel' t t gen m Builder.empty m' B' H) :
    ∀ i < n, ∀ j < n, HTree.entry (H.map m'.heap) i j =
      if E.sym = .S then HTree.entry (H.map m'.heap) j i else star (HTree.entry (H.map m'.heap) j i) := by
  obtain ⟨b, h1, h2, -⟩ := build_spec hT hS.covered.buildOK (sysInv_empty m) h
  obtain ⟨hb, e1, e2⟩ := hS.covered.blocks h1
  rw [← e1] at hgen
  have hg : GenOK E cplx dg gen b := hgen.genOK
  obtain ⟨p1, p2, -⟩ := hS.perm
  have m1 : t ∈ E.tct.root.pre := by rw [hS.tct]; exact Tree.mem_pre_self t
  have m2 : t ∈ E.sct.root.pre := by rw [hS.sct]; exact Tree.mem_pre_self t
  obtain ⟨b0, h0, e0⟩ := buildBlocks_inv h1
  rw [resetRoot_same h0 (Or.inl hS.tp)] at e0
  subst e0
  obtain ⟨l1, l2, -⟩ := buildBlockTree_label h0
  have nodes := buildBlockTree_nodes hS.good.wfT hS.good.wfS fuel' t t b m1 m2 h0
  have hroot : b.label.sym = true := by
    rw [(nodes b (Tree.mem_pre_self b)).2.2.1, l1, l2]
    unfold BEnv.symFlag
    simp [hsym]
  have hlab : (assembled E lr dg gen b).label = finalNode E lr dg gen b := assembled_label b
  have hN : E.sym.toH ≠ .N := fun hN => hsym (toH_inj.2.2.1.1 hN)
  have rs : (assembled E lr dg gen b).label.sym = E.sym.toH := by
    rw [hlab]
    show (if b.label.sym then E.sym.toH else .N) = _
    rw [hroot]; rfl
  have hiv : ∀ i < n, InIv i b.label.t.iv ∧ InIv i b.label.s.iv := by
    intro i hi
    rw [l1, l2]
    have e : t.iv = (0, n) := Prod.ext p1 p2
    rw [e]
    unfold InIv
    constructor <;> simp only <;> omega
  have hdiag : ∀ l ∈ (assembled E lr dg gen b).leaves, l.label.toff = l.label.soff → l.label.sym = E.sym.toH ∧ ∃ M, l.label.data = .dense M := by
    intro l hl hd
    obtain ⟨c, hc, hr⟩ := leaf_of_rel hb hl
    obtain ⟨hcp, hcl⟩ := (Tree.mem_leaves_iff _ _).1 hc
    obtain ⟨n1, n2, n3, n4, n5⟩ := nodes c hcp
    have hd' : c.label.t.off = c.label.s.off := by rw [← hr.toff, ← hr.soff, hd]
    cases hk : c.label.kind with
    | adm =>
      have := (n4 hk).1
      unfold BEnv.isAdmTask at this
      rw [hadm _ n1 _ n2 hd'] at this
      simp at this
    | dense =>
      obtain ⟨f1, f2, -⟩ := n5 hk
      have hsz := hS.leaf_size n1 n2 f1 f2 hd'
      refine ⟨?_, ?_⟩
      · rw [hr.sym, n3]
        unfold BEnv.symFlag
        simp [hsym, hd', hsz]
      · rw [hr.data]
        unfold blockData
        rw [hk]
        unfold denseData denseOf
        cases dg <;> exact ⟨_, rfl⟩
    | hier =>
      exact absurd hk (hb.data c hc)
  have hσ : E.sym.toH = .S ∨ E.sym.toH = .H := by
    cases he : E.sym with
    | N => exact absurd he hsym
    | S => exact Or.inl rfl
    | H => exact Or.inr rfl
  intro i hi j hj
  rw [h2]
  have := entry_symmetric (assembled_fit hb hg) hσ (by rw [rs]; exact hN) (fun h => (assembled_flag hb h).2) hdiag
    (assembled_cover hb ⟨(hiv i hi).1, (hiv j hj).2⟩) (assembled_cover hb ⟨(hiv j hj).1, (hiv i hi).2⟩)
  rw [this]
  simp only [toH_inj.1]

/-- **C79.** Products with a built symmetric H-matrix, under any schedules: `w · (A x) = (A w) · x` for a symmetric one. -/
theorem C79_symmetric_products [DecidableEq R] (hS : Setting S flog fuel n nc arg t st E) (hsym : E.sym = .S)
    (hadm : ∀ c ∈ t.pre, ∀ d ∈ t.pre, c.off = d.off → E.adm c.label d.label = false) {T T' : ℕ} (hT : 0 < T) (hT' : 0 < T') {cplx : Bool} {fuel' : ℕ} {m m' : Mem R}
    (hgen : UserGen E cplx dg gen t.iv) {B' : Builder} {H : Tree ℕ} (h : BuildStep T E lr dg fuel' t t gen m Builder.empty m' B' H)
    {x w y y' Ax Aw : Buf R} (h1 : OmpVec T' cplx .N 1 (H.map m'.heap) x 0 y Ax) (h2 : OmpVec T' cplx .N 1 (H.map m'.heap) w 0 y' Aw) :
    ∑ i ∈ range n, w i * Ax i = ∑ i ∈ range n, Aw i * x i := by
  have key := C79_symmetric_operator hS (by rw [hsym]; simp) hadm hT hgen h
  obtain ⟨hfit, hr, hs, -⟩ := C19_built_operator (close := fun _ _ => True) hT hS.covered hgen ⟨fun _ => trivial, fun _ _ _ => trivial⟩ (fun _ _ _ _ _ _ _ _ => trivial) h
  obtain ⟨p1, p2, -⟩ := hS.perm
  have r1 : (H.map m'.heap).label.toff = 0 := (congrArg Prod.fst hr).trans p1
  have r2 : (H.map m'.heap).label.tsz = n := (congrArg Prod.snd hr).trans p2
  have s1 : (H.map m'.heap).label.soff = 0 := (congrArg Prod.fst hs).trans p1
  have s2 : (H.map m'.heap).label.ssz = n := (congrArg Prod.snd hs).trans p2
  have sup : Supported R E.sym.toH .N := by rw [hsym]; exact Or.inl (by simp)
  have spec : ∀ {x y z : Buf R}, OmpVec T' cplx .N 1 (H.map m'.heap) x 0 y z → ∀ i < n, z i = ∑ j ∈ range n, HTree.entry (H.map m'.heap) i j * x j := by
    intro x y z hz i hi
    rw [C20_parallel_product_is_sequential hT' hfit sup hz, C19_sequential_product hfit sup, r2, s2]
    simp only [opRows, opCols, opE, HTree.mat, r1, s1]
    simp [hi]
  calc ∑ i ∈ range n, w i * Ax i = ∑ i ∈ range n, ∑ j ∈ range n, w i * (HTree.entry (H.map m'.heap) i j * x j) :=
        Finset.sum_congr rfl fun i hi => by rw [spec h1 i (Finset.mem_range.1 hi), Finset.mul_sum]
    _ = ∑ j ∈ range n, ∑ i ∈ range n, w i * (HTree.entry (H.map m'.heap) i j * x j) := Finset.sum_comm
    _ = ∑ j ∈ range n, Aw j * x j := Finset.sum_congr rfl fun j hj => by
        rw [spec h2 j (Finset.mem_range.1 hj), Finset.sum_mul]
        refine Finset.sum_congr rfl fun i hi => ?_
        rw [key j (Finset.mem_range.1 hj) i (Finset.mem_range.1 hi), if_pos hsym]
        ring

/-- **C79.** Products with a built hermitian H-matrix, under any schedules: `wᴴ (A x) = (A w)ᴴ x`; in particular `xᴴ A x` is self-conjugate. -/
theorem C79_hermitian_products [DecidableEq R] (hS : Setting S flog fuel n nc arg t st E) (hsym : E.sym = .H)
    (hadm : ∀ c ∈ t.pre, ∀ d ∈ t.pre, c.off = d.off → E.adm c.label d.label = false) {T T' : ℕ} (hT : 0 < T) (hT' : 0 < T') {cplx : Bool} {fuel' : ℕ} {m m' : Mem R}
    (hgen : UserGen E cplx dg gen t.iv) {B' : Builder} {H : Tree ℕ} (h : BuildStep T E lr dg fuel' t t gen m Builder.empty m' B' H)
    {x w y y' Ax Aw : Buf R} (h1 : OmpVec T' cplx .N 1 (H.map m'.heap) x 0 y Ax) (h2 : OmpVec T' cplx .N 1 (H.map m'.heap) w 0 y' Aw) :
    ∑ i ∈ range n, star (w i) * Ax i = ∑ i ∈ range n, star (Aw i) * x i := by
  have key := C79_symmetric_operator hS (by rw [hsym]; simp) hadm hT hgen h
  obtain ⟨hfit, hr, hs, -⟩ := C19_built_operator (close := fun _ _ => True) hT hS.covered hgen ⟨fun _ => trivial, fun _ _ _ => trivial⟩ (fun _ _ _ _ _ _ _ _ => trivial) h
  obtain ⟨p1, p2, -⟩ := hS.perm
  have r1 : (H.map m'.heap).label.toff = 0 := (congrArg Prod.fst hr).trans p1
  have r2 : (H.map m'.heap).label.tsz = n := (congrArg Prod.snd hr).trans p2
  have s1 : (H.map m'.heap).label.soff = 0 := (congrArg Prod.fst hs).trans p1
  have s2 : (H.map m'.heap).label.ssz = n := (congrArg Prod.snd hs).trans p2
  have sup : Supported R E.sym.toH .N := by rw [hsym]; exact Or.inl (by simp)
  have spec : ∀ {x y z : Buf R}, OmpVec T' cplx .N 1 (H.map m'.heap) x 0 y z → ∀ i < n, z i = ∑ j ∈ range n, HTree.entry (H.map m'.heap) i j * x j := by
    intro x y z hz i hi
    rw [C20_parallel_product_is_sequential hT' hfit sup hz, C19_sequential_product hfit sup, r2, s2]
    simp only [opRows, opCols, opE, HTree.mat, r1, s1]
    simp [hi]
  calc ∑ i ∈ range n, star (w i) * Ax i = ∑ i ∈ range n, ∑ j ∈ range n, star (w i) * (HTree.entry (H.map m'.heap) i j * x j) :=
        Finset.sum_congr rfl fun i hi => by rw [spec h1 i (Finset.mem_range.1 hi), Finset.mul_sum]
    _ = ∑ j ∈ range n, ∑ i ∈ range n, star (w i) * (HTree.entry (H.map m'.heap) i j * x j) := Finset.sum_comm
    _ = ∑ j ∈ range n, star (Aw j) * x j := Finset.sum_congr rfl fun j hj => by
        rw [spec h2 j (Finset.mem_range.1 hj), star_sum, Finset.sum_mul]
        refine Finset.sum_congr rfl fun i hi => ?_
        rw [key j (Finset.mem_range.1 hj) i (Finset.mem_range.1 hi), if_neg (by rw [hsym]; simp), star_mul', star_star]
        ring

end built

/-- The standard admissibility condition never holds for two clusters with the same first point: the hypothesis of the theorems above is met, for every `eta`, by
the clusters of a cloud of points with non-negative radii. -/
theorem C79_standard_admissibility {D : Type*} {S : Strategies D (ℝ × (ℕ → ℝ))} {flog : ℕ → ℕ → ℕ} {fuel n nc : ℕ} {arg : PartArg} {t : CTree (ℝ × (ℕ → ℝ))}
    {st : CState (ℝ × (ℕ → ℝ))} {E : BEnv (ℝ × (ℕ → ℝ))} {dim : ℕ} {x rx w : ℕ → ℝ} (hS : Setting S flog fuel n nc arg t st E) (hgeo : S.geo = ballGeo dim x rx w)
    (hrx : ∀ i, 0 ≤ rx i) {eta : ℝ} (hE : E.adm = rjasanowSteinbach dim eta) :
    ∀ c ∈ t.pre, ∀ d ∈ t.pre, c.off = d.off → E.adm c.label d.label = false := by
  intro c hc d hd e
  obtain ⟨-, -, lp⟩ := hS.perm
  have hlen : st.perm.length = n := (C02_permutation_is_bijection hS.built.strategies hS.built.hflog hS.built.hnc hS.built.harg hS.built.build).1
  have pos : ∀ u ∈ t.pre, 0 < u.sz := by
    have := hS.good.posT
    rw [hS.tct] at this
    exact this
  have mem : ∀ u ∈ t.pre, st.perm.getD u.off 0 ∈ slice st.perm u.off u.sz := by
    intro u hu
    have h1 := pos u hu
    have h2 : u.off + u.sz ≤ n := hS.fin_le hu
    unfold slice
    rw [List.mem_iff_getElem]
    refine ⟨0, by simp; omega, ?_⟩
    rw [List.getElem_take, List.getElem_drop, List.getD_eq_getElem _ _ (by omega)]
    rfl
  rw [hE]
  refine C65_common_point_not_admissible (⟨hS.built, hS.built, hgeo, hgeo⟩ : Clouds dim x rx w x rx w S S flog flog fuel n nc fuel n nc arg arg t t st st) hc hd
    (mem c hc) (mem d hd) (hrx _) (hrx _) fun p _ => by rw [e]

/-- A compressor that keeps the first column of every block: the factors have the right dimensions, the approximation is poor. -/
def poorLr (R : Type*) [CommRing R] : LRGen R := fun gen t s => ⟨1, t.2, s.2, fun i _ => gen (t.1 + i) s.1, fun _ _ => 1⟩

/-- The hypotheses are met by hermitian H-matrices on 12 points, with a compressor making large errors: the matrix represented is hermitian all the same. -/
example : ∃ (t : CTree (List ℕ)) (st : CState (List ℕ)) (m' : Mem GaussianInt) (B' : Builder) (H : Tree ℕ),
    Setting exStrategies Nat.log 16 12 2 (.auto 2) t st (exEnv t st none none .H .L) ∧
    UserGen (R := GaussianInt) (exEnv t st none none .H .L) true none (fun i j => ⟨i * j, i - j⟩) t.iv ∧
    BuildStep 3 (exEnv t st none none .H .L) (poorLr GaussianInt) none 100 t t (fun i j => ⟨i * j, i - j⟩) (memZero GaussianInt) Builder.empty m' B' H ∧
    ∀ i < 12, ∀ j < 12, HTree.entry (H.map m'.heap) i j = star (HTree.entry (H.map m'.heap) j i) := by
  obtain ⟨t, st, -, hS, hB⟩ := exSetting GaussianInt .H .L (by simp)
  obtain ⟨m0, B0, H0, F0, h3, -⟩ := hB (fun i j => ⟨i * j, i - j⟩)
  obtain ⟨b, hr, -⟩ := build_spec (by omega) hS.covered.buildOK (sysInv_empty (memZero GaussianInt)) h3
  obtain ⟨m', B', H, hst⟩ := build_exists (T := 3) (lr := poorLr GaussianInt) (dg := none) hS.covered.buildOK
    (gen := fun i j => ⟨i * j, i - j⟩) (sysInv_empty (memZero GaussianInt)) hr
  have hg : UserGen (R := GaussianInt) (exEnv t st none none .H .L) true none (fun i j => ⟨i * j, i - j⟩) t.iv := by
    refine ⟨by simp [exEnv], by simp [exEnv], fun _ => ⟨rfl, fun i j _ _ => ?_⟩, by simp⟩
    ext
    · show (j * i : ℤ) = i * j
      ring
    · show (j - i : ℤ) = -(i - j)
      ring
  refine ⟨t, st, m', B', H, hS, hg, hst, fun i hi j hj => ?_⟩
  have := C79_symmetric_operator hS (by simp [exEnv]) (fun c hc d hd e => by
    have e' : c.label.offset = d.label.offset := e
    simp only [exEnv, Bool.or_eq_false_iff, decide_eq_false_iff_not]
    omega) (by omega) hg hst i hi j hj
  rwa [if_neg (by simp [exEnv])] at this

end Htool
