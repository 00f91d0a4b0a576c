import Verif.HLinBuild
import Verif.HLinProd
import Verif.Props.HBuild
import Verif.Props.LowRank

/-! # The linear algebra applied to H-matrices returned by the builder

`Verif/HBuild.lean` models the memory the tree builder fills (cells `HNode`), `Verif/HLin.lean` the linear algebra on trees of `FNode`, which also hold the
clusters and the storage of the matrices. Here the second is a view of the first, and a view of a built H-matrix satisfies the hypotheses of the theorems
on the linear algebra. -/

namespace Htool
variable {G R : Type*}
open Finset

/-! ## Views -/

/-- A cell of memory (`HNode`, as the builder leaves it) and the same block as the linear algebra sees it: the clusters have the offsets and sizes stored in the
cell, the flags are the same, a dense block is a matrix of that size without pivots, the factors of a low-rank block have the sizes of the block. -/
structure SameNode (h : HNode R) (n : FNode G R) : Prop where
  t : n.t.off = h.toff ∧ n.t.sz = h.tsz
  s : n.s.off = h.soff ∧ n.s.sz = h.ssz
  flags : n.sym = h.sym ∧ n.uplo = h.uplo ∧ n.symL = h.symL ∧ n.uploL = h.uploL
  data : match h.data with
    | .dense M => ∃ D, n.data = .dense D [] ∧ D.Is h.tsz h.ssz M
    | .lowRank r U V => ∃ L, n.data = .lowRank L ∧ L.U.Is h.tsz r U ∧ L.V.Is r h.ssz V
    | .hier => n.data = .hier

/-- `F` is the H-matrix `A` with block tree `b`, seen by the linear algebra. -/
structure View (E : BEnv G) (b : BTree G) (A : HTree R) (F : FTree G R) : Prop where
  clusters : Tree.Rel (fun a n => n.t = ⟨a.t, E.tct.parts⟩ ∧ n.s = ⟨a.s, E.sct.parts⟩) b F
  cells : Tree.Rel SameNode A F

/-- A matrix with given entries. -/
def viewMat [Zero R] (m n : ℕ) (f : ℕ → ℕ → R) : Mat R := ⟨m, n, fun p => if m = 0 then 0 else f (p % m) (p / m)⟩

theorem viewMat_is [Zero R] (m n : ℕ) (f : ℕ → ℕ → R) : (viewMat m n f).Is m n f := by
  refine ⟨rfl, rfl, fun i hi j _ => ?_⟩
  unfold Mat.get viewMat
  simp only
  rw [if_neg (by omega), Nat.add_mul_mod_self_right, Nat.mod_eq_of_lt hi, Nat.add_mul_div_right _ _ (by omega), Nat.div_eq_of_lt hi, zero_add]

section assembled
variable {E : BEnv G} {lr : LRGen R} {dg : Option (DenseGen R)} {gen : ℕ → ℕ → R}

/-- The cell of a block as the linear algebra sees it. -/
def viewNode [Zero R] (E : BEnv G) (a : BNode G) (h : HNode R) : FNode G R :=
  ⟨⟨a.t, E.tct.parts⟩, ⟨a.s, E.sct.parts⟩, h.sym, h.uplo, h.symL, h.uploL, match h.data with
    | .dense M => .dense (viewMat h.tsz h.ssz M) []
    | .lowRank r U V => .lowRank ⟨viewMat h.tsz r U, viewMat r h.ssz V⟩
    | .hier => .hier⟩

/-- Every built H-matrix has a view. -/
theorem view_exists [Zero R] (b : BTree G) : ∃ F : FTree G R, View E b (assembled E lr dg gen b) F := by
  induction b using Tree.ind with
  | h a cs ih =>
    have : ∃ ds : List (FTree G R), List.Forall₂ (fun c d => View E c (assembled E lr dg gen c) d) cs ds := by
      clear * - ih
      induction cs with
      | nil => exact ⟨[], .nil⟩
      | cons c cs ihc =>
        obtain ⟨d, hd⟩ := ih c (by simp)
        obtain ⟨ds, hds⟩ := ihc (fun e he => ih e (by simp [he]))
        exact ⟨d :: ds, .cons hd hds⟩
    obtain ⟨ds, hds⟩ := this
    refine ⟨.node (viewNode E a (finalNode E lr dg gen (.node a cs))) ds, ?_, ?_⟩
    · rw [Tree.Rel_node]
      exact ⟨⟨rfl, rfl⟩, hds.imp fun _ _ h => h.clusters⟩
    · rw [assembled_node, Tree.Rel_node]
      refine ⟨⟨⟨rfl, rfl⟩, ⟨rfl, rfl⟩, ⟨rfl, rfl, rfl, rfl⟩, ?_⟩, ?_⟩
      · unfold viewNode
        cases (finalNode E lr dg gen (.node a cs)).data with
        | dense M => exact ⟨_, rfl, viewMat_is _ _ _⟩
        | lowRank r U V => exact ⟨_, rfl, viewMat_is _ _ _, viewMat_is _ _ _⟩
        | hier => rfl
      · rw [List.forall₂_map_left_iff]
        exact hds.imp fun _ _ h => h.cells

/-- The nodes of a view. -/
theorem View.nodes {b0 : BTree G} : ∀ {b : BTree G} {F : FTree G R}, b ∈ b0.pre → View E b (assembled E lr dg gen b) F →
    Tree.Rel (fun a n => ∃ x ∈ b0.pre, x.label = a ∧ n.t = ⟨a.t, E.tct.parts⟩ ∧ n.s = ⟨a.s, E.sct.parts⟩ ∧ SameNode (finalNode E lr dg gen x) n) b F := by
  intro b
  induction b using Tree.ind with
  | h a cs ih =>
    intro F hb h
    cases F with
    | node n ds =>
      obtain ⟨h1, h2⟩ := Tree.Rel_node.1 h.clusters
      have hc := h.cells
      rw [assembled_node] at hc
      obtain ⟨h3, h4⟩ := Tree.Rel_node.1 hc
      rw [List.forall₂_map_left_iff] at h4
      rw [Tree.Rel_node]
      refine ⟨⟨_, hb, rfl, h1.1, h1.2, h3⟩, ?_⟩
      have key : ∀ (cs : List (BTree G)) (ds : List (FTree G R)), (∀ c ∈ cs, c ∈ b0.pre) →
          (∀ c ∈ cs, ∀ {F : FTree G R}, c ∈ b0.pre → View E c (assembled E lr dg gen c) F → Tree.Rel (fun a n => ∃ x ∈ b0.pre, x.label = a ∧
            n.t = ⟨a.t, E.tct.parts⟩ ∧ n.s = ⟨a.s, E.sct.parts⟩ ∧ SameNode (finalNode E lr dg gen x) n) c F) →
          List.Forall₂ (Tree.Rel (fun a n => n.t = ⟨a.t, E.tct.parts⟩ ∧ n.s = ⟨a.s, E.sct.parts⟩)) cs ds →
          List.Forall₂ (fun c d => Tree.Rel SameNode (assembled E lr dg gen c) d) cs ds → List.Forall₂ (Tree.Rel (fun a n => ∃ x ∈ b0.pre, x.label = a ∧
            n.t = ⟨a.t, E.tct.parts⟩ ∧ n.s = ⟨a.s, E.sct.parts⟩ ∧ SameNode (finalNode E lr dg gen x) n)) cs ds := by
        intro cs
        induction cs with
        | nil => intro ds _ _ h5 _; cases h5; exact .nil
        | cons c cs ihc =>
          intro ds hm hi h5 h6
          cases h5 with
          | cons h5 h5' =>
            cases h6 with
            | cons h6 h6' =>
              exact .cons (hi c (by simp) (hm c (by simp)) ⟨h5, h6⟩)
                (ihc _ (fun d hd => hm d (by simp [hd])) (fun d hd => hi d (by simp [hd])) h5' h6')
      exact key cs ds (fun c hc => Tree.mem_pre_trans hb (Tree.mem_pre.2 (Or.inr ⟨c, hc, Tree.mem_pre_self _⟩))) ih h2 h4

/-- Leaves of the assembled matrix. -/
theorem assembled_leaf {b x : BTree G} (hx : x ∈ b.leaves) : assembled E lr dg gen x ∈ (assembled E lr dg gen b).leaves := by
  induction b using Tree.ind with
  | h a cs ih =>
    by_cases hc : cs = []
    · subst hc
      simp only [Tree.leaves, List.mem_singleton] at hx
      subst hx
      rw [assembled_node]
      simp [Tree.leaves]
    · rw [Tree.leaves_node_ne hc, Tree.mem_leavesL] at hx
      obtain ⟨c, hcm, hxc⟩ := hx
      rw [assembled_node, Tree.leaves_node_ne (by simpa using hc), Tree.mem_leavesL]
      exact ⟨_, List.mem_map_of_mem hcm, ih c hcm hxc⟩

theorem assembled_label (b : BTree G) : (assembled E lr dg gen b).label = finalNode E lr dg gen b := by
  cases b with | node a cs => rw [assembled_node]; rfl

end assembled

section rep
variable [CommRing R] [StarRing R]

/-- A list with exactly one element satisfying `p`. -/
theorem count_unique {ι : Type*} {L : List ι} {p : ι → Prop} [DecidablePred p] (h : L.countP (fun l => decide (p l)) ≤ 1) {x y : ι} (hx : x ∈ L) (hy : y ∈ L)
    (px : p x) (py : p y) : x = y := by
  have h1 : L.countP (fun l => decide (p l)) = 1 := by
    have : 0 < L.countP (fun l => decide (p l)) := List.countP_pos_iff.2 ⟨x, hx, by simpa using px⟩
    omega
  obtain ⟨A, l, B, rfl, -, hA, hB⟩ := count_one L p h1
  have : ∀ z ∈ A ++ l :: B, p z → z = l := by
    intro z hz pz
    rcases List.mem_append.1 hz with hz | hz
    · exact absurd pz (hA z hz)
    · rcases List.mem_cons.1 hz with hz | hz
      · exact hz
      · exact absurd pz (hB z hz)
  rw [this x hx px, this y hy py]

/-- The entry of an H-matrix in a leaf. -/
theorem entry_leaf {A : HTree R} (hflag : (getLeavesH A).2 ≠ [] → A.label.symL ≠ .N) {i j : ℕ}
    (hc : (getLeavesH A).1.countP (fun l => decide (l.label.Has i j)) + (getLeavesH A).2.countP (fun l => decide (l.label.Has j i)) = 1)
    {l : HTree R} (hl : l ∈ A.leaves) (hh : l.label.Has i j) : A.entry i j = l.label.val (i - l.label.toff) (j - l.label.soff) := by
  have hm : l ∈ (getLeavesH A).1 := (getLeavesH_perm A).1.mem_iff.2 hl
  have h1 : 0 < (getLeavesH A).1.countP (fun l => decide (l.label.Has i j)) := List.countP_pos_iff.2 ⟨l, hm, by simpa using hh⟩
  rcases entry_cases hflag hc with ⟨l', hl', hh', he⟩ | ⟨-, l', hl', hh', -⟩
  · have : l' = l := count_unique (p := fun l : HTree R => l.label.Has i j) (by omega) ((getLeavesH_perm A).1.mem_iff.2 hl') hm hh' hh
    rw [he, this]
  · have : 0 < (getLeavesH A).2.countP (fun l => decide (l.label.Has j i)) := List.countP_pos_iff.2 ⟨l', hl', by simpa using hh'⟩
    omega

variable {E : BEnv G} {lr : LRGen R} {dg : Option (DenseGen R)} {gen : ℕ → ℕ → R}

/-- Where the builder may compress: the admissibility condition holds for clusters of the target tree. -/
def BEnv.admC (E : BEnv G) (p q : ClusterTree G) : Prop := p.root ∈ E.tct.root.pre ∧ E.adm p.root.label q.root.label = true

/-- **A view of a built H-matrix contains the matrix represented by the memory.** -/
theorem View.rep (good : E.Good) {fuel : ℕ} {t s : CTree G} (ht : t ∈ E.tct.root.pre) (hs : s ∈ E.sct.root.pre) {b : BTree G}
    (hbb : buildBlockTree E fuel t s = some b) (hb : BlockOK E b) (hu : E.sym ≠ .N → E.uplo ≠ .N) {F : FTree G R} (h : View E b (assembled E lr dg gen b) F) :
    Rep E.mask E.admC (assembled E lr dg gen b).entry F ∧ F.label.t = ⟨t, E.tct.parts⟩ ∧ F.label.s = ⟨s, E.sct.parts⟩ := by
  have hN := nested_of_build good.wfT good.wfS ht hs hbb
  refine shape_of_build good fuel ht hs hbb ?_
  have key := View.nodes (Tree.mem_pre_self b) h
  refine Tree.Rel.mono ?_ key
  rintro a n ⟨x, hx, rfl, h1, h2, h3⟩
  obtain ⟨k1, k2, k3, k4, k5⟩ := buildBlockTree_nodes good.wfT good.wfS fuel t s b ht hs hbb x hx
  have hflag := fun h => (assembled_flag (lr := lr) (dg := dg) (gen := gen) hb h)
  have hval : x.children = [] → ∀ i j, n.Has i j → (assembled E lr dg gen b).entry i j =
      (finalNode E lr dg gen x).val (i - n.t.off) (j - n.s.off) := by
    intro hl i j hij
    have hxl : x ∈ b.leaves := (Tree.mem_leaves_iff _ _).2 ⟨hx, hl⟩
    have hal := assembled_leaf (E := E) (lr := lr) (dg := dg) (gen := gen) hxl
    have hh : (assembled E lr dg gen x).label.Has i j := by
      rw [assembled_label]
      have : (n.t.off ≤ i ∧ i < n.t.off + n.t.sz) ∧ n.s.off ≤ j ∧ j < n.s.off + n.s.sz := hij
      rw [h3.t.1, h3.t.2, h3.s.1, h3.s.2] at this
      exact this
    have hin := hb.inside x hxl
    have hI : InIv i b.label.t.iv ∧ InIv j b.label.s.iv := by
      have : (x.label.t.off ≤ i ∧ i < x.label.t.off + x.label.t.sz) ∧ x.label.s.off ≤ j ∧ j < x.label.s.off + x.label.s.sz := by
        have : (n.t.off ≤ i ∧ i < n.t.off + n.t.sz) ∧ n.s.off ≤ j ∧ j < n.s.off + n.s.sz := hij
        rw [h1, h2] at this; exact this
      unfold Inside Tree.iv at hin; unfold InIv Tree.iv
      simp only at *
      omega
    have he := entry_leaf (fun h => by rw [(hflag h).2]; exact fun hN => (hflag h).1 (toH_inj.2.2.1.1 hN)) (assembled_cover hb hI) hal hh
    rw [assembled_label] at he
    rw [he, h3.t.1, h3.s.1]
  refine ⟨h1, h2, ?_, ?_, ?_⟩
  · -- divided blocks
    have hd := h3.data
    have e := (finalNode_rel (lr := lr) (dg := dg) (gen := gen) x (fun hN => hb.symN hN x hx)).data
    rw [e] at hd
    unfold blockData at hd
    constructor
    · intro hn
      by_contra hk
      cases hkk : x.label.kind with
      | hier => exact hk hkk
      | adm =>
        simp only [hkk] at hd
        unfold admOf denseOf at hd
        split_ifs at hd <;> (obtain ⟨_, hd, _⟩ := hd; rw [hn] at hd; cases hd)
      | dense =>
        simp only [hkk] at hd
        unfold denseData denseOf at hd
        cases dg <;> (obtain ⟨_, hd, _⟩ := hd; rw [hn] at hd; cases hd)
    · intro hk
      simp only [hk] at hd
      exact hd
  · -- symmetry flags
    have f1 : n.sym = if x.label.sym then E.sym.toH else .N := h3.flags.1
    have f2 : n.symL = if symLOf E x.label.sym (x.children.map (fun d => d.label.sym)) then E.sym.toH else .N := h3.flags.2.2.1
    by_cases hE : E.sym = .N
    · left
      have := hb.symN hE x hx
      exact ⟨by rw [f1, this]; rfl, by rw [f2, if_neg (by simp [symLOf, hE])]⟩
    · have hmask : E.mask ≠ .full := by
        unfold BEnv.mask
        rw [if_neg hE]
        cases hup : E.uplo with
        | N => exact absurd hup (hu hE)
        | L => simp
        | U => simp
      have over : ∀ d ∈ x.pre, d.label.sym = true → n.s.off < n.t.fin ∧ n.t.off < n.s.fin := by
        intro d hd hsy
        have e1 := hN.flag d (Tree.mem_pre_trans hx hd)
        rw [hsy] at e1
        have e2 := symFlag_iv e1.symm
        obtain ⟨m1, m2⟩ := hN.nest x hx d hd
        obtain ⟨q1, -⟩ := buildBlockTree_nodes good.wfT good.wfS fuel t s b ht hs hbb d (Tree.mem_pre_trans hx hd)
        have pos := good.posT _ (Tree.mem_pre_trans ht q1)
        rw [h1, h2]
        unfold ClusterTree.fin ClusterTree.off ClusterTree.sz
        unfold Inside Tree.iv at m1 m2
        unfold Tree.iv at e2
        have e3 := congrArg Prod.fst e2
        have e4 := congrArg Prod.snd e2
        simp only at *
        omega
      by_cases hsy : x.label.sym = true
      · exact Or.inr ⟨hmask, over x (Tree.mem_pre_self _) hsy⟩
      · by_cases hsl : symLOf E x.label.sym (x.children.map (fun d => d.label.sym)) = true
        · right
          refine ⟨hmask, ?_⟩
          unfold symLOf at hsl
          rw [Bool.and_eq_true] at hsl
          have hsl := hsl.2
          split_ifs at hsl with hc
          · exact absurd hsl hsy
          · rw [List.any_map, List.any_eq_true] at hsl
            obtain ⟨d, hd, hds⟩ := hsl
            exact over d (by cases x; exact Tree.mem_pre.2 (Or.inr ⟨d, hd, Tree.mem_pre_self _⟩)) hds
        · left
          exact ⟨by rw [f1, if_neg hsy], by rw [f2, if_neg hsl]⟩
  · -- data
    have e := finalNode_rel (lr := lr) (dg := dg) (gen := gen) x (fun hN => hb.symN hN x hx)
    have hd := h3.data
    cases hh : (finalNode E lr dg gen x).data with
    | hier => rw [hh] at hd; rw [hd]; trivial
    | dense M =>
      rw [hh] at hd
      obtain ⟨D, hD, i1, i2, i3⟩ := hd
      rw [hD]
      have hl : x.children = [] := by
        have ed := e.data
        rw [hh] at ed
        unfold blockData at ed
        cases hk : x.label.kind with
        | hier => simp only [hk] at ed; cases ed
        | adm => exact (k4 hk).2
        | dense => exact (k5 hk).2.2.1
      refine ⟨by rw [i1, h3.t.2], by rw [i2, h3.s.2], fun i j hij hm => ?_⟩
      have hij' : (n.t.off ≤ i ∧ i < n.t.off + n.t.sz) ∧ n.s.off ≤ j ∧ j < n.s.off + n.s.sz := hij
      rw [hval hl i j hij, i3 _ (by rw [← h3.t.2]; omega) _ (by rw [← h3.s.2]; omega)]
      unfold HNode.val
      rw [hh]
      simp only
      -- symmetric blocks: the stored half
      have half : x.label.sym = true → (match E.uplo with | .U => i - n.t.off ≤ j - n.s.off | _ => j - n.s.off ≤ i - n.t.off) := by
        intro hsy
        rw [k3] at hsy
        have e2 := symFlag_iv hsy
        have hE : E.sym ≠ .N := by
          intro h0; simp [BEnv.symFlag, h0] at hsy
        have e3 : n.t.off = n.s.off := by
          rw [h1, h2]; exact congrArg Prod.fst e2
        unfold BEnv.mask at hm
        rw [if_neg hE] at hm
        cases hup : E.uplo with
        | N => exact absurd hup (hu hE)
        | L => simp only [hup, Mask.ok] at hm ⊢; omega
        | U => simp only [hup, Mask.ok] at hm ⊢; omega
      have fu : (finalNode E lr dg gen x).uplo = if x.label.sym then E.uplo else .N := rfl
      cases hsm : (finalNode E lr dg gen x).sym with
      | N => rfl
      | nul => rfl
      | S =>
        have hsy : x.label.sym = true := by
          by_contra hc
          rw [e.sym, if_neg hc] at hsm; cases hsm
        have := half hsy
        simp only
        rw [fu, if_pos hsy]
        unfold symE
        cases hup : E.uplo <;> simp only [hup] at this ⊢ <;> rw [if_pos this]
      | H =>
        have hsy : x.label.sym = true := by
          by_contra hc
          rw [e.sym, if_neg hc] at hsm; cases hsm
        have := half hsy
        simp only
        rw [fu, if_pos hsy]
        unfold herE
        cases hup : E.uplo <;> simp only [hup] at this ⊢ <;> rw [if_pos this]
    | lowRank r U V =>
      rw [hh] at hd
      obtain ⟨L, hL, ⟨u1, u2, u3⟩, v1, v2, v3⟩ := hd
      rw [hL]
      have hk : x.label.kind = .adm := by
        have ed := e.data
        rw [hh] at ed
        unfold blockData at ed
        cases hk : x.label.kind with
        | hier => simp only [hk] at ed; cases ed
        | adm => rfl
        | dense =>
          simp only [hk] at ed
          unfold denseData denseOf at ed
          cases dg <;> cases ed
      obtain ⟨ka, kb⟩ := k4 hk
      refine ⟨?_, by unfold LR.WF; rw [v1, u2], by unfold LR.nr; rw [u1, h3.t.2], by unfold LR.nc; rw [v2, h3.s.2], fun i j hij hm => ?_⟩
      · unfold BEnv.admC
        rw [h1, h2]
        simp only [BEnv.isAdmTask, Bool.and_eq_true] at ka
        exact ⟨Tree.mem_pre_trans ht k1, ka.1.1.1.1.1.1⟩
      · have hij' : (n.t.off ≤ i ∧ i < n.t.off + n.t.sz) ∧ n.s.off ≤ j ∧ j < n.s.off + n.s.sz := hij
        rw [hval kb i j hij]
        unfold HNode.val LR.entry LR.rank
        rw [hh]
        simp only
        rw [u2]
        refine sum_congr rfl fun k hk => ?_
        have hk := mem_range.1 hk
        rw [u3 _ (by rw [← h3.t.2]; omega) _ hk, v3 _ hk _ (by rw [← h3.s.2]; omega)]

end rep
end Htool
