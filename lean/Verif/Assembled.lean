import Verif.HBuild
import Verif.Props.BlockTree
import Verif.Props.HProd
import Verif.Props.HOps

/-! # H-matrices returned by the builder are fit for products and hold the generator's entries -/

namespace Htool
open Htool.Tree (iv)
variable {G : Type*}

/-! ## Block trees fit for symmetric products -/

/-- What a block tree needs for the assembled H-matrix to be fit for products. -/
structure BlockOK (E : BEnv G) (b : BTree G) : Prop where
  data : ∀ c ∈ b.leaves, c.label.kind ≠ .hier
  sym : ∀ c ∈ b.leaves, c.label.sym = true → c.label.t.off = c.label.s.off ∧ c.label.t.sz = c.label.s.sz
  symN : E.sym = .N → ∀ c ∈ b.pre, c.label.sym = false
  inside : ∀ c ∈ b.leaves, Inside c.label.t.iv b.label.t.iv ∧ Inside c.label.s.iv b.label.s.iv
  mirror : ∀ c ∈ (getLeavesFrom b).2, c.label.sym = false ∧ Inside c.label.s.iv b.label.t.iv ∧ Inside c.label.t.iv b.label.s.iv
  flag : (getLeavesFrom b).2 ≠ [] → symLOf E b.label.sym (b.children.map (fun d => d.label.sym)) = true
  cover : ∀ i j, InIv i b.label.t.iv ∧ InIv j b.label.s.iv →
    (getLeavesFrom b).1.countP (fun c => decide (InBlock c i j)) + (getLeavesFrom b).2.countP (fun c => decide (InBlock c j i)) = 1

/-- Every block of the recursion is the result of the recursion for its two clusters. -/
theorem buildBlockTree_sub {E : BEnv G} : ∀ (f : ℕ) (t s : CTree G) (b : BTree G), buildBlockTree E f t s = some b →
    ∀ d ∈ b.pre, ∃ f', buildBlockTree E f' d.label.t d.label.s = some d := by
  intro f
  induction f with
  | zero => intro t s b h; simp [buildBlockTree] at h
  | succ f ih =>
    intro t s b h d hd
    rcases Tree.mem_pre.1 hd with rfl | ⟨c, hc, hdc⟩
    · obtain ⟨e1, e2, -⟩ := buildBlockTree_label h
      rw [e1, e2]; exact ⟨_, h⟩
    · obtain ⟨f', hf, h⟩ := buildBlockTree_inv h
      rcases h with ⟨hz, rfl⟩ | ⟨hz, rfl⟩ | ⟨l, cs, hst, rfl, hcs⟩
      · simp at hc
      · simp at hc
      · obtain ⟨⟨u, v⟩, hx, hxd⟩ := forall₂_mem_right hcs hc
        obtain rfl : f = f' := by omega
        exact ih u v c hxd d hdc

/-- A mirrored leaf is off-diagonal and below a symmetric block. -/
theorem symLeaves_below {fl : Bool} {b c : BTree G} (h : c ∈ symLeaves fl b) :
    c ∈ b.leaves ∧ c.label.t.off ≠ c.label.s.off ∧ (fl = true ∨ ∃ d ∈ b.pre, d.label.sym = true ∧ c ∈ d.pre) := by
  induction b using Tree.ind generalizing fl with
  | h a cs ih =>
    by_cases hc : cs = []
    · subst hc
      rw [symLeaves_leaf] at h
      split_ifs at h with hh
      · simp only [List.mem_singleton] at h
        subst h
        simp only [Bool.and_eq_true] at hh
        refine ⟨by simp [Tree.leaves], ?_, Or.inl hh.1⟩
        simpa [BNode.offDiag] using hh.2
      · simp at h
    · rw [symLeaves_node _ _ hc, List.mem_flatMap] at h
      obtain ⟨d, hd, hcd⟩ := h
      obtain ⟨h1, h2, h3⟩ := ih d hd hcd
      refine ⟨?_, h2, ?_⟩
      · rw [Tree.leaves_node_ne hc, Tree.mem_leavesL]; exact ⟨d, hd, h1⟩
      · rcases h3 with h3 | ⟨e, he, h4, h5⟩
        · simp only [Bool.or_eq_true] at h3
          rcases h3 with h3 | h3
          · refine Or.inr ⟨_, Tree.mem_pre_self _, h3, ?_⟩
            exact Tree.mem_pre.2 (Or.inr ⟨d, hd, leaves_sub_pre h1⟩)
          · exact Or.inl h3
        · exact Or.inr ⟨e, Tree.mem_pre.2 (Or.inr ⟨d, hd, he⟩), h4, h5⟩

/-- What holds for every node of the block tree. -/
structure Nested (E : BEnv G) (b : BTree G) : Prop where
  flag : ∀ d ∈ b.pre, d.label.sym = E.symFlag d.label.t d.label.s
  nest : ∀ d ∈ b.pre, ∀ c ∈ d.pre, Inside c.label.t.iv d.label.t.iv ∧ Inside c.label.s.iv d.label.s.iv

theorem inside_of_sub {u t : CTree G} (h : t.off ≤ u.off ∧ u.fin ≤ t.fin) : Inside u.iv t.iv := h

theorem Inside.trans {a b c : ℕ × ℕ} (h1 : Inside a b) (h2 : Inside b c) : Inside a c := by
  unfold Inside at *; omega

theorem symFlag_iv {E : BEnv G} {t s : CTree G} (h : E.symFlag t s = true) : t.iv = s.iv := by
  simp only [BEnv.symFlag, Bool.and_eq_true, decide_eq_true_eq] at h
  exact Prod.ext h.1.2 h.2

/-- Block trees of the recursion are nested. -/
theorem nested_of_build {E : BEnv G} (hT : E.tct.WF) (hS : E.sct.WF) {f : ℕ} {t s : CTree G} {b : BTree G} (ht : t ∈ E.tct.root.pre)
    (hs : s ∈ E.sct.root.pre) (h : buildBlockTree E f t s = some b) : Nested E b where
  flag := fun d hd => (buildBlockTree_nodes hT hS f t s b ht hs h d hd).2.2.1
  nest := by
    intro d hd c hc
    obtain ⟨h1, h2, -⟩ := buildBlockTree_nodes hT hS f t s b ht hs h d hd
    obtain ⟨f', hf'⟩ := buildBlockTree_sub f t s b h d hd
    have m1 := Tree.mem_pre_trans ht h1
    have m2 := Tree.mem_pre_trans hs h2
    obtain ⟨k1, k2, -⟩ := buildBlockTree_nodes hT hS f' _ _ d m1 m2 hf' c hc
    exact ⟨hT.contained m1 k1, hS.contained m2 k2⟩

/-- Block trees after the reset of their root are nested. -/
theorem nested_of_reset {E : BEnv G} (hT : E.tct.WF) (hS : E.sct.WF) {f : ℕ} {t s : CTree G} {b0 : BTree G} (ht : t ∈ E.tct.root.pre)
    (hs : s ∈ E.sct.root.pre) (h : buildBlockTree E f t s = some b0) {p : ℕ} {P : CTree G} (htp : E.tp = some p)
    (hP : E.tct.parts[p]? = some P) (htr : t.rk < 0)
    (hR : ∀ u ∈ t.pre, (u = P ∨ u.rk < 0) → ∀ v ∈ s.pre, E.removed u v = false) : Nested E (resetRoot E b0) := by
  have hN := nested_of_build hT hS ht hs h
  obtain ⟨a, cs, e, ha1, ha2, ha3, hperm, -⟩ := resetRoot_part h htp htr hP
  obtain ⟨g1, -⟩ := gather_cover hT hS htp hP f t s b0 ht hs htr hR h
  rw [e]
  have hP' : P ∈ E.tct.root.pre := hT.parts_mem P (List.mem_of_getElem? hP)
  constructor
  · intro d hd
    rcases Tree.mem_pre.1 hd with rfl | ⟨g, hg, hdg⟩
    · rw [Tree.label_node, ha3, ha1, ha2]
    · exact hN.flag d (Tree.mem_pre_trans (g1 g (hperm.mem_iff.1 hg)).1 hdg)
  · intro d hd c hc
    rcases Tree.mem_pre.1 hd with rfl | ⟨g, hg, hdg⟩
    · rcases Tree.mem_pre.1 hc with rfl | ⟨g, hg, hcg⟩
      · exact ⟨⟨le_refl _, le_refl _⟩, ⟨le_refl _, le_refl _⟩⟩
      · obtain ⟨k1, k2, k3, -⟩ := g1 g (hperm.mem_iff.1 hg)
        obtain ⟨n1, n2⟩ := hN.nest g k1 c hcg
        rw [Tree.label_node, ha1, ha2]
        refine ⟨by rw [← k2]; exact n1, n2.trans (hS.contained hs k3)⟩
    · exact hN.nest d (Tree.mem_pre_trans (g1 g (hperm.mem_iff.1 hg)).1 hdg) c hc

/-- The geometric part of `BlockOK` holds for every nested block tree. -/
theorem Nested.mirror {E : BEnv G} {b : BTree G} (h : Nested E b) {c : BTree G} (hc : c ∈ (getLeavesFrom b).2) :
    c.label.sym = false ∧ Inside c.label.s.iv b.label.t.iv ∧ Inside c.label.t.iv b.label.s.iv := by
  obtain ⟨-, p2⟩ := getLeavesFrom_perm b
  obtain ⟨h1, h2, h3⟩ := symLeaves_below (p2.mem_iff.1 hc)
  have hcb := leaves_sub_pre h1
  constructor
  · by_contra hn
    have hn : c.label.sym = true := by simpa using hn
    rw [h.flag c hcb] at hn
    exact h2 (congrArg Prod.fst (symFlag_iv hn))
  · have : ∃ d ∈ b.pre, d.label.sym = true ∧ c ∈ d.pre := by
      rcases h3 with h3 | h3
      · exact ⟨b, Tree.mem_pre_self _, h3, hcb⟩
      · exact h3
    obtain ⟨d, hd, hs, hcd⟩ := this
    rw [h.flag d hd] at hs
    have e := symFlag_iv hs
    obtain ⟨n1, n2⟩ := h.nest d hd c hcd
    obtain ⟨n3, n4⟩ := h.nest b (Tree.mem_pre_self _) d hd
    refine ⟨?_, ?_⟩
    · rw [← e] at n2; exact n2.trans n3
    · rw [e] at n1; exact n1.trans n4

theorem Nested.blockOK {E : BEnv G} {b : BTree G} (h : Nested E b) (hd : ∀ c ∈ b.leaves, c.label.kind ≠ .hier)
    (hf : (getLeavesFrom b).2 ≠ [] → symLOf E b.label.sym (b.children.map (fun d => d.label.sym)) = true)
    (hc : ∀ i j, InIv i b.label.t.iv ∧ InIv j b.label.s.iv →
      (getLeavesFrom b).1.countP (fun c => decide (InBlock c i j)) + (getLeavesFrom b).2.countP (fun c => decide (InBlock c j i)) = 1) :
    BlockOK E b where
  data := hd
  sym := by
    intro c hc hs
    rw [h.flag c (leaves_sub_pre hc)] at hs
    exact ⟨congrArg Prod.fst (symFlag_iv hs), congrArg Prod.snd (symFlag_iv hs)⟩
  symN := by
    intro hN d hd
    rw [h.flag d hd, symFlag_N hN]
  inside := fun c hc => h.nest b (Tree.mem_pre_self _) c (leaves_sub_pre hc)
  mirror := fun c hc => h.mirror hc
  flag := hf
  cover := hc

/-- Setting (a): no symmetry. -/
theorem blockOK_N {E : BEnv G} (hT : E.tct.WF) (hS : E.sct.WF) (hposT : E.tct.Pos) (hposS : E.sct.Pos) (hsym : E.sym = .N) {f : ℕ}
    {t s : CTree G} {b : BTree G} (ht : t ∈ E.tct.root.pre) (hs : s ∈ E.sct.root.pre)
    (hp : ∀ p : ℕ, E.tp = some p → t.rk = (p : ℤ) ∨ t.rk < 0 ∧ ∃ P ∈ t.pre, E.tct.parts[p]? = some P)
    (h : buildBlocks E f t s = some b) : BlockOK E b := by
  have hd := C16_leaves_have_data hT hS hposT hposS hsym ht hs hp h
  have hd : ∀ c ∈ b.leaves, c.label.kind ≠ .hier := fun c hc => hd c (leaves_sub_pre hc) ((Tree.mem_leaves_iff _ _).1 hc).2
  have fin : Nested E b → (∀ i j, InIv i b.label.t.iv ∧ InIv j b.label.s.iv →
      (getLeavesFrom b).1.countP (fun c => decide (InBlock c i j)) = 1 ∧ (getLeavesFrom b).2 = []) → (getLeavesFrom b).2 = [] →
      BlockOK E b := by
    intro hN hc he
    refine hN.blockOK hd (fun hne => absurd he hne) ?_
    intro i j hij
    rw [(hc i j hij).1, he]; simp
  obtain ⟨b0, h0, hb⟩ := buildBlocks_inv h
  have same : (E.tp = none ∨ ∃ p : ℕ, E.tp = some p ∧ t.rk = (p : ℤ)) → BlockOK E b := by
    intro hp
    have e : b = b0 := by rw [hb, resetRoot_same h0 hp]
    obtain ⟨l1, l2, -⟩ := buildBlockTree_label h0
    have hc := C13_leaves_tile hT hS hsym ht hs hp h
    refine fin (e ▸ nested_of_build hT hS ht hs h0) ?_ (hc 0 0).2
    intro i j hij
    rw [e, l1, l2] at hij
    obtain ⟨c1, c2⟩ := hc i j
    rw [if_pos hij] at c1
    exact ⟨c1, c2⟩
  cases htp : E.tp with
  | none => exact same (Or.inl htp)
  | some p =>
    rcases hp p htp with hr | ⟨hr, P, hPt, hP⟩
    · exact same (Or.inr ⟨p, htp, hr⟩)
    · have hc := C13_leaves_tile_partition hT hS hsym ht hs htp hP hr hPt h
      refine fin (hb ▸ nested_of_reset hT hS ht hs h0 htp hP hr (fun u _ _ v _ => removed_sym_N hsym u v)) ?_ (hc 0 0).2.2.2
      intro i j hij
      obtain ⟨c1, c2, c3, c4⟩ := hc i j
      rw [c1, c2] at hij
      rw [if_pos hij] at c3
      exact ⟨c3, c4⟩

theorem removed_self {E : BEnv G} {x : CTree G} (h : 0 < x.sz) : E.removed x x = false := by
  have e1 : x.sz ≠ 0 := by omega
  simp [BEnv.removed, e1]

theorem symFlag_self {E : BEnv G} (h : E.sym ≠ .N) (x : CTree G) : E.symFlag x x = true := by simp [BEnv.symFlag, h]

/-- A diagonal block with children has a diagonal child. -/
theorem diag_child {E : BEnv G} (hpos : E.tct.Pos) (hcons : E.consistent = true) (hsym : E.sym ≠ .N) {f : ℕ} {a : CTree G} {b : BTree G}
    (ha : a ∈ E.tct.root.pre) (hin : ∀ u ∈ a.pre, E.inPart u = true) (h : buildBlockTree E f a a = some b) (hne : b.children ≠ []) :
    ∃ d ∈ b.children, d.label.sym = true := by
  obtain ⟨f', hf, h⟩ := buildBlockTree_inv h
  rcases h with ⟨hz, rfl⟩ | ⟨hz, rfl⟩ | ⟨l, cs, hst, rfl, hcs⟩
  · simp at hne
  · simp at hne
  · rcases step_diag hcons a with h1 | h1 | ⟨hc, h1⟩
    · rw [h1] at hst; simp at hst
    · rw [h1] at hst; simp at hst
    · rw [h1] at hst
      injection hst with hst
      obtain ⟨x, hx⟩ := List.exists_mem_of_ne_nil _ hc
      have hm : (x, x) ∈ l := by
        rw [← hst]
        refine List.mem_filter.2 ⟨pair_mem_pairs.2 ⟨hx, hx⟩, ?_⟩
        exact guardT_pass (hin x (child_mem_pre hx)) (removed_self (hpos x (Tree.mem_pre_trans ha (child_mem_pre hx))))
      obtain ⟨d, hd, hxd⟩ := forall₂_mem_right (List.forall₂_iff_get.2 (by
        rw [List.forall₂_iff_get] at hcs
        exact ⟨hcs.1.symm, fun i h1 h2 => hcs.2 i h2 h1⟩) : List.Forall₂ (fun c x => buildBlockTree E f' x.1 x.2 = some c) cs l) hm
      refine ⟨d, hd, ?_⟩
      rw [(buildBlockTree_label hxd).2.2]
      exact symFlag_self hsym x

theorem symLOf_child {E : BEnv G} (hsym : E.sym ≠ .N) {own : Bool} {cs : List (BTree G)} {d : BTree G} (hd : d ∈ cs) (h : d.label.sym = true) :
    symLOf E own (cs.map (fun d => d.label.sym)) = true := by
  unfold symLOf
  have hne : (cs.map (fun d => d.label.sym)).isEmpty = false := by
    cases cs with
    | nil => simp at hd
    | cons => simp
  rw [hne]
  simp only [hsym, ne_eq, not_false_eq_true, decide_true, Bool.true_and, Bool.false_eq_true, if_false, List.any_map, List.any_eq_true]
  exact ⟨d, hd, h⟩

/-- A childless block has no mirrored leaf. -/
theorem no_mirror_leaf {E : BEnv G} {b : BTree G} (hN : Nested E b) (h : b.children = []) : (getLeavesFrom b).2 = [] := by
  obtain ⟨-, p2⟩ := getLeavesFrom_perm b
  by_contra hne
  obtain ⟨c, hc⟩ := List.exists_mem_of_ne_nil _ hne
  obtain ⟨h1, -⟩ := hN.mirror hc
  obtain ⟨k1, k2, k3⟩ := symLeaves_below (p2.mem_iff.1 hc)
  have hcb : ∀ d ∈ b.pre, d = b := by
    intro d hd
    rcases Tree.mem_pre.1 hd with rfl | ⟨e, he, -⟩
    · rfl
    · rw [h] at he; simp at he
  rw [hcb c (leaves_sub_pre k1)] at h1 k2
  rcases k3 with k3 | ⟨d, hd, k3, -⟩
  · rw [h1] at k3; simp at k3
  · rw [hcb d hd, h1] at k3; simp at k3

/-- Setting (b): symmetric builder on a cluster against itself. -/
theorem blockOK_diag {E : BEnv G} (hE : E.Symm) (hps : E.psym = none) {f : ℕ} {a : CTree G} {b : BTree G}
    (ha : a ∈ E.tct.root.pre) (hp : E.tp = none ∨ ∃ p : ℕ, E.tp = some p ∧ a.rk = (p : ℤ))
    (h : buildBlocks E f a a = some b) : BlockOK E b := by
  have hd := C16_symmetric_leaves_have_data hE hps ha hp h
  obtain ⟨b0, h0, hb⟩ := buildBlocks_inv h
  have e : b = b0 := by rw [hb, resetRoot_same h0 hp]
  have hS : E.sct.WF := hE.same ▸ hE.wf
  have hN : Nested E b := e ▸ nested_of_build hE.wf hS ha (hE.same ▸ ha) h0
  obtain ⟨l1, l2, -⟩ := buildBlockTree_label h0
  refine hN.blockOK (fun c hc => hd c (leaves_sub_pre hc) ((Tree.mem_leaves_iff _ _).1 hc).2) ?_ ?_
  · intro hne
    by_cases hc : b.children = []
    · exact absurd (no_mirror_leaf hN hc) hne
    · obtain ⟨d, hd, hds⟩ := diag_child hE.pos hE.consistent hE.sym ha (inPart_below hE.wf ha hp) (e ▸ h0) hc
      exact symLOf_child hE.sym hd hds
  · intro i j hij
    rw [e, l1, l2] at hij
    rw [C14_symmetric_leaves_tile hE hps ha hp h i j, if_pos hij]

/-- A partition cluster meeting a cluster above the partition is contained in it. -/
theorem part_in_above {ct : ClusterTree G} (h : ct.WF) {s : CTree G} (hs : s ∈ ct.root.pre) (hr : s.rk < 0) {p : ℕ} {P : CTree G}
    (hP : ct.parts[p]? = some P) {i : ℕ} (h1 : InIv i P.iv) (h2 : InIv i s.iv) :
    P ∈ ct.parts.filter (fun u => leftContainsRight s u) := by
  obtain ⟨-, -, ht, -, -⟩ := h.above s hs hr
  have hsum := ind_sum_iv ht i
  rw [show ind i s.iv = 1 from if_pos h2] at hsum
  have : ∃ Q ∈ ct.parts.filter (fun u => leftContainsRight s u), InIv i Q.iv := by
    by_contra hn
    have : ((ct.parts.filter (fun u => leftContainsRight s u)).map (fun c => ind i c.iv)).sum = 0 := by
      apply List.sum_eq_zero
      intro x hx
      obtain ⟨Q, hQ, rfl⟩ := List.mem_map.1 hx
      exact if_neg (fun hc => hn ⟨Q, hQ, hc⟩)
    omega
  obtain ⟨Q, hQ, hiQ⟩ := this
  obtain ⟨hQp, -⟩ := List.mem_filter.1 hQ
  obtain ⟨q, hq, hqQ⟩ := List.getElem_of_mem hQp
  have hqQ : ct.parts[q]? = some Q := List.getElem?_eq_some_iff.2 ⟨hq, hqQ⟩
  by_cases hpq : p = q
  · subst hpq
    rw [hP] at hqQ
    injection hqQ with hqQ
    rw [hqQ]; exact hQ
  · exfalso
    have := h.disjoint_parts hP hqQ hpq
    unfold InIv Tree.iv at h1 hiQ
    unfold Tree.fin at this
    simp only at h1 hiQ
    omega

/-- The block row of `P` in which a mirrored leaf exists contains the diagonal block of `P`. -/
theorem mirror_overlap {E : BEnv G} {b : BTree G} (hN : Nested E b) (hpos : ∀ d ∈ b.pre, 0 < d.label.t.sz)
    (hne : (getLeavesFrom b).2 ≠ []) : ∃ i, InIv i b.label.t.iv ∧ InIv i b.label.s.iv := by
  obtain ⟨c, hc⟩ := List.exists_mem_of_ne_nil _ hne
  obtain ⟨h1, h2, h3⟩ := hN.mirror hc
  obtain ⟨-, p2⟩ := getLeavesFrom_perm b
  obtain ⟨k1, -, -⟩ := symLeaves_below (p2.mem_iff.1 hc)
  have hcb := leaves_sub_pre k1
  obtain ⟨n1, n2⟩ := hN.nest b (Tree.mem_pre_self _) c hcb
  have := hpos c hcb
  refine ⟨c.label.t.off, ?_, ?_⟩
  · unfold Inside Tree.iv at n1; unfold InIv Tree.iv; simp only at *; omega
  · unfold Inside Tree.iv at h3; unfold InIv Tree.iv; simp only at *; omega

theorem forall₂_mem_left {α β : Type*} {R : α → β → Prop} {l : List α} {r : List β} (h : List.Forall₂ R l r) {a : α} (ha : a ∈ l) :
    ∃ b ∈ r, R a b := by
  induction h with
  | nil => simp at ha
  | cons hab _ ih =>
    rcases List.mem_cons.1 ha with rfl | ha
    · exact ⟨_, by simp, hab⟩
    · obtain ⟨b, hb, h⟩ := ih ha; exact ⟨b, by simp [hb], h⟩

/-- Clusters below partition clusters meet only if these are the same. -/
theorem same_part {ct : ClusterTree G} (h : ct.WF) {p : ℕ} {P Q : CTree G} (hP : ct.parts[p]? = some P) (hQ : Q ∈ ct.parts) {i : ℕ}
    (h1 : InIv i P.iv) (h2 : InIv i Q.iv) : Q = P := by
  obtain ⟨q, hq, hqQ⟩ := List.getElem_of_mem hQ
  have hqQ : ct.parts[q]? = some Q := List.getElem?_eq_some_iff.2 ⟨hq, hqQ⟩
  by_cases hpq : p = q
  · subst hpq
    rw [hP] at hqQ
    injection hqQ with hqQ
    exact hqQ.symm
  · exfalso
    have := h.disjoint_parts hP hqQ hpq
    unfold InIv Tree.iv at h1 h2
    unfold Tree.fin at this
    simp only at h1 h2
    omega

/-- Setting (c): symmetry of one partition cluster, block row of that cluster. -/
theorem blockOK_local {E : BEnv G} (hE : E.Symm) {p : ℕ} {P : CTree G} (hps : E.psym = some p)
    (hP : E.tct.parts[p]? = some P) (htp : E.tp = none ∨ E.tp = some p) {f : ℕ} {s : CTree G} {b : BTree G}
    (hs : s ∈ E.tct.root.pre) (hup : s.rk < 0 ∨ s ∈ E.tct.parts)
    (h : buildBlocks E f P s = some b) : BlockOK E b := by
  have hcov := C14_local_symmetric_leaves_tile hE hps hP htp hs hup h
  obtain ⟨b0, h0, hb⟩ := buildBlocks_inv h
  have hPr := hE.wf.parts_mem P (List.mem_of_getElem? hP)
  have hrk := hE.wf.parts_rank p P hP P (Tree.mem_pre_self _)
  have e : b = b0 := by rw [hb, resetRoot_same h0 (htp.imp id (fun h => ⟨p, h, hrk⟩))]
  subst e
  have hS : E.sct.WF := hE.same ▸ hE.wf
  have hs' : s ∈ E.sct.root.pre := hE.same ▸ hs
  have hN : Nested E b := nested_of_build hE.wf hS hPr hs' h0
  obtain ⟨l1, l2, l3⟩ := buildBlockTree_label h0
  have hd := (upper_cover hE.wf hE.same hE.pos hE.consistent hE.sym hE.uplo hps htp hP f s b hs hup h0 b.label.sym
    (fun hfl => by rw [l3] at hfl; exact flag_sub hfl)).1
  have hnodes := buildBlockTree_nodes hE.wf hS f P s b hPr hs' h0
  refine hN.blockOK hd ?_ ?_
  · intro hne
    by_cases hc : b.children = []
    · exact absurd (no_mirror_leaf hN hc) hne
    obtain ⟨i, hi1, hi2⟩ := mirror_overlap hN (fun d hd => hE.pos _ (Tree.mem_pre_trans hPr (hnodes d hd).1)) hne
    rw [l1] at hi1; rw [l2] at hi2
    rcases hup with hr | hsp
    · have hPs := part_in_above hE.wf hs hr hP hi1 hi2
      by_cases hPl : P.isLeaf = true
      · -- `P` is a leaf cluster: no mirrored leaf
        exfalso
        obtain ⟨c, hcm⟩ := List.exists_mem_of_ne_nil _ hne
        obtain ⟨m1, m2, m3⟩ := hN.mirror hcm
        obtain ⟨-, p2⟩ := getLeavesFrom_perm b
        obtain ⟨k1, k2, -⟩ := symLeaves_below (p2.mem_iff.1 hcm)
        have hcb := leaves_sub_pre k1
        obtain ⟨q1, q2, -, q4, q5⟩ := hnodes c hcb
        have onlyP : ∀ u ∈ P.pre, u = P := by
          intro u hu
          rcases Tree.mem_pre.1 hu with rfl | ⟨x, hx, -⟩
          · rfl
          · rw [isLeaf_iff.1 hPl] at hx; simp at hx
        have hct := onlyP _ q1
        have hcs := Tree.mem_pre_trans hs q2
        have hsrk : 0 ≤ c.label.s.rk := by
          by_contra hneg
          have hneg : c.label.s.rk < 0 := by omega
          cases hk : c.label.kind with
          | hier => exact hd c k1 hk
          | adm =>
            have := (q4 hk).1
            simp only [BEnv.isAdmTask, hE.consistent, Bool.and_eq_true, decide_eq_true_eq, Bool.not_true, Bool.false_or] at this
            omega
          | dense =>
            have := (q5 hk).2.1
            exact (hE.wf.above _ hcs hneg).1 (isLeaf_iff.1 this)
        obtain ⟨Q, hQ, hsQ⟩ := hE.wf.ranked _ hcs hsrk
        have hpc := hE.pos _ hcs
        have hQr := hE.wf.parts_mem Q hQ
        have hin := hE.wf.contained hQr hsQ
        rw [l1] at m2
        have : Q = P := by
          refine same_part hE.wf hP hQ (i := c.label.s.off) ?_ ?_
          · unfold Inside Tree.iv at m2; unfold InIv Tree.iv; simp only at *; omega
          · unfold Tree.fin at hin; unfold InIv Tree.iv; simp only at *; omega
        subst this
        have hcs2 := onlyP _ hsQ
        exact k2 (by rw [hct, hcs2])
      · -- the diagonal block of `P` is a child
        obtain ⟨f', hf, hh⟩ := buildBlockTree_inv h0
        have hsl : s.isLeaf = false := isLeaf_false.2 (hE.wf.above s hs hr).1
        have hnadm : E.isAdmTask P s = false := by
          by_contra hA
          simp only [BEnv.isAdmTask, hE.consistent, Bool.and_eq_true, decide_eq_true_eq, Bool.not_true, Bool.false_or,
            Bool.not_eq_false] at hA
          omega
        have hstep : E.step P s = .split ((pairs [P] (E.sParts s)).filter (fun x => !E.removed x.1 x.2)) := by
          unfold BEnv.step
          rw [hnadm, if_neg (by simp), hsl, if_neg (by simp), if_neg (by simp), if_neg hPl, if_pos hE.consistent,
            if_neg (by omega), if_pos (by omega)]
        rcases hh with ⟨hz, -⟩ | ⟨hz, -⟩ | ⟨l, cs, hst, rfl, hcs⟩
        · rw [hstep] at hz; simp at hz
        · rw [hstep] at hz; simp at hz
        · rw [hstep] at hst
          injection hst with hst
          have hm : (P, P) ∈ l := by
            rw [← hst]
            refine List.mem_filter.2 ⟨pair_mem_pairs.2 ⟨by simp, ?_⟩, ?_⟩
            · unfold BEnv.sParts; rw [hE.same]; exact hPs
            · simp [removed_self (E := E) (hE.pos P hPr)]
          obtain ⟨d, hd, hxd⟩ := forall₂_mem_left hcs hm
          refine symLOf_child hE.sym (cs := cs) hd ?_
          rw [(buildBlockTree_label hxd).2.2]; exact symFlag_self hE.sym P
    · have : s = P := same_part hE.wf hP hsp hi1 hi2
      subst this
      obtain ⟨d, hd, hds⟩ := diag_child hE.pos hE.consistent hE.sym hPr
        (inPart_below hE.wf hPr (htp.imp id (fun h => ⟨p, h, hrk⟩))) h0 hc
      exact symLOf_child hE.sym hd hds
  · intro i j hij
    rw [l1, l2] at hij
    rw [hcov i j, if_pos hij]

/-- Above the partition the diagonal block of `P` is gathered. -/
theorem gather_diag {E : BEnv G} (hE : E.Symm) {p : ℕ} {P : CTree G} (hps : E.psym = some p) (hP : E.tct.parts[p]? = some P)
    (htp : E.tp = some p) : ∀ (f : ℕ) (a : CTree G) (b : BTree G), a ∈ E.tct.root.pre → a.rk < 0 → P ∈ a.pre →
    buildBlockTree E f a a = some b → ∃ g ∈ gather p b, g.label.sym = true := by
  intro f
  have hPrk := hE.wf.parts_rank p P hP P (Tree.mem_pre_self _)
  have hPr := hE.wf.parts_mem P (List.mem_of_getElem? hP)
  induction f with
  | zero => intro a b _ _ _ h; simp [buildBlockTree] at h
  | succ f ih =>
    intro a b ha hr hPa h
    obtain ⟨f', hf, hh⟩ := buildBlockTree_inv h
    obtain rfl : f = f' := by omega
    have hch := (hE.wf.above a ha hr).1
    rcases step_diag hE.consistent a with h1 | h1 | ⟨hc, h1⟩
    · exfalso
      unfold BEnv.step at h1
      by_cases hA : E.isAdmTask a a = true
      · simp only [BEnv.isAdmTask, Bool.and_eq_true, decide_eq_true_eq] at hA; omega
      · rw [if_neg hA] at h1
        repeat' split at h1
        all_goals simp at h1
    · exfalso
      unfold BEnv.step at h1
      by_cases hA : E.isAdmTask a a = true
      · simp only [BEnv.isAdmTask, Bool.and_eq_true, decide_eq_true_eq] at hA; omega
      · rw [if_neg hA, isLeaf_false.2 hch, if_neg (by simp)] at h1
        repeat' split at h1
        all_goals simp at h1
    · rw [h1] at hh
      rcases hh with ⟨hz, -⟩ | ⟨hz, -⟩ | ⟨l, cs, hst, rfl, hcs⟩
      · simp at hz
      · simp at hz
      · injection hst with hst
        have hne : P ≠ a := by rintro rfl; omega
        rcases Tree.mem_pre.1 hPa with h' | ⟨x, hx, hPx⟩
        · exact absurd h' hne
        have hxr := Tree.mem_pre_trans ha (child_mem_pre hx)
        have hxx : x = P ∨ x.rk < 0 := by
          by_cases hxrk : x.rk < 0
          · exact Or.inr hxrk
          · left
            have hxp := (hE.wf.above a ha hr).2.2.2.2 x hx (by omega)
            obtain ⟨q, hq, hqx⟩ := List.getElem_of_mem hxp
            have hqx : E.tct.parts[q]? = some x := List.getElem?_eq_some_iff.2 ⟨hq, hqx⟩
            have := hE.wf.parts_rank q x hqx P hPx
            have : q = p := by omega
            subst this
            rw [hP] at hqx; injection hqx with hqx; exact hqx.symm
        have hm : (x, x) ∈ l := by
          rw [← hst]
          refine List.mem_filter.2 ⟨pair_mem_pairs.2 ⟨hx, hx⟩, ?_⟩
          have := removed_self (E := E) (hE.pos x hxr)
          simp only [BEnv.guardT, this, Bool.not_false, Bool.and_true, Bool.or_eq_true, decide_eq_true_eq]
          rcases hxx with rfl | h'
          · left; simp [BEnv.inPart, htp, hPrk]
          · exact Or.inr h'
        obtain ⟨d, hd, hxd⟩ := forall₂_mem_left hcs hm
        obtain ⟨d1, d2, d3⟩ := buildBlockTree_label hxd
        simp only at d1 d2 d3
        rw [gather_node]
        rcases hxx with rfl | h'
        · refine ⟨d, List.mem_flatMap.2 ⟨d, hd, ?_⟩, ?_⟩
          · rw [if_pos (by rw [d1]; exact hPrk)]; simp
          · rw [d3]; exact symFlag_self hE.sym _
        · obtain ⟨g, hg, hgs⟩ := ih x d hxr h' hPx hxd
          refine ⟨g, List.mem_flatMap.2 ⟨d, hd, ?_⟩, hgs⟩
          rw [if_neg (by rw [d1]; omega)]; exact hg

/-- Setting (d): block row of a partition cluster, from a root cluster above the partition (against itself). -/
theorem blockOK_partition {E : BEnv G} (hE : E.Symm) {p : ℕ} {P : CTree G} (hps : E.psym = some p)
    (hP : E.tct.parts[p]? = some P) (htp : E.tp = some p) {f : ℕ} {a : CTree G} {b : BTree G}
    (ha : a ∈ E.tct.root.pre) (hr : a.rk < 0) (hPa : P ∈ a.pre)
    (h : buildBlocks E f a a = some b) : BlockOK E b := by
  have hd := C16_partition_symmetric_leaves_have_data hE hps hP htp ha hr hPa ha (Or.inl hr) h
  have hcov := C14_partition_symmetric_leaves_tile hE hps hP htp ha hr hPa ha (Or.inl hr) h
  obtain ⟨b0, h0, hb⟩ := buildBlocks_inv h
  have hS : E.sct.WF := hE.same ▸ hE.wf
  have hN : Nested E b := by
    rw [hb]
    exact nested_of_reset hE.wf hS ha (hE.same ▸ ha) h0 htp hP hr (fun u hu hup v hv =>
      removed_top hE.wf hE.same hE.pos hE.sym hps hP (Tree.mem_pre_trans ha hu) (Tree.mem_pre_trans ha hv) hup)
  refine hN.blockOK (fun c hc => hd c (leaves_sub_pre hc) ((Tree.mem_leaves_iff _ _).1 hc).2) ?_ ?_
  · intro _
    obtain ⟨g, hg, hgs⟩ := gather_diag hE hps hP htp f a b0 ha hr hPa h0
    obtain ⟨x, cs, e, -, -, -, hperm, -⟩ := resetRoot_part h0 htp hr hP
    rw [hb, e]
    exact symLOf_child hE.sym (cs := cs) (hperm.mem_iff.2 hg) hgs
  · intro i j hij
    obtain ⟨c1, c2, c3⟩ := hcov i j
    rw [c1, c2] at hij
    rw [c3, if_pos hij]

/-! ## From block trees to H-matrices -/

section hmat
variable {R : Type*}

/-- Data of a block. -/
def blockData (E : BEnv G) (lr : LRGen R) (dg : Option (DenseGen R)) (gen : ℕ → ℕ → R) (a : BNode G) : HData R :=
  match a.kind with
  | .adm => admOf lr gen (mkCell E a)
  | .dense => denseData dg gen (mkCell E a)
  | .hier => .hier

/-- A block and the corresponding node of the assembled H-matrix. -/
structure NodeRel (E : BEnv G) (lr : LRGen R) (dg : Option (DenseGen R)) (gen : ℕ → ℕ → R) (a : BNode G) (n : HNode R) : Prop where
  toff : n.toff = a.t.off
  tsz : n.tsz = a.t.sz
  soff : n.soff = a.s.off
  ssz : n.ssz = a.s.sz
  sym : n.sym = if a.sym then E.sym.toH else .N
  uplo : n.uplo = if a.sym then E.uplo else .N
  data : n.data = blockData E lr dg gen a
  flag : E.sym = .N → a.sym = false

theorem finalNode_rel {E : BEnv G} {lr : LRGen R} {dg : Option (DenseGen R)} {gen : ℕ → ℕ → R} (c : BTree G)
    (h : E.sym = .N → c.label.sym = false) : NodeRel E lr dg gen c.label (finalNode E lr dg gen c) := by
  refine ⟨rfl, rfl, rfl, rfl, rfl, rfl, ?_, h⟩
  unfold finalNode blockData denseData
  simp only
  cases c.label.kind with
  | adm => rfl
  | dense => cases dg <;> rfl
  | hier => rfl

theorem assembled_rel {E : BEnv G} {lr : LRGen R} {dg : Option (DenseGen R)} {gen : ℕ → ℕ → R} (b : BTree G)
    (h : E.sym = .N → ∀ c ∈ b.pre, c.label.sym = false) : Tree.Rel (NodeRel E lr dg gen) b (assembled E lr dg gen b) := by
  induction b using Tree.ind with
  | h a cs ih =>
    rw [assembled_node, Tree.Rel_node]
    refine ⟨finalNode_rel _ (fun hN => h hN _ (Tree.mem_pre_self _)), ?_⟩
    rw [List.forall₂_map_right_iff]
    exact List.forall₂_same.2 (fun c hc => ih c hc (fun hN d hd => h hN d (Tree.mem_pre.2 (Or.inr ⟨c, hc, hd⟩))))

theorem leavesLoop_eq (st : List (BTree G × Bool)) : leavesLoop st = leavesLoopG BNode.sym BNode.offDiag st := by
  induction h : Tree.countL (st.map Prod.fst) using Nat.strong_induction_on generalizing st with
  | _ n ih =>
    match st with
    | [] => simp [leavesLoop, leavesLoopG]
    | (b, fl) :: stack =>
      rw [leavesLoop, leavesLoopG]
      have := ih _ (by
        subst h
        simp only [Tree.pushAll_eq, List.map_append, List.map_reverse, List.map_map, Tree.countL_append,
          Tree.countL_reverse, List.map_cons, Tree.countL_cons]
        have e : ((Prod.fst : BTree G × Bool → BTree G) ∘ fun c => (c, b.label.sym || fl)) = id := rfl
        rw [e, List.map_id]
        cases b with
        | node a cs => simp only [Tree.children_node]; rw [Tree.count_node]; omega)
        (Tree.pushAll (b.children.map (fun c => (c, b.label.sym || fl))) stack) rfl
      rw [this]

theorem NodeRel.flags {E : BEnv G} {lr : LRGen R} {dg : Option (DenseGen R)} {gen : ℕ → ℕ → R} {a : BNode G} {n : HNode R}
    (h : NodeRel E lr dg gen a n) : a.sym = n.isSym ∧ a.offDiag = n.offDiag := by
  constructor
  · unfold HNode.isSym
    rw [h.sym]
    cases hs : a.sym with
    | false => simp
    | true =>
      have : E.sym ≠ .N := fun hN => by have := h.flag hN; rw [hs] at this; simp at this
      cases hE : E.sym with
      | N => exact absurd hE this
      | S => simp [SymType.toH]
      | H => simp [SymType.toH]
  · unfold BNode.offDiag HNode.offDiag
    rw [h.toff, h.soff]

/-- Leaves of the H-matrix correspond to leaves of the block tree. -/
theorem leaves_rel {E : BEnv G} {lr : LRGen R} {dg : Option (DenseGen R)} {gen : ℕ → ℕ → R} {b : BTree G} (hb : BlockOK E b) :
    List.Forall₂ (Tree.Rel (NodeRel E lr dg gen)) (getLeavesFrom b).1 (getLeavesH (assembled E lr dg gen b)).1 ∧
    List.Forall₂ (Tree.Rel (NodeRel E lr dg gen)) (getLeavesFrom b).2 (getLeavesH (assembled E lr dg gen b)).2 := by
  unfold getLeavesFrom getLeavesH getLeavesG
  rw [leavesLoop_eq]
  have hrel := assembled_rel (lr := lr) (dg := dg) (gen := gen) b hb.symN
  apply leavesLoopG_rel (fun a n h => NodeRel.flags h)
  exact .cons ⟨hrel, (NodeRel.flags hrel.label).1⟩ .nil

theorem leaf_of_rel {E : BEnv G} {lr : LRGen R} {dg : Option (DenseGen R)} {gen : ℕ → ℕ → R} {b : BTree G} (hb : BlockOK E b)
    {l : HTree R} (hl : l ∈ (assembled E lr dg gen b).leaves) : ∃ c ∈ b.leaves, NodeRel E lr dg gen c.label l.label := by
  obtain ⟨c, hc, h⟩ := forall₂_mem_right (leaves_rel hb).1 ((getLeavesH_perm _).1.mem_iff.2 hl)
  exact ⟨c, (getLeavesFrom_perm b).1.mem_iff.1 hc, h.label⟩

theorem mirror_of_rel {E : BEnv G} {lr : LRGen R} {dg : Option (DenseGen R)} {gen : ℕ → ℕ → R} {b : BTree G} (hb : BlockOK E b)
    {l : HTree R} (hl : l ∈ (getLeavesH (assembled E lr dg gen b)).2) :
    ∃ c ∈ (getLeavesFrom b).2, NodeRel E lr dg gen c.label l.label := by
  obtain ⟨c, hc, h⟩ := forall₂_mem_right (leaves_rel hb).2 hl
  exact ⟨c, hc, h.label⟩

theorem NodeRel.has {E : BEnv G} {lr : LRGen R} {dg : Option (DenseGen R)} {gen : ℕ → ℕ → R} {c : BTree G} {n : HNode R}
    (h : NodeRel E lr dg gen c.label n) (i j : ℕ) : n.Has i j ↔ InBlock c i j := by
  unfold HNode.Has InBlock Tree.iv
  rw [h.toff, h.tsz, h.soff, h.ssz]

variable [CommRing R] [StarRing R]

/-- What the builder assumes about the coefficients on the root block `b`: declared symmetry of the diagonal block, and dense blocks
generator (if any) consistent with the generator. -/
structure GenOK (E : BEnv G) (cplx : Bool) (dg : Option (DenseGen R)) (gen : ℕ → ℕ → R) (b : BTree G) : Prop where
  uplo : E.sym ≠ .N → E.uplo ≠ .N
  symS : E.sym = .S → ∀ i j, InIv i b.label.t.iv → InIv j b.label.t.iv → gen j i = gen i j
  symH : E.sym = .H → cplx = true ∧ ∀ i j, InIv i b.label.t.iv → InIv j b.label.t.iv → gen j i = star (gen i j)
  dense : ∀ d, dg = some d → ∀ c ∈ b.leaves, c.label.kind = .dense → ∀ i < c.label.t.sz, ∀ j < c.label.s.sz,
    d c.label.t.iv c.label.s.iv i j = gen (c.label.t.off + i) (c.label.s.off + j)

/-- A dense leaf holds the coefficients. -/
theorem dense_leaf {E : BEnv G} {cplx : Bool} {lr : LRGen R} {dg : Option (DenseGen R)} {gen : ℕ → ℕ → R} {b : BTree G}
    (hg : GenOK E cplx dg gen b) {c : BTree G} (hc : c ∈ b.leaves) {n : HNode R} (h : NodeRel E lr dg gen c.label n)
    {M : ℕ → ℕ → R} (hM : n.data = .dense M) {i j : ℕ} (hi : i < c.label.t.sz) (hj : j < c.label.s.sz) :
    M i j = gen (c.label.t.off + i) (c.label.s.off + j) := by
  have hd := h.data
  unfold blockData at hd
  cases hk : c.label.kind with
  | hier => simp only [hk] at hd; rw [hM] at hd; simp at hd
  | adm =>
    simp only [hk] at hd
    rw [hM] at hd
    unfold admOf at hd
    split_ifs at hd
    · unfold denseOf at hd
      injection hd with hd
      rw [hd]; rfl
  | dense =>
    simp only [hk] at hd
    rw [hM] at hd
    unfold denseData at hd
    cases hdg : dg with
    | none =>
      simp only [hdg] at hd
      unfold denseOf at hd
      injection hd with hd
      rw [hd]; rfl
    | some d =>
      simp only [hdg] at hd
      injection hd with hd
      rw [hd]
      exact hg.dense d hdg c hc hk i hi j hj

theorem toH_inj {s : SymType} : (s.toH = .S ↔ s = .S) ∧ (s.toH = .H ↔ s = .H) ∧ (s.toH = .N ↔ s = .N) ∧ s.toH ≠ .nul := by
  cases s <;> simp [SymType.toH]

/-- **Every assembled H-matrix is fit for products.** -/
theorem assembled_fit {E : BEnv G} {cplx : Bool} {lr : LRGen R} {dg : Option (DenseGen R)} {gen : ℕ → ℕ → R} {b : BTree G}
    (hb : BlockOK E b) (hg : GenOK E cplx dg gen b) : (assembled E lr dg gen b).Fit cplx E.sym.toH := by
  have hlab : (assembled E lr dg gen b).label = finalNode E lr dg gen b := by
    cases b with | node a cs => rw [assembled_node]; rfl
  have ht : ((assembled E lr dg gen b).label.toff, (assembled E lr dg gen b).label.tsz) = b.label.t.iv := by rw [hlab]; rfl
  have hs : ((assembled E lr dg gen b).label.soff, (assembled E lr dg gen b).label.ssz) = b.label.s.iv := by rw [hlab]; rfl
  refine ⟨?_, ?_, ?_, ?_⟩
  · rw [hlab]; unfold finalNode
    simp only
    split_ifs
    · exact Or.inr rfl
    · exact Or.inl rfl
  · intro l hl
    obtain ⟨c, hc, hr⟩ := leaf_of_rel hb hl
    refine ⟨?_, ?_, ?_, ?_, ?_⟩
    · rw [hr.data]
      unfold blockData
      have := hb.data c hc
      cases hk : c.label.kind with
      | hier => exact absurd hk this
      | adm => simp only; unfold admOf denseOf; split_ifs <;> simp
      | dense => simp only; unfold denseData denseOf; cases dg <;> simp
    · rw [hr.sym]; split_ifs
      · exact Or.inr rfl
      · exact Or.inl rfl
    · intro hn
      rw [hr.sym] at hn
      split_ifs at hn with hsy
      · rw [hr.tsz, hr.ssz]; exact (hb.sym c hc hsy).2
      · exact absurd rfl hn
    · intro hn
      rw [hr.sym] at hn
      rw [hr.uplo]
      split_ifs at hn ⊢ with hsy
      · exact hg.uplo (fun hN => hn (by rw [hN]; rfl))
      · exact absurd rfl hn
    · intro hH
      rw [hr.sym] at hH
      split_ifs at hH with hsy
      have hEH := toH_inj.2.1.1 hH
      obtain ⟨hcp, hgen⟩ := hg.symH hEH
      refine ⟨hcp, ?_⟩
      intro M hM i hi
      rw [hr.tsz] at hi
      obtain ⟨e1, e2⟩ := hb.sym c hc hsy
      rw [dense_leaf hg hc hr hM hi (by omega), ← e1]
      have hin := (hb.inside c hc).1
      have hii : InIv (c.label.t.off + i) b.label.t.iv := by
        unfold Inside Tree.iv at hin; unfold InIv Tree.iv; simp only at *; omega
      exact (hgen _ _ hii hii).symm
  · intro l hl
    obtain ⟨c, hc, hr⟩ := leaf_of_rel hb hl
    rw [ht, hs, hr.toff, hr.tsz, hr.soff, hr.ssz]
    exact hb.inside c hc
  · intro l hl
    obtain ⟨c, hc, hr⟩ := mirror_of_rel hb hl
    obtain ⟨m1, m2, m3⟩ := hb.mirror c hc
    rw [ht, hs, hr.toff, hr.tsz, hr.soff, hr.ssz]
    refine ⟨?_, m2, m3⟩
    rw [hr.sym, m1]; simp

/-- A list with exactly one element satisfying `p`, outside of which `f` vanishes. -/
theorem sum_one {ι M : Type*} [AddCommMonoid M] (L : List ι) (p : ι → Prop) [DecidablePred p] (f : ι → M) (h0 : ∀ l ∈ L, ¬ p l → f l = 0) :
    (L.countP (fun l => decide (p l)) = 0 → (L.map f).sum = 0) ∧
    (L.countP (fun l => decide (p l)) = 1 → ∃ l ∈ L, p l ∧ (L.map f).sum = f l) := by
  induction L with
  | nil => simp
  | cons a L ih =>
    obtain ⟨i0, i1⟩ := ih (fun l hl => h0 l (by simp [hl]))
    by_cases ha : p a
    · constructor
      · intro h; simp [List.countP_cons, ha] at h
      · intro h
        refine ⟨a, by simp, ha, ?_⟩
        have : L.countP (fun l => decide (p l)) = 0 := by simpa [List.countP_cons, ha] using h
        rw [List.map_cons, List.sum_cons, i0 this, add_zero]
    · have e : (a :: L).countP (fun l => decide (p l)) = L.countP (fun l => decide (p l)) := by simp [List.countP_cons, ha]
      rw [e, List.map_cons, List.sum_cons, h0 a (by simp) ha, zero_add]
      refine ⟨i0, ?_⟩
      intro h
      obtain ⟨l, hl, h1, h2⟩ := i1 h
      exact ⟨l, by simp [hl], h1, h2⟩

/-- An entry of the operator is the value of the only stored leaf, or mirrored leaf, which contains it. -/
theorem entry_cases {A : HTree R} (hflag : (getLeavesH A).2 ≠ [] → A.label.symL ≠ .N) {i j : ℕ}
    (hc : (getLeavesH A).1.countP (fun l => decide (l.label.Has i j)) + (getLeavesH A).2.countP (fun l => decide (l.label.Has j i)) = 1) :
    (∃ l ∈ A.leaves, l.label.Has i j ∧ A.entry i j = l.label.val (i - l.label.toff) (j - l.label.soff)) ∨
    (A.label.symL ≠ .N ∧ ∃ l ∈ (getLeavesH A).2, l.label.Has j i ∧ A.entry i j =
      if A.label.symL = .S then l.label.val (j - l.label.toff) (i - l.label.soff)
      else star (l.label.val (j - l.label.toff) (i - l.label.soff))) := by
  have hp := getLeavesH_perm A
  obtain ⟨a0, a1⟩ := sum_one (getLeavesH A).1 (fun l => l.label.Has i j) (fun l => l.label.own i j)
    (fun l _ h => by unfold HNode.own; rw [if_neg h])
  obtain ⟨b0, b1⟩ := sum_one (getLeavesH A).2 (fun l => l.label.Has j i) (fun l => l.label.mirror A.label.symL i j)
    (fun l _ h => by unfold HNode.mirror HNode.own; rw [if_neg h]; simp)
  unfold HTree.entry
  rcases Nat.add_eq_one_iff.1 hc with ⟨h1, h2⟩ | ⟨h1, h2⟩
  · right
    have hne : (getLeavesH A).2 ≠ [] := by intro h; rw [h] at h2; simp at h2
    obtain ⟨l, hl, h3, h4⟩ := b1 h2
    refine ⟨hflag hne, l, hl, h3, ?_⟩
    rw [a0 h1, if_pos (hflag hne), h4, zero_add]
    unfold HNode.mirror HNode.own
    rw [if_pos h3]
  · left
    obtain ⟨l, hl, h3, h4⟩ := a1 h1
    refine ⟨l, hp.1.mem_iff.1 hl, h3, ?_⟩
    rw [h4, b0 h2]
    unfold HNode.own
    rw [if_pos h3]; simp

theorem forall₂_countP {α β : Type*} {r : α → β → Prop} {L : List α} {M : List β} (h : List.Forall₂ r L M) {p : α → Bool} {q : β → Bool}
    (hpq : ∀ a b, r a b → p a = q b) : L.countP p = M.countP q := by
  induction h with
  | nil => rfl
  | cons h1 _ ih => rw [List.countP_cons, List.countP_cons, ih, hpq _ _ h1]

/-- Leaves of an assembled H-matrix cover its block exactly once. -/
theorem assembled_cover {E : BEnv G} {lr : LRGen R} {dg : Option (DenseGen R)} {gen : ℕ → ℕ → R} {b : BTree G}
    (hb : BlockOK E b) {i j : ℕ} (hij : InIv i b.label.t.iv ∧ InIv j b.label.s.iv) :
    (getLeavesH (assembled E lr dg gen b)).1.countP (fun l => decide (l.label.Has i j)) +
      (getLeavesH (assembled E lr dg gen b)).2.countP (fun l => decide (l.label.Has j i)) = 1 := by
  obtain ⟨h1, h2⟩ := leaves_rel (lr := lr) (dg := dg) (gen := gen) hb
  rw [← hb.cover i j hij]
  congr 1
  · exact (forall₂_countP h1 (fun c l h => by rw [decide_eq_decide]; exact (NodeRel.has h.label i j).symm)).symm
  · exact (forall₂_countP h2 (fun c l h => by rw [decide_eq_decide]; exact (NodeRel.has h.label j i).symm)).symm

theorem assembled_flag {E : BEnv G} {lr : LRGen R} {dg : Option (DenseGen R)} {gen : ℕ → ℕ → R} {b : BTree G}
    (hb : BlockOK E b) (h : (getLeavesH (assembled E lr dg gen b)).2 ≠ []) :
    E.sym ≠ .N ∧ (assembled E lr dg gen b).label.symL = E.sym.toH := by
  obtain ⟨-, h2⟩ := leaves_rel (lr := lr) (dg := dg) (gen := gen) hb
  have hne : (getLeavesFrom b).2 ≠ [] := by
    intro he; rw [he] at h2
    exact h (List.forall₂_nil_left_iff.1 h2)
  have hf := hb.flag hne
  have hlab : (assembled E lr dg gen b).label = finalNode E lr dg gen b := by
    cases b with | node a cs => rw [assembled_node]; rfl
  constructor
  · intro hN
    simp [symLOf, hN] at hf
  · rw [hlab]; unfold finalNode; simp only; rw [if_pos hf]

/-- `close` is kept by conjugation: this holds for equality and for `‖x - y‖ ≤ ε`. -/
structure Closeness (close : R → R → Prop) : Prop where
  refl : ∀ x, close x x
  star : ∀ x y, close x y → close (star x) (star y)

/-- The low-rank generator approximates the blocks of `b` given to it, unless it reports a failure. -/
def LRClose (E : BEnv G) (close : R → R → Prop) (lr : LRGen R) (gen : ℕ → ℕ → R) (b : BTree G) : Prop :=
  ∀ c ∈ b.leaves, c.label.kind = .adm → lrFails (mkCell E c.label) (lr gen c.label.t.iv c.label.s.iv) = false →
    ∀ i < c.label.t.sz, ∀ j < c.label.s.sz,
      close (∑ k ∈ Finset.range (lr gen c.label.t.iv c.label.s.iv).rank, (lr gen c.label.t.iv c.label.s.iv).U i k *
        (lr gen c.label.t.iv c.label.s.iv).V k j) (gen (c.label.t.off + i) (c.label.s.off + j))

/-- The value of a stored leaf: the coefficients, or the product of the factors of a compression which succeeded. -/
theorem leaf_cases {E : BEnv G} {cplx : Bool} {lr : LRGen R} {dg : Option (DenseGen R)} {gen : ℕ → ℕ → R} {b : BTree G}
    (hb : BlockOK E b) (hg : GenOK E cplx dg gen b)
    {c : BTree G} (hc : c ∈ b.leaves) {n : HNode R} (hr : NodeRel E lr dg gen c.label n) :
    (∀ i < c.label.t.sz, ∀ j < c.label.s.sz, n.val i j = gen (c.label.t.off + i) (c.label.s.off + j)) ∨
    (c.label.kind = .adm ∧ lrFails (mkCell E c.label) (lr gen c.label.t.iv c.label.s.iv) = false ∧
      ∀ i j, n.val i j = ∑ k ∈ Finset.range (lr gen c.label.t.iv c.label.s.iv).rank, (lr gen c.label.t.iv c.label.s.iv).U i k *
        (lr gen c.label.t.iv c.label.s.iv).V k j) := by
  unfold HNode.val
  cases hd : n.data with
  | hier =>
    exfalso
    rw [hr.data] at hd
    unfold blockData at hd
    cases hk : c.label.kind with
    | hier => exact hb.data c hc hk
    | adm => simp only [hk] at hd; unfold admOf denseOf at hd; split_ifs at hd
    | dense => simp only [hk] at hd; unfold denseData denseOf at hd; cases dg <;> simp at hd
  | lowRank r U V =>
    simp only
    rw [hr.data] at hd
    unfold blockData at hd
    cases hk : c.label.kind with
    | hier => exact absurd hk (hb.data c hc)
    | dense => simp only [hk] at hd; unfold denseData denseOf at hd; cases dg <;> simp at hd
    | adm =>
      simp only [hk] at hd
      unfold admOf denseOf at hd
      split_ifs at hd with hf
      injection hd with e1 e2 e3
      refine Or.inr ⟨rfl, by simpa [lrOf, mkCell, Tree.iv] using hf, fun i j => ?_⟩
      rw [← e1, ← e2, ← e3]
      rfl
  | dense M =>
    left
    intro i hi j hj
    have hM := fun {i j : ℕ} (hi : i < c.label.t.sz) (hj : j < c.label.s.sz) => dense_leaf hg hc hr hd hi hj
    have hin := (hb.inside c hc).1
    have hii : ∀ i < c.label.t.sz, InIv (c.label.t.off + i) b.label.t.iv := by
      intro i hi
      unfold Inside Tree.iv at hin; unfold InIv Tree.iv; simp only at *; omega
    simp only
    cases hs : n.sym with
    | N => simp only; rw [hM hi hj]
    | nul => simp only; rw [hM hi hj]
    | S =>
      simp only
      rw [hr.sym] at hs
      split_ifs at hs with hsy
      have hE := toH_inj.1.1 hs
      obtain ⟨e1, e2⟩ := hb.sym c hc hsy
      have key : gen (c.label.t.off + j) (c.label.s.off + i) = gen (c.label.t.off + i) (c.label.s.off + j) := by
        rw [← e1]; exact hg.symS hE _ _ (hii i hi) (hii j (by omega))
      have a1 := hM hi hj
      have a2 := hM (i := j) (j := i) (by omega) (by omega)
      unfold symE
      cases n.uplo <;> simp only <;> split_ifs <;> simp only [a1, a2, key]
    | H =>
      simp only
      rw [hr.sym] at hs
      split_ifs at hs with hsy
      have hE := toH_inj.2.1.1 hs
      obtain ⟨e1, e2⟩ := hb.sym c hc hsy
      have key : star (gen (c.label.t.off + j) (c.label.s.off + i)) = gen (c.label.t.off + i) (c.label.s.off + j) := by
        rw [← e1]; exact ((hg.symH hE).2 _ _ (hii j (by omega)) (hii i hi)).symm
      have a1 := hM hi hj
      have a2 := hM (i := j) (j := i) (by omega) (by omega)
      unfold herE
      cases n.uplo <;> simp only <;> split_ifs <;> simp only [a1, a2, key]

/-- The value of a stored leaf. -/
theorem leaf_close {E : BEnv G} {cplx : Bool} {lr : LRGen R} {dg : Option (DenseGen R)} {gen : ℕ → ℕ → R} {b : BTree G}
    (hb : BlockOK E b) (hg : GenOK E cplx dg gen b) {close : R → R → Prop} (hcl : Closeness close) (hlr : LRClose E close lr gen b)
    {c : BTree G} (hc : c ∈ b.leaves) {n : HNode R} (hr : NodeRel E lr dg gen c.label n) {i j : ℕ} (hi : i < c.label.t.sz)
    (hj : j < c.label.s.sz) : close (n.val i j) (gen (c.label.t.off + i) (c.label.s.off + j)) := by
  rcases leaf_cases hb hg hc hr with h | ⟨hk, hf, h⟩
  · rw [h i hi j hj]; exact hcl.refl _
  · rw [h]; exact hlr c hc hk hf i hi j hj

/-- **Every entry of an assembled H-matrix is close to the generator's.** -/
theorem assembled_close {E : BEnv G} {cplx : Bool} {lr : LRGen R} {dg : Option (DenseGen R)} {gen : ℕ → ℕ → R} {b : BTree G}
    (hb : BlockOK E b) (hg : GenOK E cplx dg gen b) {close : R → R → Prop} (hcl : Closeness close) (hlr : LRClose E close lr gen b)
    {i j : ℕ} (hi : InIv i b.label.t.iv) (hj : InIv j b.label.s.iv) :
    close ((assembled E lr dg gen b).entry i j) (gen i j) := by
  have hflag := fun h => (assembled_flag (lr := lr) (dg := dg) (gen := gen) hb h)
  rcases entry_cases (fun h => by rw [(hflag h).2]; exact fun hN => (hflag h).1 (toH_inj.2.2.1.1 hN))
    (assembled_cover hb ⟨hi, hj⟩) with ⟨l, hl, hh, he⟩ | ⟨-, l, hl, hh, he⟩
  · obtain ⟨c, hc, hr⟩ := leaf_of_rel hb hl
    have hh' := (NodeRel.has hr i j).1 hh
    rw [he, hr.toff, hr.soff]
    unfold InBlock InIv Tree.iv at hh'
    simp only at hh'
    have := leaf_close hb hg hcl hlr hc hr (i := i - c.label.t.off) (j := j - c.label.s.off) (by omega) (by omega)
    rwa [show c.label.t.off + (i - c.label.t.off) = i by omega, show c.label.s.off + (j - c.label.s.off) = j by omega] at this
  · obtain ⟨hEN, hsl⟩ := hflag (List.ne_nil_of_mem hl)
    obtain ⟨c, hcm, hr⟩ := mirror_of_rel hb hl
    obtain ⟨m1, m2, m3⟩ := hb.mirror c hcm
    have hc : c ∈ b.leaves := (symLeaves_below ((getLeavesFrom_perm b).2.mem_iff.1 hcm)).1
    have hh' := (NodeRel.has hr j i).1 hh
    have hjt : InIv j b.label.t.iv := by
      have := (hb.inside c hc).1
      have := hh'.1
      unfold Inside Tree.iv at *; unfold InIv at *; simp only at *; omega
    rw [he, hr.toff, hr.soff, hsl]
    unfold InBlock InIv Tree.iv at hh'
    simp only at hh'
    have := leaf_close hb hg hcl hlr hc hr (i := j - c.label.t.off) (j := i - c.label.s.off) (by omega) (by omega)
    rw [show c.label.t.off + (j - c.label.t.off) = j by omega, show c.label.s.off + (i - c.label.s.off) = i by omega] at this
    cases hE : E.sym with
    | N => exact absurd hE hEN
    | S =>
      simp only [SymType.toH, if_true]
      rw [hg.symS hE j i hjt hi]; exact this
    | H =>
      simp only [SymType.toH, reduceCtorEq, if_false]
      rw [(hg.symH hE).2 j i hjt hi]; exact hcl.star _ _ this

/-- A list with exactly one element satisfying `p`. -/
theorem count_one {ι : Type*} (L : List ι) (p : ι → Prop) [DecidablePred p] (h : L.countP (fun l => decide (p l)) = 1) :
    ∃ A l B, L = A ++ l :: B ∧ p l ∧ (∀ a ∈ A, ¬ p a) ∧ ∀ a ∈ B, ¬ p a := by
  obtain ⟨l, hl, h1, -⟩ := (sum_one (M := ℕ) L p (fun l => if p l then 1 else 0) (fun l _ hl => if_neg hl)).2 h
  obtain ⟨A, B, rfl⟩ := List.append_of_mem hl
  rw [List.countP_append, List.countP_cons] at h
  simp only [h1, decide_true, if_true] at h
  have hA : A.countP (fun l => decide (p l)) = 0 := by omega
  have hB : B.countP (fun l => decide (p l)) = 0 := by omega
  rw [List.countP_eq_zero] at hA hB
  exact ⟨A, l, B, rfl, h1, fun a ha => by simpa using hA a ha, fun a ha => by simpa using hB a ha⟩

theorem sum_split {ι M : Type*} [AddCommMonoid M] {p : ι → Prop} {A B : List ι} {l : ι} (hA : ∀ a ∈ A, ¬ p a) (hB : ∀ a ∈ B, ¬ p a) (f : ι → M)
    (h0 : ∀ a, ¬ p a → f a = 0) : ((A ++ l :: B).map f).sum = f l := by
  rw [List.map_append, List.sum_append, List.map_cons, List.sum_cons, List.sum_eq_zero, List.sum_eq_zero, zero_add, add_zero]
  · intro x hx
    obtain ⟨a, ha, rfl⟩ := List.mem_map.1 hx
    exact h0 a (hB a ha)
  · intro x hx
    obtain ⟨a, ha, rfl⟩ := List.mem_map.1 hx
    exact h0 a (hA a ha)

/-- A quantity which does not change with conjugation, at an entry of the operator: what the leaves and the mirrored leaves contribute. -/
theorem assembled_sum {E : BEnv G} {cplx : Bool} {lr : LRGen R} {dg : Option (DenseGen R)} {gen : ℕ → ℕ → R} {b : BTree G}
    (hb : BlockOK E b) (hg : GenOK E cplx dg gen b) {M : Type*} [AddCommMonoid M] (f : R → R → M) (hstar : ∀ x y, f (star x) (star y) = f x y)
    {i j : ℕ} (hi : InIv i b.label.t.iv) (hj : InIv j b.label.s.iv) :
    f ((assembled E lr dg gen b).entry i j) (gen i j) =
      ((getLeavesH (assembled E lr dg gen b)).1.map (fun l => if l.label.Has i j then f (l.label.val (i - l.label.toff) (j - l.label.soff)) (gen i j) else 0)).sum +
      ((getLeavesH (assembled E lr dg gen b)).2.map (fun l => if l.label.Has j i then f (l.label.val (j - l.label.toff) (i - l.label.soff)) (gen j i) else 0)).sum := by
  have hflag := fun h => (assembled_flag (lr := lr) (dg := dg) (gen := gen) hb h)
  have hc := assembled_cover (lr := lr) (dg := dg) (gen := gen) hb ⟨hi, hj⟩
  have hmir := fun {l : HTree R} => mirror_of_rel (lr := lr) (dg := dg) (gen := gen) hb (l := l)
  unfold HTree.entry
  rcases Nat.add_eq_one_iff.1 hc with ⟨h1, h2⟩ | ⟨h1, h2⟩
  · have hne : (getLeavesH (assembled E lr dg gen b)).2 ≠ [] := by intro h; rw [h] at h2; simp at h2
    obtain ⟨hEN, hsl⟩ := hflag hne
    rw [(sum_one _ (fun l : HTree R => l.label.Has i j) (fun l => l.label.own i j) (fun l _ h => if_neg h)).1 h1,
      (sum_one _ (fun l : HTree R => l.label.Has i j) (fun l => if l.label.Has i j then f (l.label.val (i - l.label.toff) (j - l.label.soff)) (gen i j) else 0)
        (fun l _ h => if_neg h)).1 h1, zero_add, zero_add]
    obtain ⟨A, l, B, hL, hl, hA, hB⟩ := count_one _ _ h2
    have hlm : l ∈ (getLeavesH (assembled E lr dg gen b)).2 := by rw [hL]; simp
    rw [hL, sum_split hA hB _ (fun a ha => by unfold HNode.mirror HNode.own; rw [if_neg ha]; simp), sum_split hA hB _ (fun a ha => if_neg ha)]
    obtain ⟨c, hcm, hr⟩ := hmir hlm
    have hcl : c ∈ b.leaves := (symLeaves_below ((getLeavesFrom_perm b).2.mem_iff.1 hcm)).1
    have hh' := (NodeRel.has hr j i).1 hl
    have hjt : InIv j b.label.t.iv := by
      have := (hb.inside c hcl).1
      have := hh'.1
      unfold Inside Tree.iv at *; unfold InIv at *; simp only at *; omega
    rw [hsl, if_pos (show E.sym.toH ≠ .N from fun hN => hEN (toH_inj.2.2.1.1 hN))]
    unfold HNode.mirror HNode.own
    rw [if_pos hl, if_pos hl]
    cases hE : E.sym with
    | N => exact absurd hE hEN
    | S => simp only [SymType.toH, if_true]; rw [hg.symS hE j i hjt hi]
    | H => simp only [SymType.toH, reduceCtorEq, if_false]; rw [(hg.symH hE).2 j i hjt hi, hstar]
  · rw [(sum_one _ (fun l : HTree R => l.label.Has j i) (fun l => l.label.mirror (assembled E lr dg gen b).label.symL i j)
        (fun l _ h => by unfold HNode.mirror HNode.own; rw [if_neg h]; simp)).1 h2,
      (sum_one _ (fun l : HTree R => l.label.Has j i) (fun l => if l.label.Has j i then f (l.label.val (j - l.label.toff) (i - l.label.soff)) (gen j i) else 0)
        (fun l _ h => if_neg h)).1 h2, add_zero, ite_self, add_zero]
    obtain ⟨A, l, B, hL, hl, hA, hB⟩ := count_one _ _ h1
    rw [hL, sum_split hA hB _ (fun a ha => by unfold HNode.own; rw [if_neg ha]), sum_split hA hB _ (fun a ha => if_neg ha)]
    unfold HNode.own
    rw [if_pos hl, if_pos hl]

/-- Sum over a list of blocks, then over the entries of a rectangle. -/
theorem sum_rect_le (L : List (HNode R)) (a s : ℕ × ℕ) (F : HNode R → ℕ → ℕ → ℝ)
    (hin : ∀ l ∈ L, Inside (l.toff, l.tsz) a ∧ Inside (l.soff, l.ssz) s)
    (h : ∀ l ∈ L, ∑ i ∈ Finset.range l.tsz, ∑ j ∈ Finset.range l.ssz, F l (l.toff + i) (l.soff + j) ≤ 0) :
    ∑ i ∈ Finset.range a.2, ∑ j ∈ Finset.range s.2, (L.map (fun l => if l.Has (a.1 + i) (s.1 + j) then F l (a.1 + i) (s.1 + j) else 0)).sum ≤ 0 := by
  have shift : ∀ (o n o' n' : ℕ), Inside (o', n') (o, n) → ∀ g : ℕ → ℝ, ∑ i ∈ Finset.range n, (if InIv (o + i) (o', n') then g (o + i) else 0) =
      ∑ i ∈ Finset.range n', g (o' + i) := by
    intro o n o' n' hI g
    unfold Inside at hI
    simp only at hI
    rw [← Finset.sum_filter]
    have hm : ∀ i, i ∈ (Finset.range n).filter (fun i => InIv (o + i) (o', n')) ↔ i < n ∧ o' ≤ o + i ∧ o + i < o' + n' := fun i => by
      rw [Finset.mem_filter, Finset.mem_range]; rfl
    refine Finset.sum_bij' (fun i _ => o + i - o') (fun i _ => o' + i - o) (fun i hi => ?_) (fun i hi => ?_) (fun i hi => ?_) (fun i hi => ?_) (fun i hi => ?_)
    · have := (hm i).1 hi; rw [Finset.mem_range]; omega
    · have := Finset.mem_range.1 hi; rw [hm]; omega
    · have := (hm i).1 hi; omega
    · have := Finset.mem_range.1 hi; omega
    · have := (hm i).1 hi; congr 1; omega
  induction L with
  | nil => simp
  | cons l L ih =>
    simp only [List.map_cons, List.sum_cons, Finset.sum_add_distrib]
    refine add_nonpos ?_ (ih (fun l hl => hin l (by simp [hl])) (fun l hl => h l (by simp [hl])))
    obtain ⟨h1, h2⟩ := hin l (by simp)
    refine le_of_eq_of_le ?_ (h l (by simp))
    rw [← shift a.1 a.2 l.toff l.tsz h1 (fun x => ∑ j ∈ Finset.range l.ssz, F l x (l.soff + j))]
    refine Finset.sum_congr rfl fun i _ => ?_
    by_cases hi : InIv (a.1 + i) (l.toff, l.tsz)
    · rw [if_pos hi, ← shift s.1 s.2 l.soff l.ssz h2 (fun y => F l (a.1 + i) y)]
      exact Finset.sum_congr rfl fun j _ => if_congr ⟨fun h => h.2, fun h => ⟨hi, h⟩⟩ rfl rfl
    · rw [if_neg hi]
      exact Finset.sum_eq_zero fun j _ => if_neg fun h => hi h.1

/-- **A bound on the leaves is a bound on the operator.** `f (value) (coefficient)` is a real quantity which is not positive when the value is exact, and
which does not change with conjugation. If its sum over each compressed block is not positive, neither is its sum over the H-matrix. -/
theorem assembled_sum_le {E : BEnv G} {cplx : Bool} {lr : LRGen R} {dg : Option (DenseGen R)} {gen : ℕ → ℕ → R} {b : BTree G}
    (hb : BlockOK E b) (hg : GenOK E cplx dg gen b) (f : R → R → ℝ) (hstar : ∀ x y, f (star x) (star y) = f x y) (hself : ∀ x, f x x ≤ 0)
    (hlr : ∀ c ∈ b.leaves, c.label.kind = .adm → lrFails (mkCell E c.label) (lr gen c.label.t.iv c.label.s.iv) = false →
      ∑ i ∈ Finset.range c.label.t.sz, ∑ j ∈ Finset.range c.label.s.sz,
        f (∑ k ∈ Finset.range (lr gen c.label.t.iv c.label.s.iv).rank, (lr gen c.label.t.iv c.label.s.iv).U i k *
          (lr gen c.label.t.iv c.label.s.iv).V k j) (gen (c.label.t.off + i) (c.label.s.off + j)) ≤ 0) :
    ∑ i ∈ Finset.range b.label.t.sz, ∑ j ∈ Finset.range b.label.s.sz,
      f ((assembled E lr dg gen b).entry (b.label.t.off + i) (b.label.s.off + j)) (gen (b.label.t.off + i) (b.label.s.off + j)) ≤ 0 := by
  have hleaf : ∀ c ∈ b.leaves, ∀ n : HNode R, NodeRel E lr dg gen c.label n →
      ∑ i ∈ Finset.range n.tsz, ∑ j ∈ Finset.range n.ssz, f (n.val (n.toff + i - n.toff) (n.soff + j - n.soff)) (gen (n.toff + i) (n.soff + j)) ≤ 0 := by
    intro c hc n hr
    simp only [Nat.add_sub_cancel_left]
    rw [hr.toff, hr.tsz, hr.soff, hr.ssz]
    rcases leaf_cases hb hg hc hr with h | ⟨hk, hf, h⟩
    · exact Finset.sum_nonpos fun i hi => Finset.sum_nonpos fun j hj => by rw [h i (Finset.mem_range.1 hi) j (Finset.mem_range.1 hj)]; exact hself _
    · refine le_of_eq_of_le ?_ (hlr c hc hk hf)
      exact Finset.sum_congr rfl fun i _ => Finset.sum_congr rfl fun j _ => by rw [h]
  have hrel1 : ∀ l ∈ (getLeavesH (assembled E lr dg gen b)).1, ∃ c ∈ b.leaves, NodeRel E lr dg gen c.label l.label := fun l hl =>
    leaf_of_rel hb ((getLeavesH_perm _).1.mem_iff.1 hl)
  have hmir := fun {l : HTree R} => mirror_of_rel (lr := lr) (dg := dg) (gen := gen) hb (l := l)
  have e : ∀ i ∈ Finset.range b.label.t.sz, ∀ j ∈ Finset.range b.label.s.sz,
      f ((assembled E lr dg gen b).entry (b.label.t.off + i) (b.label.s.off + j)) (gen (b.label.t.off + i) (b.label.s.off + j)) = _ :=
    fun i hi j hj => assembled_sum hb hg f hstar
      (show InIv (b.label.t.off + i) b.label.t.iv from ⟨Nat.le_add_right _ _, Nat.add_lt_add_left (Finset.mem_range.1 hi) _⟩)
      (show InIv (b.label.s.off + j) b.label.s.iv from ⟨Nat.le_add_right _ _, Nat.add_lt_add_left (Finset.mem_range.1 hj) _⟩)
  rw [Finset.sum_congr rfl fun i hi => Finset.sum_congr rfl (e i hi)]
  simp only [Finset.sum_add_distrib]
  refine add_nonpos ?_ ?_
  · have := sum_rect_le ((getLeavesH (assembled E lr dg gen b)).1.map Tree.label) b.label.t.iv b.label.s.iv
      (fun n i j => f (n.val (i - n.toff) (j - n.soff)) (gen i j)) ?_ ?_
    · simp only [List.map_map, Function.comp_def] at this
      exact this
    · intro n hn
      obtain ⟨l, hl, rfl⟩ := List.mem_map.1 hn
      obtain ⟨c, hc, hr⟩ := hrel1 l hl
      have := hb.inside c hc
      rw [hr.toff, hr.tsz, hr.soff, hr.ssz]
      exact this
    · intro n hn
      obtain ⟨l, hl, rfl⟩ := List.mem_map.1 hn
      obtain ⟨c, hc, hr⟩ := hrel1 l hl
      exact hleaf c hc _ hr
  · rw [Finset.sum_comm]
    have := sum_rect_le ((getLeavesH (assembled E lr dg gen b)).2.map Tree.label) b.label.s.iv b.label.t.iv
      (fun n i j => f (n.val (i - n.toff) (j - n.soff)) (gen i j)) ?_ ?_
    · simp only [List.map_map, Function.comp_def] at this
      exact this
    · intro n hn
      obtain ⟨l, hl, rfl⟩ := List.mem_map.1 hn
      obtain ⟨c, hcm, hr⟩ := hmir hl
      have := hb.mirror c hcm
      rw [hr.toff, hr.tsz, hr.soff, hr.ssz]
      exact ⟨this.2.2, this.2.1⟩
    · intro n hn
      obtain ⟨l, hl, rfl⟩ := List.mem_map.1 hn
      obtain ⟨c, hcm, hr⟩ := hmir hl
      exact hleaf c (symLeaves_below ((getLeavesFrom_perm b).2.mem_iff.1 hcm)).1 _ hr

end hmat

end Htool
