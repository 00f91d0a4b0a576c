import Verif.Props.LocalOp
import Verif.Props.HOps

/-! # C23, C24 for the H-matrices returned by the builder -/

namespace Htool
variable {G R : Type*}

/-- In a list with one element satisfying `p`, all such elements are equal. -/
theorem eq_of_countP_one {α : Type*} {p : α → Bool} : ∀ {L : List α}, L.countP p ≤ 1 → ∀ {x y : α}, x ∈ L → y ∈ L → p x = true → p y = true → x = y
  | [], _, _, _, hx, _, _, _ => by simp at hx
  | a :: L, h, x, y, hx, hy, px, py => by
    rw [List.countP_cons] at h
    have pos : ∀ z ∈ L, p z = true → 0 < L.countP p := fun z hz pz => List.countP_pos_iff.2 ⟨z, hz, pz⟩
    rcases List.mem_cons.1 hx with rfl | hx' <;> rcases List.mem_cons.1 hy with rfl | hy'
    · rfl
    · have := pos y hy' py; rw [if_pos px] at h; omega
    · have := pos x hx' px; rw [if_pos py] at h; omega
    · exact eq_of_countP_one (by omega) hx' hy' px py

theorem mem_of_count_one {α : Type*} {p q : α → Bool} {L K : List α} (h : L.countP p + K.countP q = 1) :
    (∃ l ∈ L, p l = true) ∨ ∃ l ∈ K, q l = true := by
  rcases Nat.eq_zero_or_pos (L.countP p) with h0 | h0
  · exact Or.inr (List.countP_pos_iff.1 (by omega))
  · exact Or.inl (List.countP_pos_iff.1 h0)

section assembled
variable [CommRing R] [StarRing R] {E : BEnv G} {cplx : Bool} {lr : LRGen R} {dg : Option (DenseGen R)} {gen : ℕ → ℕ → R} {b : BTree G}

/-- The builder fills both triangles of a symmetric diagonal leaf: what is stored is what the leaf stands for. -/
theorem assembled_raw (hb : BlockOK E b) (hg : GenOK E cplx dg gen b) {c : BTree G} (hc : c ∈ b.leaves) {n : HNode R}
    (hr : NodeRel E lr dg gen c.label n) {i j : ℕ} (hi : i < c.label.t.sz) (hj : j < c.label.s.sz) : n.raw i j = n.val i j := by
  rcases leaf_cases hb hg hc hr with h | ⟨hk, hf, h⟩
  · cases hd : n.data with
    | hier => unfold HNode.raw HNode.val; rw [hd]
    | lowRank r U V => unfold HNode.raw HNode.val; rw [hd]
    | dense M =>
      rw [h i hi j hj]
      unfold HNode.raw
      rw [hd]
      exact dense_leaf hg hc hr hd hi hj
  · cases hd : n.data with
    | hier => unfold HNode.raw HNode.val; rw [hd]
    | lowRank r U V => unfold HNode.raw HNode.val; rw [hd]
    | dense M =>
      exfalso
      rw [hr.data] at hd
      unfold blockData at hd
      simp only [hk] at hd
      unfold admOf at hd
      split_ifs at hd with hf'
      exact absurd (show lrFails (mkCell E c.label) (lr gen c.label.t.iv c.label.s.iv) = true by simpa [lrOf, mkCell, Tree.iv] using hf') (by rw [hf]; simp)

/-- The leaves of an assembled H-matrix hold the entries of the operator it represents. -/
theorem assembled_self_holds (hb : BlockOK E b) (hg : GenOK E cplx dg gen b) :
    (assembled E lr dg gen b).Holds (assembled E lr dg gen b).entry := by
  have hfit := assembled_fit (lr := lr) hb hg
  have hlab : (assembled E lr dg gen b).label = finalNode E lr dg gen b := by
    cases b with | node a cs => rw [assembled_node]; rfl
  refine ⟨hfit.inside, fun l hl i j hh => ?_⟩
  obtain ⟨c, hc, hr⟩ := leaf_of_rel hb hl
  have hB := (NodeRel.has hr i j).1 hh
  obtain ⟨n1, n2⟩ := hb.inside c hc
  have hij : InIv i b.label.t.iv ∧ InIv j b.label.s.iv := by
    unfold InBlock at hB
    unfold Inside Tree.iv at n1 n2; unfold InIv Tree.iv at *; simp only at *; omega
  have hflag := fun h => (assembled_flag (lr := lr) (dg := dg) (gen := gen) hb h)
  have hcount := assembled_cover (lr := lr) (dg := dg) (gen := gen) hb hij
  have hl1 := (getLeavesH_perm (assembled E lr dg gen b)).1.mem_iff.2 hl
  have hpos : 0 < (getLeavesH (assembled E lr dg gen b)).1.countP (fun l => decide (l.label.Has i j)) :=
    List.countP_pos_iff.2 ⟨l, hl1, decide_eq_true hh⟩
  rcases entry_cases (fun h => by rw [(hflag h).2]; exact fun hN => (hflag h).1 (toH_inj.2.2.1.1 hN)) hcount with
    ⟨l', hl', hh', he⟩ | ⟨-, l', hl', hh', -⟩
  · obtain rfl : l = l' := eq_of_countP_one (p := fun l : HTree R => decide (l.label.Has i j)) (by omega) hl1 ((getLeavesH_perm (assembled E lr dg gen b)).1.mem_iff.2 hl')
      (decide_eq_true hh) (decide_eq_true hh')
    rw [he, hr.toff, hr.soff]
    unfold InBlock InIv Tree.iv at hB
    simp only at hB
    exact assembled_raw hb hg hc hr (by omega) (by omega)
  · have : 0 < (getLeavesH (assembled E lr dg gen b)).2.countP (fun l => decide (l.label.Has j i)) :=
      List.countP_pos_iff.2 ⟨l', hl', decide_eq_true hh'⟩
    omega

/-- The operator is symmetric (Hermitian) on the mirrored leaves. -/
theorem assembled_mirror_entry (hb : BlockOK E b) (hg : GenOK E cplx dg gen b) {l : HTree R} (hl : l ∈ (getLeavesH (assembled E lr dg gen b)).2)
    {i j : ℕ} (hh : l.label.Has i j) : (assembled E lr dg gen b).entry j i =
      if (assembled E lr dg gen b).label.symL = .S then (assembled E lr dg gen b).entry i j else star ((assembled E lr dg gen b).entry i j) := by
  have hflag := fun h => (assembled_flag (lr := lr) (dg := dg) (gen := gen) hb h)
  have hp := getLeavesH_perm (assembled E lr dg gen b)
  have hmem : l ∈ (assembled E lr dg gen b).leaves := symLeavesG_sub _ _ (hp.2.mem_iff.1 hl)
  have hraw := (assembled_self_holds (lr := lr) hb hg).raw l hmem i j hh
  obtain ⟨c0, hc0, hr0⟩ := leaf_of_rel hb hmem
  have hB0 := (NodeRel.has hr0 i j).1 hh
  have hval : l.label.raw (i - l.label.toff) (j - l.label.soff) = l.label.val (i - l.label.toff) (j - l.label.soff) := by
    rw [hr0.toff, hr0.soff]
    unfold InBlock InIv Tree.iv at hB0
    simp only at hB0
    exact assembled_raw hb hg hc0 hr0 (by omega) (by omega)
  obtain ⟨c, hc, hr⟩ := mirror_of_rel hb hl
  have hB := (NodeRel.has hr i j).1 hh
  obtain ⟨-, m2, m3⟩ := hb.mirror c hc
  have hij : InIv j b.label.t.iv ∧ InIv i b.label.s.iv := by
    unfold InBlock at hB
    unfold Inside Tree.iv at m2 m3; unfold InIv Tree.iv at *; simp only at *; omega
  have hcount := assembled_cover (lr := lr) (dg := dg) (gen := gen) hb hij
  have hpos : 0 < (getLeavesH (assembled E lr dg gen b)).2.countP (fun l => decide (l.label.Has i j)) :=
    List.countP_pos_iff.2 ⟨l, hl, decide_eq_true hh⟩
  rcases entry_cases (fun h => by rw [(hflag h).2]; exact fun hN => (hflag h).1 (toH_inj.2.2.1.1 hN)) hcount with
    ⟨l', hl', hh', he⟩ | ⟨-, l', hl', hh', he⟩
  · have : 0 < (getLeavesH (assembled E lr dg gen b)).1.countP (fun l => decide (l.label.Has j i)) :=
      List.countP_pos_iff.2 ⟨l', hp.1.mem_iff.2 hl', decide_eq_true hh'⟩
    omega
  · obtain rfl : l = l' := eq_of_countP_one (p := fun l : HTree R => decide (l.label.Has i j)) (by omega) hl hl' (decide_eq_true hh) (decide_eq_true hh')
    rw [he, ← hraw, hval]

end assembled

/-! ## The diagonal -/

theorem leaves_childless {α : Type*} (a : α) : (Tree.node a []).leaves = [Tree.node a []] := by simp [Tree.leaves]

/-- In the tree of blocks of a cluster against itself, the blocks which meet the diagonal are made of twice the same cluster (consistent block trees). -/
theorem diagonal_blocks {E : BEnv G} (hT : E.tct.WF) (hS : E.sct.WF) (hc : E.consistent = true) :
    ∀ (f : ℕ) (t s : CTree G) (b : BTree G), t ∈ E.tct.root.pre → s ∈ E.sct.root.pre → (t = s ∨ t.fin ≤ s.off ∨ s.fin ≤ t.off) →
      buildBlockTree E f t s = some b → ∀ c ∈ b.leaves, ∀ i, InBlock c i i → c.label.t = c.label.s := by
  intro f
  induction f with
  | zero => intro t s b _ _ _ h; simp [buildBlockTree] at h
  | succ f ih =>
    intro t s b ht hs hts h c hcl i hi
    by_cases hd : t.fin ≤ s.off ∨ s.fin ≤ t.off
    · exfalso
      obtain ⟨k1, k2, -⟩ := buildBlockTree_nodes hT hS _ t s b ht hs h c ((Tree.mem_leaves_iff _ _).1 hcl).1
      have n1 := hT.contained ht k1
      have n2 := hS.contained hs k2
      unfold InBlock InIv Tree.iv at hi
      unfold Tree.fin at *
      simp only at hi
      omega
    · obtain rfl : t = s := hts.resolve_right hd
      obtain ⟨f', hf, h⟩ := buildBlockTree_inv h
      obtain rfl : f = f' := by omega
      rcases h with ⟨-, rfl⟩ | ⟨-, rfl⟩ | ⟨l, cs, hst, rfl, hcs⟩
      · rw [leaves_childless, List.mem_singleton] at hcl; subst hcl; rfl
      · rw [leaves_childless, List.mem_singleton] at hcl; subst hcl; rfl
      · by_cases hne : cs = []
        · subst hne
          rw [leaves_childless, List.mem_singleton] at hcl; subst hcl; rfl
        · rw [Tree.leaves_node_ne hne, Tree.leavesL_eq, List.mem_flatMap] at hcl
          obtain ⟨d, hd', hcd⟩ := hcl
          obtain ⟨⟨u, v⟩, hx, hxd⟩ := forall₂_mem_right hcs hd'
          have hmem : u ∈ t.children ∧ v ∈ t.children := by
            unfold BEnv.step at hst
            split_ifs at hst with a1 a2 a3 a4
            all_goals first
              | (exfalso; simp_all; done)
              | (injection hst with hst
                 rw [← hst, List.mem_filter] at hx
                 exact ⟨(pair_mem_pairs.1 hx.1).1, (pair_mem_pairs.1 hx.1).2⟩)
              | (exfalso; simp only [Bool.and_eq_true] at a2; exact a2 ⟨by assumption, by assumption⟩)
              | (exfalso; omega)
          refine ih u v d (Tree.mem_pre_trans ht (child_mem_pre hmem.1)) (Tree.mem_pre_trans hs (child_mem_pre hmem.2)) ?_ hxd c hcd i hi
          by_cases huv : u = v
          · exact Or.inl huv
          · right
            have hpw := (hT.hier t ht (List.ne_nil_of_mem hmem.1)).pairwise
            rw [List.pairwise_map, List.pairwise_iff_getElem] at hpw
            obtain ⟨p, hp, rfl⟩ := List.getElem_of_mem hmem.1
            obtain ⟨q, hq, rfl⟩ := List.getElem_of_mem hmem.2
            have hpq : p ≠ q := by rintro rfl; exact huv rfl
            rcases lt_or_gt_of_ne hpq with hlt | hlt
            · exact Or.inl (hpw p q hp hq hlt)
            · exact Or.inr (hpw q p hq hp hlt)

/-! ## C23 and C24 from the generator -/

section built
variable [CommRing R] [StarRing R] [DecidableEq R]

/-- **C23 (from generator to dense matrix, user numbering).** Build an H-matrix under any schedule from a generator in user numbering, with or
without symmetric storage; `copy_to_dense_in_user_numbering` fills every entry of the dense matrix with a coefficient `close` to the user's, and
writes nowhere else. -/
theorem C23_built {T : ℕ} (hT : 0 < T) {E : BEnv G} {cplx : Bool} {lr : LRGen R} {dg : Option (DenseGen R)} {fuel : ℕ} {t s r : CTree G}
    (hcov : Covered E t s r) {tperm sperm : List ℕ} {ug : ℕ → ℕ → R}
    (hgen : UserGen E cplx dg (permutedGen tperm sperm ug) r.iv) {close : R → R → Prop} (hcl : Closeness close)
    (hlr : UserLR close lr (permutedGen tperm sperm ug)) (hpt : LocalPerm tperm r.off r.sz) (hps : LocalPerm sperm s.off s.sz)
    (hsame : E.sym ≠ .N → tperm = sperm)
    {m m' : Mem R} {B' : Builder} {H : Tree ℕ} (h : BuildStep T E lr dg fuel t s (permutedGen tperm sperm ug) m Builder.empty m' B' H)
    (p : Buf R) :
    (∀ k < r.sz, ∀ l < s.sz, close (copyToDenseUser tperm sperm (H.map m'.heap) p (k + l * r.sz)) (ug (r.off + k) (s.off + l))) ∧
    ∀ d, r.sz * s.sz ≤ d → copyToDenseUser tperm sperm (H.map m'.heap) p d = p d := by
  obtain ⟨b, h1, h2, -⟩ := build_spec hT hcov.buildOK (sysInv_empty m) h
  obtain ⟨hb, e1, e2⟩ := hcov.blocks h1
  rw [← e1] at hgen
  have hg : GenOK E cplx dg _ b := hgen.genOK
  have hlab : (assembled E lr dg (permutedGen tperm sperm ug) b).label = finalNode E lr dg (permutedGen tperm sperm ug) b := by
    cases b with | node a cs => rw [assembled_node]; rfl
  have r1 : (assembled E lr dg (permutedGen tperm sperm ug) b).label.toff = r.off := by rw [hlab, ← e1]; rfl
  have r2 : (assembled E lr dg (permutedGen tperm sperm ug) b).label.tsz = r.sz := by rw [hlab, ← e1]; rfl
  have s1 : (assembled E lr dg (permutedGen tperm sperm ug) b).label.soff = s.off := by rw [hlab, ← e2]; rfl
  have s2 : (assembled E lr dg (permutedGen tperm sperm ug) b).label.ssz = s.sz := by rw [hlab, ← e2]; rfl
  rw [h2]
  have hflag := fun h => (assembled_flag (lr := lr) (dg := dg) (gen := permutedGen tperm sperm ug) hb h)
  have hfit := assembled_fit (lr := lr) hb hg
  obtain ⟨a1, a2⟩ := C23_copy_to_dense_in_user_numbering (assembled_self_holds (lr := lr) hb hg) (pt := tperm) (ps := sperm)
    (by rw [r1, r2]; exact hpt) (by rw [s1, s2]; exact hps)
    (fun hne => ⟨hsame (hflag hne).1, by rw [(hflag hne).2]; exact fun hN => (hflag hne).1 (toH_inj.2.2.1.1 hN)⟩)
    (fun l hl => (hfit.mirror l hl).2) (fun l hl i j hh => assembled_mirror_entry hb hg hl hh)
    (fun i j hh => by
      have hc := assembled_cover (lr := lr) (dg := dg) (gen := permutedGen tperm sperm ug) hb (i := i) (j := j) (by
        unfold HNode.Has at hh
        rw [r1, r2, s1, s2] at hh
        rw [e1, e2]; exact hh)
      rcases mem_of_count_one hc with ⟨l, hl, hh⟩ | ⟨l, hl, hh⟩
      · exact Or.inl ⟨l, hl, of_decide_eq_true hh⟩
      · exact Or.inr ⟨l, hl, of_decide_eq_true hh⟩) p
  rw [r1, r2, s1, s2] at a1
  rw [r2, s2] at a2
  refine ⟨fun k hk l hl => ?_, a2⟩
  obtain ⟨i, hi, rfl⟩ := userIdx_surj hpt hk
  obtain ⟨j, hj, rfl⟩ := userIdx_surj hps hl
  rw [a1 i hi j hj]
  have hc := assembled_close hb hg hcl hlr.lrClose (i := r.off + i) (j := s.off + j) (by rw [e1]; unfold InIv Tree.iv; simp only; omega)
    (by rw [e2]; unfold InIv Tree.iv; simp only; omega)
  have e : permutedGen tperm sperm ug (r.off + i) (s.off + j) = ug (r.off + userIdx tperm r.off i) (s.off + userIdx sperm s.off j) := by
    unfold permutedGen
    rw [getD_userIdx hpt hi, getD_userIdx hps hj]
  rw [← e]
  exact hc

/-- **C23 (from generator to dense matrix, cluster numbering).** Without symmetric storage `copy_to_dense` fills every entry of the dense matrix. -/
theorem C23_built_cluster_numbering {T : ℕ} (hT : 0 < T) {E : BEnv G} {cplx : Bool} {lr : LRGen R} {dg : Option (DenseGen R)} {fuel : ℕ}
    {t s r : CTree G} (hcov : Covered E t s r) (hN : E.sym = .N) {gen : ℕ → ℕ → R}
    (hgen : UserGen E cplx dg gen r.iv) {close : R → R → Prop} (hcl : Closeness close) (hlr : UserLR close lr gen)
    {m m' : Mem R} {B' : Builder} {H : Tree ℕ} (h : BuildStep T E lr dg fuel t s gen m Builder.empty m' B' H) (p : Buf R) :
    (∀ i < r.sz, ∀ j < s.sz, close (copyToDense (H.map m'.heap) p (i + j * r.sz)) (gen (r.off + i) (s.off + j))) ∧
    ∀ d, r.sz * s.sz ≤ d → copyToDense (H.map m'.heap) p d = p d := by
  obtain ⟨b, h1, h2, -⟩ := build_spec hT hcov.buildOK (sysInv_empty m) h
  obtain ⟨hb, e1, e2⟩ := hcov.blocks h1
  rw [← e1] at hgen
  have hg : GenOK E cplx dg gen b := hgen.genOK
  have hlab : (assembled E lr dg gen b).label = finalNode E lr dg gen b := by
    cases b with | node a cs => rw [assembled_node]; rfl
  have r1 : (assembled E lr dg gen b).label.toff = r.off := by rw [hlab, ← e1]; rfl
  have r2 : (assembled E lr dg gen b).label.tsz = r.sz := by rw [hlab, ← e1]; rfl
  have s1 : (assembled E lr dg gen b).label.soff = s.off := by rw [hlab, ← e2]; rfl
  have s2 : (assembled E lr dg gen b).label.ssz = s.sz := by rw [hlab, ← e2]; rfl
  rw [h2]
  obtain ⟨a1, a2⟩ := C23_copy_to_dense (assembled_self_holds (lr := lr) hb hg) p
  rw [r1, r2, s1, s2] at a1
  rw [r2, s2] at a2
  refine ⟨fun i hi j hj => ?_, a2⟩
  have hij : InIv (r.off + i) b.label.t.iv ∧ InIv (s.off + j) b.label.s.iv := by
    rw [e1, e2]; unfold InIv Tree.iv; simp only; omega
  have hex : ∃ l ∈ (assembled E lr dg gen b).leaves, l.label.Has (r.off + i) (s.off + j) := by
    rcases entry_cases (fun h => absurd hN (assembled_flag (lr := lr) (dg := dg) (gen := gen) hb h).1)
      (assembled_cover (lr := lr) (dg := dg) (gen := gen) hb hij) with ⟨l, hl, hh, -⟩ | ⟨-, l, hl, -, -⟩
    · exact ⟨l, hl, hh⟩
    · exact absurd hN (assembled_flag (lr := lr) (dg := dg) (gen := gen) hb (List.ne_nil_of_mem hl)).1
  rw [a1 i hi j hj, if_pos hex]
  exact assembled_close hb hg hcl hlr.lrClose hij.1 hij.2

/-- What the theorems on the diagonal need, for the H-matrix of a cluster against itself. -/
theorem Covered.diagonal {E : BEnv G} {a : CTree G} (h : Covered E a a a) (hc : E.consistent = true) {f : ℕ} {b : BTree G}
    (hb : buildBlocks E f a a = some b) :
    (∀ c ∈ b.leaves, ∀ i, InBlock c i i → c.label.t = c.label.s) ∧ ∀ c ∈ b.leaves, 0 < c.label.t.sz ∧ 0 < c.label.s.sz := by
  obtain ⟨b0, h0, e0⟩ := buildBlocks_inv hb
  have main : E.tct.WF → E.sct.WF → E.tct.Pos → E.sct.Pos → a ∈ E.tct.root.pre → a ∈ E.sct.root.pre →
      (E.tp = none ∨ ∃ p : ℕ, E.tp = some p ∧ a.rk = (p : ℤ)) → (∀ c ∈ b.leaves, ∀ i, InBlock c i i → c.label.t = c.label.s) ∧
        ∀ c ∈ b.leaves, 0 < c.label.t.sz ∧ 0 < c.label.s.sz := by
    intro w1 w2 p1 p2 m1 m2 ht
    rw [e0, resetRoot_same h0 ht]
    refine ⟨diagonal_blocks w1 w2 hc _ a a b0 m1 m2 (Or.inl rfl) h0, fun c hcl => ?_⟩
    obtain ⟨k1, k2, -⟩ := buildBlockTree_nodes w1 w2 _ a a b0 m1 m2 h0 c ((Tree.mem_leaves_iff _ _).1 hcl).1
    exact ⟨p1 _ (Tree.mem_pre_trans m1 k1), p2 _ (Tree.mem_pre_trans m2 k2)⟩
  have weak : (E.tp = none ∨ ∃ (p : ℕ) (P : CTree G), E.tp = some p ∧ E.tct.parts[p]? = some P ∧ a.rk = (p : ℤ)) →
      (E.tp = none ∨ ∃ p : ℕ, E.tp = some p ∧ a.rk = (p : ℤ)) := by
    rintro (h | ⟨p, P, h1, -, h2⟩)
    · exact Or.inl h
    · exact Or.inr ⟨p, h1, h2⟩
  cases h with
  | plain h1 h2 h3 h4 _ h5 h6 h7 => exact main h1 h2 h3 h4 h5 h6 (weak h7)
  | plainPart h1 h2 h3 h4 _ h5 h6 h7 h8 h9 _ =>
    have := h1.parts_rank _ _ h8 _ (Tree.mem_pre_self _)
    omega
  | diag h1 h2 h3 h4 => exact main h1.wf (h1.same ▸ h1.wf) h1.pos (h1.same ▸ h1.pos) h3 (h1.same ▸ h3) (weak h4)
  | loc h1 h2 h3 h4 h5 h6 =>
    have hr := h1.wf.parts_rank _ _ h3 _ (Tree.mem_pre_self _)
    refine main h1.wf (h1.same ▸ h1.wf) h1.pos (h1.same ▸ h1.pos) h5 (h1.same ▸ h5) ?_
    rcases h4 with h4 | h4
    · exact Or.inl h4
    · exact Or.inr ⟨_, h4, hr⟩
  | part h1 h2 h3 h4 h5 h6 h7 =>
    have := h1.wf.parts_rank _ _ h4 _ (Tree.mem_pre_self _)
    omega

/-- **C24 (from generator to diagonal).** Build the H-matrix of a cluster against itself under any schedule (consistent block trees): the
diagonal copied in cluster numbering and in user numbering holds coefficients `close` to the generator's, and nothing else is written. -/
theorem C24_built {T : ℕ} (hT : 0 < T) {E : BEnv G} (hcons : E.consistent = true) {cplx : Bool} {lr : LRGen R} {dg : Option (DenseGen R)}
    {fuel : ℕ} {a : CTree G} (hcov : Covered E a a a) {perm : List ℕ} {ug : ℕ → ℕ → R}
    (hgen : UserGen E cplx dg (permutedGen perm perm ug) a.iv) {close : R → R → Prop} (hcl : Closeness close)
    (hlr : UserLR close lr (permutedGen perm perm ug)) (hp : LocalPerm perm a.off a.sz)
    {m m' : Mem R} {B' : Builder} {H : Tree ℕ} (h : BuildStep T E lr dg fuel a a (permutedGen perm perm ug) m Builder.empty m' B' H)
    (p : Buf R) :
    (∀ k < a.sz, close (copyDiagUser perm (H.map m'.heap) p k) (ug (a.off + k) (a.off + k))) ∧
    (∀ d, a.sz ≤ d → copyDiagUser perm (H.map m'.heap) p d = p d) ∧
    (∀ i < a.sz, close (copyDiag (H.map m'.heap) p i) (ug (perm.getD (a.off + i) 0) (perm.getD (a.off + i) 0))) ∧
    ∀ d, a.sz ≤ d → copyDiag (H.map m'.heap) p d = p d := by
  obtain ⟨b, h1, h2, -⟩ := build_spec hT hcov.buildOK (sysInv_empty m) h
  obtain ⟨hb, e1, e2⟩ := hcov.blocks h1
  obtain ⟨hdiag, hpos⟩ := hcov.diagonal hcons h1
  rw [← e1] at hgen
  have hg : GenOK E cplx dg _ b := hgen.genOK
  set gen := permutedGen perm perm ug with hgn
  have hlab : (assembled E lr dg gen b).label = finalNode E lr dg gen b := by
    cases b with | node a cs => rw [assembled_node]; rfl
  have r1 : (assembled E lr dg gen b).label.toff = a.off := by rw [hlab]; show b.label.t.off = _; rw [e1]
  have r2 : (assembled E lr dg gen b).label.tsz = a.sz := by rw [hlab]; show b.label.t.sz = _; rw [e1]
  have s1 : (assembled E lr dg gen b).label.soff = a.off := by rw [hlab]; show b.label.s.off = _; rw [e2]
  rw [h2]
  have hholds := assembled_self_holds (lr := lr) hb hg
  have hfit := assembled_fit (lr := lr) hb hg
  have sq : ∀ l ∈ (assembled E lr dg gen b).leaves, ∀ i, l.label.Has i i → l.label.toff = l.label.soff ∧ l.label.tsz = l.label.ssz := by
    intro l hl i hh
    obtain ⟨c, hc, hr⟩ := leaf_of_rel hb hl
    have := hdiag c hc i ((NodeRel.has hr i i).1 hh)
    rw [hr.toff, hr.soff, hr.tsz, hr.ssz, this]; exact ⟨rfl, rfl⟩
  have hdata : ∀ l ∈ (assembled E lr dg gen b).leaves, l.label.data ≠ .hier := fun l hl => (hfit.leafOK l hl).data
  have hsq : ∀ l ∈ (assembled E lr dg gen b).leaves, l.label.toff = l.label.soff → ∀ r U V, l.label.data = .lowRank r U V → l.label.tsz = l.label.ssz := by
    intro l hl he _ _ _ _
    obtain ⟨c, hc, hr⟩ := leaf_of_rel hb hl
    have := hpos c hc
    refine (sq l hl l.label.toff ?_).2
    unfold HNode.Has InIv
    simp only
    rw [hr.tsz, hr.ssz]; omega
  have hex : ∀ i < a.sz, ∃ l ∈ (assembled E lr dg gen b).leaves, l.label.OnDiag (a.off + i) := by
    intro i hi
    have hij : InIv (a.off + i) b.label.t.iv ∧ InIv (a.off + i) b.label.s.iv := by
      rw [e1, e2]; unfold InIv Tree.iv; simp only; omega
    have hc := assembled_cover (lr := lr) (dg := dg) (gen := gen) hb hij
    have : ∃ l ∈ (assembled E lr dg gen b).leaves, l.label.Has (a.off + i) (a.off + i) := by
      have hp := getLeavesH_perm (assembled E lr dg gen b)
      rcases mem_of_count_one hc with ⟨l, hl, hh⟩ | ⟨l, hl, hh⟩
      · exact ⟨l, hp.1.mem_iff.1 hl, of_decide_eq_true hh⟩
      · exact ⟨l, symLeavesG_sub _ _ (hp.2.mem_iff.1 hl), of_decide_eq_true hh⟩
    obtain ⟨l, hl, hh⟩ := this
    obtain ⟨q1, q2⟩ := sq l hl _ hh
    refine ⟨l, hl, q1, ?_⟩
    unfold HNode.Has InIv at hh
    simp only at hh
    omega
  have hclose : ∀ i < a.sz, close ((assembled E lr dg gen b).entry (a.off + i) (a.off + i)) (ug (perm.getD (a.off + i) 0) (perm.getD (a.off + i) 0)) :=
    fun i hi => assembled_close hb hg hcl hlr.lrClose (i := a.off + i) (j := a.off + i) (by rw [e1]; unfold InIv Tree.iv; simp only; omega)
      (by rw [e2]; unfold InIv Tree.iv; simp only; omega)
  obtain ⟨u1, u2⟩ := C24_copy_diagonal_in_user_numbering hholds (pt := perm) (by rw [r1, r2]; exact hp) hdata hsq (by rw [r1, r2]; exact hex) p
  rw [r1, r2] at u1
  rw [r2] at u2
  have hdg := C24_copy_diagonal hholds (by rw [r1, s1]) hdata hsq p
  rw [r1] at hdg
  refine ⟨fun k hk => ?_, u2, fun i hi => ?_, fun d hd => ?_⟩
  · obtain ⟨i, hi, rfl⟩ := userIdx_surj hp hk
    rw [u1 i hi, ← getD_userIdx hp hi]
    exact hclose i hi
  · rw [hdg, if_pos (hex i hi)]; exact hclose i hi
  · rw [hdg, if_neg]
    rintro ⟨l, hl, q1, q2, q3⟩
    obtain ⟨i1, -⟩ := hfit.inside l hl
    unfold Inside at i1
    simp only at i1
    rw [r1, r2] at i1
    omega

end built

/-! ## Concrete cases -/

/-- The rank one factors of the permuted generator. -/
def exLrP (perm : List ℕ) : LRGen ℤ :=
  fun _ a b => ⟨1, a.2, b.2, fun i _ => (perm.getD (a.1 + i) 0 : ℕ) + 1, fun _ j => (perm.getD (b.1 + j) 0 : ℕ) + 1⟩

/-- The hypotheses of `C23_built` and `C24_built` are met by a symmetric H-matrix with compressed blocks (those of the product example of C19),
with the permutation of its cluster tree. -/
example : ∃ t st, exBuild = some (t, st) ∧ ∃ E : BEnv (List ℕ), E = exEnv t st none none .S .L ∧ E.consistent = true ∧
    ∃ (m' : Mem ℤ) (B' : Builder) (H : Tree ℕ), Covered E t t t ∧ UserGen (R := ℤ) E false none (permutedGen st.perm st.perm exGen1) t.iv ∧
      UserLR (· = ·) (exLrP st.perm) (permutedGen st.perm st.perm exGen1) ∧ LocalPerm st.perm t.off t.sz ∧
      BuildStep 3 E (exLrP st.perm) none 100 t t (permutedGen st.perm st.perm exGen1) exMem Builder.empty m' B' H := by
  obtain ⟨t, st, h, hb⟩ := exBuild_built
  refine ⟨t, st, h, _, rfl, rfl, ?_⟩
  have hc : Covered (exEnv t st none none .S .L) t t t :=
    .diag ⟨hb.wf.1, hb.wf.2, rfl, rfl, by simp [exEnv], by simp [exEnv]⟩ rfl (Tree.mem_pre_self t) (Or.inl rfl)
  have hr : (buildBlocks (exEnv t st none none .S .L) 100 t t).isSome := by
    have h2 : ∀ r ∈ exBuild, (buildBlocks (exEnv r.1 r.2 none none .S .L) 100 r.1 r.1).isSome := by decide +kernel
    exact h2 (t, st) h
  have hperm : LocalPerm st.perm t.off t.sz := by
    have h2 : ∀ r ∈ exBuild, (slice r.2.perm r.1.off r.1.sz).Perm (List.range' r.1.off r.1.sz) := by decide +kernel
    exact h2 (t, st) h
  obtain ⟨b, hr⟩ := Option.isSome_iff_exists.1 hr
  obtain ⟨m', B', H, hst⟩ := build_exists (T := 3) (lr := exLrP st.perm) (dg := none) hc.buildOK (gen := permutedGen st.perm st.perm exGen1) (sysInv_empty exMem) hr
  refine ⟨m', B', H, hc, ⟨by simp [exEnv], ?_, by simp [exEnv], by simp⟩, ?_, hperm, hst⟩
  · intro _ i j _ _
    unfold permutedGen exGen1; ring
  · intro a b _ _ i _ j _
    simp [exLrP, exGen1, permutedGen]

end Htool
