import Verif.ClusterWF

/-! # Properties C13–C16: the block tree -/

namespace Htool
variable {G : Type*}
open Htool.Tree (iv)

/-- The entry `(i,j)` (cluster numbering) belongs to the block `c`. -/
def InBlock (c : BTree G) (i j : ℕ) : Prop := InIv i c.label.t.iv ∧ InIv j c.label.s.iv

instance (c : BTree G) (i j : ℕ) : Decidable (InBlock c i j) := by unfold InBlock; infer_instance

theorem cover_eq (l : List (BTree G)) (i j : ℕ) : l.countP (fun b => decide (InBlock b i j)) = cover l i j := by
  rw [cover_eq_countP]; rfl

theorem ind_mul_eq (i j : ℕ) (a b : ℕ × ℕ) : ind i a * ind j b = if InIv i a ∧ InIv j b then 1 else 0 := by
  unfold ind
  by_cases h1 : InIv i a <;> by_cases h2 : InIv j b <;> simp [h1, h2]

theorem buildBlocks_inv {E : BEnv G} {f : ℕ} {t s : CTree G} {b : BTree G} (h : buildBlocks E f t s = some b) :
    ∃ b0, buildBlockTree E f t s = some b0 ∧ b = resetRoot E b0 := by
  unfold buildBlocks at h
  cases hb : buildBlockTree E f t s with
  | none => rw [hb] at h; simp at h
  | some b0 => rw [hb] at h; simp at h; exact ⟨b0, rfl, h.symm⟩

theorem rank_below {ct : ClusterTree G} (h : ct.WF) {t : CTree G} (ht : t ∈ ct.root.pre) {p : ℕ} (hr : t.rk = (p : ℤ)) :
    ∀ u ∈ t.pre, u.rk = (p : ℤ) := by
  obtain ⟨P, hP, htP⟩ := h.ranked t ht (by omega)
  obtain ⟨q, hq, hqP⟩ := List.getElem_of_mem hP
  have hget := List.getElem?_eq_some_iff.2 ⟨hq, hqP⟩
  have h1 := h.parts_rank q P hget t htP
  intro u hu
  rw [h.parts_rank q P hget u (Tree.mem_pre_trans htP hu), ← h1, hr]

theorem resetRoot_same {E : BEnv G} {f : ℕ} {t s : CTree G} {b0 : BTree G} (h : buildBlockTree E f t s = some b0)
    (hp : E.tp = none ∨ ∃ p : ℕ, E.tp = some p ∧ t.rk = (p : ℤ)) : resetRoot E b0 = b0 := by
  unfold resetRoot
  rcases hp with hp | ⟨p, hp, hr⟩
  · rw [hp]
  · rw [hp]; simp only; rw [if_pos]; rw [(buildBlockTree_label h).1, hr]

theorem inPart_below {E : BEnv G} (hT : E.tct.WF) {t : CTree G} (ht : t ∈ E.tct.root.pre)
    (hp : E.tp = none ∨ ∃ p : ℕ, E.tp = some p ∧ t.rk = (p : ℤ)) : ∀ u ∈ t.pre, E.inPart u = true := by
  intro u hu
  unfold BEnv.inPart
  rcases hp with hp | ⟨p, hp, hr⟩
  · rw [hp]
  · rw [hp]; simp [rank_below hT ht hr u hu]

/-- The root after `reset_root_of_block_tree`. -/
theorem resetRoot_part {E : BEnv G} {f : ℕ} {t s : CTree G} {b0 : BTree G} (h : buildBlockTree E f t s = some b0)
    {p : ℕ} (hp : E.tp = some p) (hr : t.rk < 0) {P : CTree G} (hP : E.tct.parts[p]? = some P) :
    ∃ a cs, resetRoot E b0 = .node a cs ∧ a.t = P ∧ a.s = s ∧ a.sym = E.symFlag P s ∧ cs.Perm (gather p b0) ∧
      a.kind = b0.label.kind := by
  obtain ⟨h1, h2, h3⟩ := buildBlockTree_label h
  unfold resetRoot
  rw [hp]
  simp only
  rw [if_neg (by rw [h1]; omega), hP]
  refine ⟨_, _, rfl, rfl, h2, ?_, ?_, rfl⟩
  · simp [h2]
  · simpa using gatherLoop_perm p [b0]

theorem cover_zero {l : List (BTree G)} {i j : ℕ}
    (h : ∀ c ∈ l, ind i c.label.t.iv * ind j c.label.s.iv = 0) : cover l i j = 0 := by
  induction l with
  | nil => rfl
  | cons c l ih =>
    rw [cover_cons, h c (by simp), ih (fun d hd => h d (by simp [hd]))]

theorem ind_of_sub {u P : CTree G} (h : P.off ≤ u.off ∧ u.fin ≤ P.fin) {i : ℕ} (hi : ind i P.iv = 0) : ind i u.iv = 0 := by
  rcases ind_cases i u.iv with h1 | h1
  · exact h1
  · rw [ind_eq_one] at h1
    have : ind i P.iv = 1 := ind_eq_one.2 ⟨by omega, by omega⟩
    omega

/-- Leaves after the root reset. -/
theorem reset_cover {E : BEnv G} (hT : E.tct.WF) (hS : E.sct.WF) {p : ℕ} {P : CTree G} (htp : E.tp = some p)
    (hP : E.tct.parts[p]? = some P) {f : ℕ} {t s : CTree G} {b0 : BTree G} (ht : t ∈ E.tct.root.pre)
    (hs : s ∈ E.sct.root.pre) (htr : t.rk < 0) (hPt : P ∈ t.pre)
    (hR : ∀ u ∈ t.pre, (u = P ∨ u.rk < 0) → ∀ v ∈ s.pre, E.removed u v = false)
    (h : buildBlockTree E f t s = some b0)
    (hg : ∀ f' v g, v ∈ s.pre → (E.sct.Upper s → E.sct.Upper v) → buildBlockTree E f' P v = some g →
      (∀ c ∈ g.leaves, c.label.isData) ∧
      ∀ i j, cover g.leaves i j + cover (symLeaves (E.symFlag P s) g) j i = ind i P.iv * ind j v.iv) :
    (∀ i j, cover (resetRoot E b0).leaves i j + cover (symLeaves (E.symFlag P s) (resetRoot E b0)) j i =
      ind i P.iv * ind j s.iv) ∧
    (0 < P.sz → 0 < s.sz → ∀ c ∈ (resetRoot E b0).leaves, c.label.isData) ∧
    (resetRoot E b0).label.t = P ∧ (resetRoot E b0).label.s = s ∧ (resetRoot E b0).label.sym = E.symFlag P s := by
  obtain ⟨a, cs, e, ha1, ha2, ha3, hperm, -⟩ := resetRoot_part h htp htr hP
  obtain ⟨g1, g2⟩ := gather_cover hT hS htp hP f t s b0 ht hs htr hR h
  have hPc := hT.contained ht hPt
  have tri : ∀ i, ind i P.iv = 1 → ind i t.iv = 1 := by
    intro i hi; rw [ind_eq_one] at hi ⊢; omega
  rw [e]
  by_cases hcs : cs = []
  · subst hcs
    have hgn : gather p b0 = [] := by simpa using hperm.symm.eq_nil
    have hz : ∀ i j, ind i P.iv * ind j s.iv = 0 := by
      intro i j
      rcases ind_cases i P.iv with hi | hi
      · rw [hi]; simp
      · have := g2 i j hi
        rw [hgn, tri i hi] at this
        simp at this; rw [← this]; simp
    refine ⟨?_, ?_, ha1, ha2, ha3⟩
    · intro i j
      have hz1 := hz i j
      have hl : (Tree.node a []).leaves = [Tree.node a []] := by simp [Tree.leaves]
      rw [hl, symLeaves_leaf, cover_cons, Tree.label_node, ha1, ha2, hz1]
      split_ifs with hh
      · -- flag set: P and s have the same interval
        have hfl : E.symFlag P s = true := by simp only [Bool.and_eq_true] at hh; exact hh.1
        have hoff : a.offDiag = true := by simp only [Bool.and_eq_true] at hh; exact hh.2
        simp only [BEnv.symFlag, Bool.and_eq_true, decide_eq_true_eq] at hfl
        simp [BNode.offDiag, ha1, ha2] at hoff
        exact absurd hfl.1.2 hoff
      · simp
    · intro h1 h2
      have := hz P.off s.off
      rw [ind_eq_one.2 ⟨le_refl _, by unfold Tree.fin; omega⟩, ind_eq_one.2 ⟨le_refl _, by unfold Tree.fin; omega⟩] at this
      omega
  · have hfl : ∀ i j, cover (cs.flatMap Tree.leaves) i j = cover ((gather p b0).flatMap Tree.leaves) i j :=
      fun i j => cover_perm (List.Perm.flatMap_right _ hperm) i j
    have hfl2 : ∀ i j, cover (cs.flatMap (symLeaves (E.symFlag P s))) i j =
        cover ((gather p b0).flatMap (symLeaves (E.symFlag P s))) i j :=
      fun i j => cover_perm (List.Perm.flatMap_right _ hperm) i j
    refine ⟨?_, ?_, ha1, ha2, ha3⟩
    · intro i j
      rw [Tree.leaves_node_ne hcs, Tree.leavesL_eq, symLeaves_node _ _ hcs, ha3, Bool.or_self, hfl, hfl2,
        cover_flatMap, cover_flatMap, ← List.sum_map_add]
      have : (gather p b0).map (fun g => cover g.leaves i j + cover (symLeaves (E.symFlag P s) g) j i) =
          (gather p b0).map (fun g => ind i P.iv * ind j g.label.s.iv) := by
        apply List.map_congr_left
        intro g hgm
        obtain ⟨-, q2, q3, q4, f', q5⟩ := g1 g hgm
        exact (hg f' _ g q3 q4 q5).2 i j
      rw [this]
      rcases ind_cases i P.iv with hi | hi
      · simp [hi]
      · have h2 := g2 i j hi
        rw [tri i hi, one_mul] at h2
        rw [hi, one_mul, ← h2, cover]
        apply congrArg
        apply List.map_congr_left
        intro g hgm
        rw [(g1 g hgm).2.1, hi]
    · intro _ _ c hc
      rw [Tree.leaves_node_ne hcs, Tree.leavesL_eq, List.mem_flatMap] at hc
      obtain ⟨g, hgm, hc⟩ := hc
      obtain ⟨-, q2, q3, q4, f', q5⟩ := g1 g (hperm.mem_iff.1 hgm)
      exact (hg f' _ g q3 q4 q5).1 c hc

theorem symFlag_N {E : BEnv G} (h : E.sym = .N) (t s : CTree G) : E.symFlag t s = false := by
  simp [BEnv.symFlag, h]

theorem symLeaves_N {E : BEnv G} (hT : E.tct.WF) (hS : E.sct.WF) (hsym : E.sym = .N) {f t s b}
    (ht : t ∈ E.tct.root.pre) (hs : s ∈ E.sct.root.pre) (h : buildBlockTree E f t s = some b) : symLeaves false b = [] :=
  symLeaves_false_eq b (fun c hc => by
    rw [(buildBlockTree_nodes hT hS f t s b ht hs h c hc).2.2.1, symFlag_N hsym])

/-- **C13.** Without symmetry and without target partition number (or when the root target cluster is already in that
partition), every entry of the root block belongs to exactly one leaf, no other entry to any leaf, and no leaf is mirrored. -/
theorem C13_leaves_tile {E : BEnv G} (hT : E.tct.WF) (hS : E.sct.WF) (hsym : E.sym = .N) {f : ℕ} {t s : CTree G}
    {b : BTree G} (ht : t ∈ E.tct.root.pre) (hs : s ∈ E.sct.root.pre)
    (hp : E.tp = none ∨ ∃ p : ℕ, E.tp = some p ∧ t.rk = (p : ℤ))
    (h : buildBlocks E f t s = some b) (i j : ℕ) :
    (getLeavesFrom b).1.countP (fun c => decide (InBlock c i j)) = (if InIv i t.iv ∧ InIv j s.iv then 1 else 0) ∧
    (getLeavesFrom b).2 = [] := by
  obtain ⟨b0, h0, rfl⟩ := buildBlocks_inv h
  rw [resetRoot_same h0 hp]
  obtain ⟨p1, p2⟩ := getLeavesFrom_perm b0
  obtain ⟨-, -, -, hc, -⟩ := full_cover hT hS f t s b0 ht hs (inPart_below hT ht hp)
    (fun u _ v _ => removed_sym_N hsym u v) h0
  constructor
  · rw [cover_eq, cover_perm p1, hc, ind_mul_eq]
  · rw [(buildBlockTree_label h0).2.2, symFlag_N hsym, symLeaves_N hT hS hsym ht hs h0] at p2
    exact p2.eq_nil

/-- **C13 (target partition).** Without symmetry and with target partition number `p`, from a root target cluster above the
partition: the new root is the `p`-th partition cluster `P`, every entry of `P × s` belongs to exactly one leaf, no entry
with a row outside `P` belongs to any leaf. -/
theorem C13_leaves_tile_partition {E : BEnv G} (hT : E.tct.WF) (hS : E.sct.WF) (hsym : E.sym = .N) {f : ℕ} {t s : CTree G}
    {b : BTree G} (ht : t ∈ E.tct.root.pre) (hs : s ∈ E.sct.root.pre) {p : ℕ} {P : CTree G} (hp : E.tp = some p)
    (hP : E.tct.parts[p]? = some P) (htr : t.rk < 0) (hPt : P ∈ t.pre)
    (h : buildBlocks E f t s = some b) (i j : ℕ) :
    b.label.t = P ∧ b.label.s = s ∧
    (getLeavesFrom b).1.countP (fun c => decide (InBlock c i j)) = (if InIv i P.iv ∧ InIv j s.iv then 1 else 0) ∧
    (getLeavesFrom b).2 = [] := by
  obtain ⟨b0, h0, rfl⟩ := buildBlocks_inv h
  have hPr := Tree.mem_pre_trans ht hPt
  have hPrk := hT.parts_rank p P hP
  have hg : ∀ f' v g, v ∈ s.pre → (E.sct.Upper s → E.sct.Upper v) → buildBlockTree E f' P v = some g →
      (∀ c ∈ g.leaves, c.label.isData) ∧
      ∀ i j, cover g.leaves i j + cover (symLeaves (E.symFlag P s) g) j i = ind i P.iv * ind j v.iv := by
    intro f' v g hv _ hg
    have hvS := Tree.mem_pre_trans hs hv
    obtain ⟨-, -, hd, hc, -⟩ := full_cover hT hS f' P v g hPr hvS
      (inPart_below hT hPr (Or.inr ⟨p, hp, hPrk P (Tree.mem_pre_self _)⟩)) (fun u _ v _ => removed_sym_N hsym u v) hg
    refine ⟨hd, ?_⟩
    intro i j
    rw [symFlag_N hsym, symLeaves_N hT hS hsym hPr hvS hg, hc]; simp
  obtain ⟨hc, -, l1, l2, l3⟩ := reset_cover hT hS hp hP ht hs htr hPt (fun u _ _ v _ => removed_sym_N hsym u v) h0 hg
  obtain ⟨p1, p2⟩ := getLeavesFrom_perm (resetRoot E b0)
  have hnil : symLeaves false (resetRoot E b0) = [] := by
    obtain ⟨a, cs, e, -, -, ha3, hperm, -⟩ := resetRoot_part h0 hp htr hP
    obtain ⟨g1, -⟩ := gather_cover hT hS hp hP f t s b0 ht hs htr (fun u _ _ v _ => removed_sym_N hsym u v) h0
    rw [e]
    refine symLeaves_false_eq _ ?_
    intro c hcm
    rcases Tree.mem_pre.1 hcm with rfl | ⟨g, hg, hcg⟩
    · rw [Tree.label_node, ha3, symFlag_N hsym]
    · have := (g1 g (hperm.mem_iff.1 hg)).1
      rw [(buildBlockTree_nodes hT hS f t s b0 ht hs h0 c (Tree.mem_pre_trans this hcg)).2.2.1, symFlag_N hsym]
  refine ⟨l1, l2, ?_, ?_⟩
  · have := hc i j
    rw [symFlag_N hsym, hnil, cover_nil, Nat.add_zero] at this
    rw [cover_eq, cover_perm p1, this, ind_mul_eq]
  · rw [l3, symFlag_N hsym, hnil] at p2
    exact p2.eq_nil

/-- Symmetric builder settings on one cluster tree. -/
structure BEnv.Symm (E : BEnv G) : Prop where
  wf : E.tct.WF
  pos : E.tct.Pos
  same : E.sct = E.tct
  consistent : E.consistent = true
  sym : E.sym ≠ .N
  uplo : E.uplo ≠ .N

/-- **C14.** Symmetric (or Hermitian) builder on one cluster `a` against itself: every entry belongs to exactly one leaf, or its
mirror image belongs to exactly one leaf listed for symmetry, never both. -/
theorem C14_symmetric_leaves_tile {E : BEnv G} (hE : E.Symm) (hps : E.psym = none) {f : ℕ} {a : CTree G} {b : BTree G}
    (ha : a ∈ E.tct.root.pre) (hp : E.tp = none ∨ ∃ p : ℕ, E.tp = some p ∧ a.rk = (p : ℤ))
    (h : buildBlocks E f a a = some b) (i j : ℕ) :
    (getLeavesFrom b).1.countP (fun c => decide (InBlock c i j)) +
      (getLeavesFrom b).2.countP (fun c => decide (InBlock c j i)) =
      if InIv i a.iv ∧ InIv j a.iv then 1 else 0 := by
  obtain ⟨b0, h0, rfl⟩ := buildBlocks_inv h
  rw [resetRoot_same h0 hp]
  obtain ⟨p1, p2⟩ := getLeavesFrom_perm b0
  rw [cover_eq, cover_eq, cover_perm p1, cover_perm p2]
  rw [(diag_cover hE.wf hE.same hE.pos hE.consistent hE.sym hE.uplo f a b0 ha (inPart_below hE.wf ha hp)
    (fun u _ v _ => removed_iff_none hE.sym hps u v) h0 b0.label.sym).2 i j, ind_mul_eq]

theorem flag_sub {E : BEnv G} {P s : CTree G} (h : E.symFlag P s = true) : P.off ≤ s.off ∧ s.fin ≤ P.fin := by
  simp only [BEnv.symFlag, Bool.and_eq_true, decide_eq_true_eq] at h
  unfold Tree.fin
  omega

/-- **C14 (symmetry restricted to one partition cluster).** Target root `P` (the `p`-th partition cluster), source root any cluster
at or above the partition, symmetry restricted to partition `p`. -/
theorem C14_local_symmetric_leaves_tile {E : BEnv G} (hE : E.Symm) {p : ℕ} {P : CTree G} (hps : E.psym = some p)
    (hP : E.tct.parts[p]? = some P) (htp : E.tp = none ∨ E.tp = some p) {f : ℕ} {s : CTree G} {b : BTree G}
    (hs : s ∈ E.tct.root.pre) (hup : s.rk < 0 ∨ s ∈ E.tct.parts)
    (h : buildBlocks E f P s = some b) (i j : ℕ) :
    (getLeavesFrom b).1.countP (fun c => decide (InBlock c i j)) +
      (getLeavesFrom b).2.countP (fun c => decide (InBlock c j i)) =
      if InIv i P.iv ∧ InIv j s.iv then 1 else 0 := by
  obtain ⟨b0, h0, rfl⟩ := buildBlocks_inv h
  have hrk := hE.wf.parts_rank p P hP P (Tree.mem_pre_self _)
  rw [resetRoot_same h0 (htp.imp id (fun h => ⟨p, h, hrk⟩))]
  obtain ⟨p1, p2⟩ := getLeavesFrom_perm b0
  rw [cover_eq, cover_eq, cover_perm p1, cover_perm p2]
  rw [(upper_cover hE.wf hE.same hE.pos hE.consistent hE.sym hE.uplo hps htp hP f s b0 hs hup h0 b0.label.sym
    (fun hfl => by rw [(buildBlockTree_label h0).2.2] at hfl; exact flag_sub hfl)).2 i j, ind_mul_eq]

/-- **C14 (target partition and symmetry on the same partition).** From root clusters above the partition with target partition `p`
and symmetry restricted to `p`: the leaves and the mirrored leaves cover each entry of `P × s` exactly once. -/
theorem C14_partition_symmetric_leaves_tile {E : BEnv G} (hE : E.Symm) {p : ℕ} {P : CTree G} (hps : E.psym = some p)
    (hP : E.tct.parts[p]? = some P) (htp : E.tp = some p) {f : ℕ} {t s : CTree G} {b : BTree G}
    (ht : t ∈ E.tct.root.pre) (htr : t.rk < 0) (hPt : P ∈ t.pre)
    (hs : s ∈ E.tct.root.pre) (hup : s.rk < 0 ∨ s ∈ E.tct.parts)
    (h : buildBlocks E f t s = some b) (i j : ℕ) :
    b.label.t = P ∧ b.label.s = s ∧
    (getLeavesFrom b).1.countP (fun c => decide (InBlock c i j)) +
      (getLeavesFrom b).2.countP (fun c => decide (InBlock c j i)) =
      if InIv i P.iv ∧ InIv j s.iv then 1 else 0 := by
  obtain ⟨b0, h0, rfl⟩ := buildBlocks_inv h
  have hS : E.sct.WF := hE.same ▸ hE.wf
  have hs' : s ∈ E.sct.root.pre := hE.same ▸ hs
  have hg : ∀ f' v g, v ∈ s.pre → (E.sct.Upper s → E.sct.Upper v) → buildBlockTree E f' P v = some g →
      (∀ c ∈ g.leaves, c.label.isData) ∧
      ∀ i j, cover g.leaves i j + cover (symLeaves (E.symFlag P s) g) j i = ind i P.iv * ind j v.iv := by
    intro f' v g hv hu hg
    refine upper_cover hE.wf hE.same hE.pos hE.consistent hE.sym hE.uplo hps (Or.inr htp) hP f' v g
      (Tree.mem_pre_trans hs hv) ?_ hg _ ?_
    · rw [← hE.same]; exact hu (by rw [hE.same]; exact hup)
    · intro hfl
      have h1 := flag_sub hfl
      have h2 := hE.wf.contained hs hv
      omega
  obtain ⟨hc, -, l1, l2, l3⟩ := reset_cover hE.wf hS htp hP ht hs' htr hPt
    (fun u hu hup v hv => removed_top hE.wf hE.same hE.pos hE.sym hps hP (Tree.mem_pre_trans ht hu)
      (Tree.mem_pre_trans hs hv) hup) h0 hg
  obtain ⟨p1, p2⟩ := getLeavesFrom_perm (resetRoot E b0)
  refine ⟨l1, l2, ?_⟩
  rw [cover_eq, cover_eq, cover_perm p1, cover_perm p2, l3, hc, ind_mul_eq]

/-- Nodes of the tree returned by `build` come from the recursion, apart from the reset root. -/
theorem buildBlocks_nodes {E : BEnv G} {f : ℕ} {t s : CTree G} {b b0 : BTree G}
    (h0 : buildBlockTree E f t s = some b0) (hb : b = resetRoot E b0) :
    ∀ c ∈ b.pre, c ∈ b0.pre ∨ (c = b ∧ c.label.kind = b0.label.kind) := by
  intro c hc
  have hgp : ∀ (p : ℕ) (b0 : BTree G), ∀ g ∈ gather p b0, g ∈ b0.pre := by
    intro p b0
    induction b0 using Tree.ind with
    | h a cs ih =>
      intro g hg
      rw [gather_node, List.mem_flatMap] at hg
      obtain ⟨d, hd, hg⟩ := hg
      split_ifs at hg with hr
      · rw [List.mem_singleton] at hg; subst hg
        exact child_mem_pre hd
      · exact Tree.mem_pre.2 (Or.inr ⟨d, hd, ih d hd g hg⟩)
  subst hb
  unfold resetRoot at hc ⊢
  split at hc
  · exact Or.inl hc
  · rename_i p hp
    split_ifs at hc ⊢ with hr
    · exact Or.inl hc
    · split at hc
      · exact Or.inl hc
      · rcases Tree.mem_pre.1 hc with rfl | ⟨d, hd, hcd⟩
        · exact Or.inr ⟨rfl, rfl⟩
        · left
          have hperm : (gatherLoop p [b0]).Perm (gather p b0) := by simpa using gatherLoop_perm p [b0]
          exact Tree.mem_pre_trans (hgp p b0 d (hperm.mem_iff.1 hd)) hcd

/-- **C15.** In every block tree a block proposed for compression is admissible, respects the minimal depths, lies (target
side) inside one partition cluster, and with block tree consistency also on the source side; a block assembled densely is a pair of leaf
clusters. Both are leaves of the block tree. -/
theorem C15_only_admissible_compressed {E : BEnv G} (hT : E.tct.WF) (hS : E.sct.WF) {f : ℕ} {t s : CTree G} {b : BTree G}
    (ht : t ∈ E.tct.root.pre) (hs : s ∈ E.sct.root.pre)
    (hp : ∀ p : ℕ, E.tp = some p → ∃ P, E.tct.parts[p]? = some P ∧ (t.rk < 0 ∨ t.rk = (p : ℤ)))
    (h : buildBlocks E f t s = some b) :
    ∀ c ∈ b.pre,
      (c.label.kind = .adm → E.adm c.label.t.label c.label.s.label = true ∧ E.mint ≤ c.label.t.label.depth ∧
        E.mins ≤ c.label.s.label.depth ∧ (∃ P ∈ E.tct.parts, c.label.t ∈ P.pre) ∧
        (E.consistent = true → ∃ Q ∈ E.sct.parts, c.label.s ∈ Q.pre) ∧ c.children = []) ∧
      (c.label.kind = .dense → c.label.t.children = [] ∧ c.label.s.children = [] ∧ c.children = []) := by
  obtain ⟨b0, h0, hb⟩ := buildBlocks_inv h
  have key : ∀ c ∈ b0.pre,
      (c.label.kind = .adm → E.adm c.label.t.label c.label.s.label = true ∧ E.mint ≤ c.label.t.label.depth ∧
        E.mins ≤ c.label.s.label.depth ∧ (∃ P ∈ E.tct.parts, c.label.t ∈ P.pre) ∧
        (E.consistent = true → ∃ Q ∈ E.sct.parts, c.label.s ∈ Q.pre) ∧ c.children = []) ∧
      (c.label.kind = .dense → c.label.t.children = [] ∧ c.label.s.children = [] ∧ c.children = []) := by
    intro c hc
    obtain ⟨h1, h2, -, h4, h5⟩ := buildBlockTree_nodes hT hS f t s b0 ht hs h0 c hc
    constructor
    · intro hk
      obtain ⟨h6, h7⟩ := h4 hk
      simp only [BEnv.isAdmTask, Bool.and_eq_true, decide_eq_true_eq, Bool.or_eq_true, Bool.not_eq_true'] at h6
      obtain ⟨⟨⟨⟨⟨⟨q1, -⟩, -⟩, q2⟩, q3⟩, q4⟩, q5⟩ := h6
      refine ⟨q1, q2, q3, hT.ranked _ (Tree.mem_pre_trans ht h1) q4, ?_, h7⟩
      intro hcons
      rcases q5 with q5 | q5
      · rw [hcons] at q5; simp at q5
      · exact hS.ranked _ (Tree.mem_pre_trans hs h2) q5
    · intro hk
      obtain ⟨q1, q2, q3, -⟩ := h5 hk
      exact ⟨isLeaf_iff.1 q1, isLeaf_iff.1 q2, q3⟩
  intro c hc
  rcases buildBlocks_nodes h0 hb c hc with h1 | ⟨rfl, hkind⟩
  · exact key c h1
  · -- the reset root: it was above the partition, hence neither admissible nor a pair of leaves
    by_cases hsame : c = b0
    · subst hsame; exact key c (Tree.mem_pre_self _)
    · have htp : ∃ p, E.tp = some p := by
        cases hh : E.tp with
        | none =>
          rw [hb] at hsame; exact absurd (resetRoot_same h0 (Or.inl hh)) hsame
        | some p => exact ⟨p, rfl⟩
      obtain ⟨p, htp⟩ := htp
      obtain ⟨P, hP, hr⟩ := hp p htp
      rcases hr with hr | hr
      · obtain ⟨-, -, -, h4, h5⟩ := buildBlockTree_nodes hT hS f t s b0 ht hs h0 b0 (Tree.mem_pre_self _)
        rw [(buildBlockTree_label h0).1] at h4 h5
        constructor
        · intro hk
          have h6 := (h4 (hkind ▸ hk)).1
          simp only [BEnv.isAdmTask, Bool.and_eq_true, decide_eq_true_eq] at h6
          omega
        · intro hk
          have h6 := (h5 (hkind ▸ hk)).1
          exact absurd (isLeaf_iff.1 h6) (hT.above t ht hr).1
      · rw [hb] at hsame; exact absurd (resetRoot_same h0 (Or.inr ⟨p, htp, hr⟩)) hsame

/-- **C16 (termination).** `build` terminates: recursion depth at most the number of clusters of the two root clusters. -/
theorem C16_build_terminates {E : BEnv G} (hT : E.tct.WF) (hS : E.sct.WF) {t s : CTree G}
    (ht : t ∈ E.tct.root.pre) (hs : s ∈ E.sct.root.pre) :
    ∃ fuel b, buildBlocks E fuel t s = some b := by
  obtain ⟨b, hb⟩ := buildBlockTree_some hT hS (t.count + s.count) t s ht hs (le_refl _)
  exact ⟨t.count + s.count, resetRoot E b, by simp [buildBlocks, hb]⟩

/-- **C16 (no empty hierarchical block, no symmetry).** Every childless block is in a task list, hence receives data. -/
theorem C16_leaves_have_data {E : BEnv G} (hT : E.tct.WF) (hS : E.sct.WF) (hposT : E.tct.Pos) (hposS : E.sct.Pos)
    (hsym : E.sym = .N) {f : ℕ} {t s : CTree G} {b : BTree G} (ht : t ∈ E.tct.root.pre) (hs : s ∈ E.sct.root.pre)
    (hp : ∀ p : ℕ, E.tp = some p → t.rk = (p : ℤ) ∨ t.rk < 0 ∧ ∃ P ∈ t.pre, E.tct.parts[p]? = some P)
    (h : buildBlocks E f t s = some b) : ∀ c ∈ b.pre, c.children = [] → c.label.kind ≠ .hier := by
  obtain ⟨b0, h0, rfl⟩ := buildBlocks_inv h
  have same : (E.tp = none ∨ ∃ p : ℕ, E.tp = some p ∧ t.rk = (p : ℤ)) →
      ∀ c ∈ (resetRoot E b0).pre, c.children = [] → c.label.kind ≠ .hier := by
    intro hp c hc hcc
    rw [resetRoot_same h0 hp] at hc
    obtain ⟨-, -, hd, -⟩ := full_cover hT hS f t s b0 ht hs (inPart_below hT ht hp)
      (fun u _ v _ => removed_sym_N hsym u v) h0
    exact hd c ((Tree.mem_leaves_iff _ _).2 ⟨hc, hcc⟩)
  cases htp : E.tp with
  | none => exact same (Or.inl htp)
  | some p =>
    rcases hp p htp with hr | ⟨hr, P, hPt, hP⟩
    · exact same (Or.inr ⟨p, htp, hr⟩)
    · have hPr := Tree.mem_pre_trans ht hPt
      have hPrk := hT.parts_rank p P hP
      obtain ⟨-, hd, -⟩ := reset_cover hT hS htp hP ht hs hr hPt (fun u _ _ v _ => removed_sym_N hsym u v) h0 (by
        intro f' v g hv _ hg
        have hvS := Tree.mem_pre_trans hs hv
        obtain ⟨-, -, hd, hc, -⟩ := full_cover hT hS f' P v g hPr hvS
          (inPart_below hT hPr (Or.inr ⟨p, htp, hPrk P (Tree.mem_pre_self _)⟩)) (fun u _ v _ => removed_sym_N hsym u v) hg
        refine ⟨hd, ?_⟩
        intro i j
        rw [symFlag_N hsym, symLeaves_N hT hS hsym hPr hvS hg, hc]; simp)
      intro c hc hcc
      exact hd (hposT P hPr) (hposS s hs) c ((Tree.mem_leaves_iff _ _).2 ⟨hc, hcc⟩)

/-- **C16 (no empty hierarchical block, symmetric builder on one cluster).** -/
theorem C16_symmetric_leaves_have_data {E : BEnv G} (hE : E.Symm) (hps : E.psym = none) {f : ℕ} {a : CTree G} {b : BTree G}
    (ha : a ∈ E.tct.root.pre) (hp : E.tp = none ∨ ∃ p : ℕ, E.tp = some p ∧ a.rk = (p : ℤ))
    (h : buildBlocks E f a a = some b) : ∀ c ∈ b.pre, c.children = [] → c.label.kind ≠ .hier := by
  obtain ⟨b0, h0, rfl⟩ := buildBlocks_inv h
  rw [resetRoot_same h0 hp]
  intro c hc hcc
  exact (diag_cover hE.wf hE.same hE.pos hE.consistent hE.sym hE.uplo f a b0 ha (inPart_below hE.wf ha hp)
    (fun u _ v _ => removed_iff_none hE.sym hps u v) h0 b0.label.sym).1 c ((Tree.mem_leaves_iff _ _).2 ⟨hc, hcc⟩)

/-- **C16 (no empty hierarchical block, symmetry restricted to one partition cluster).** -/
theorem C16_partition_symmetric_leaves_have_data {E : BEnv G} (hE : E.Symm) {p : ℕ} {P : CTree G} (hps : E.psym = some p)
    (hP : E.tct.parts[p]? = some P) (htp : E.tp = some p) {f : ℕ} {t s : CTree G} {b : BTree G}
    (ht : t ∈ E.tct.root.pre) (htr : t.rk < 0) (hPt : P ∈ t.pre)
    (hs : s ∈ E.tct.root.pre) (hup : s.rk < 0 ∨ s ∈ E.tct.parts)
    (h : buildBlocks E f t s = some b) : ∀ c ∈ b.pre, c.children = [] → c.label.kind ≠ .hier := by
  obtain ⟨b0, h0, rfl⟩ := buildBlocks_inv h
  have hS : E.sct.WF := hE.same ▸ hE.wf
  have hs' : s ∈ E.sct.root.pre := hE.same ▸ hs
  obtain ⟨-, hd, -⟩ := reset_cover hE.wf hS htp hP ht hs' htr hPt
    (fun u hu hup v hv => removed_top hE.wf hE.same hE.pos hE.sym hps hP (Tree.mem_pre_trans ht hu)
      (Tree.mem_pre_trans hs hv) hup) h0 (by
      intro f' v g hv hu hg
      refine upper_cover hE.wf hE.same hE.pos hE.consistent hE.sym hE.uplo hps (Or.inr htp) hP f' v g
        (Tree.mem_pre_trans hs hv) ?_ hg _ ?_
      · rw [← hE.same]; exact hu (by rw [hE.same]; exact hup)
      · intro hfl
        have h1 := flag_sub hfl
        have h2 := hE.wf.contained hs hv
        omega)
  intro c hc hcc
  exact hd (hE.pos P (Tree.mem_pre_trans ht hPt)) (hE.pos s hs) c ((Tree.mem_leaves_iff _ _).2 ⟨hc, hcc⟩)

/-! ### Composition with the cluster tree builder -/

/-- Result of a successful cluster tree build where every leaf got a rank. -/
structure Built {D : Type*} (S : Strategies D G) (flog : ℕ → ℕ → ℕ) (fuel n nc : ℕ) (arg : PartArg) (t : CTree G) (st : CState G) :
    Prop where
  strategies : S.OK
  hflog : FlogOK flog
  hnc : 2 ≤ nc
  harg : arg.ok n
  hpos : arg.posOK
  build : createClusterTree S flog fuel n nc arg = some (t, st)
  ranks : ∀ l ∈ t.leaves, 0 ≤ l.label.rank

theorem Built.wf {D : Type*} {S : Strategies D G} {flog : ℕ → ℕ → ℕ} {fuel n nc : ℕ}
    {arg : PartArg} {t : CTree G} {st : CState G} (h : Built S flog fuel n nc arg t st) :
    (clusterTreeOf t st).WF ∧ (clusterTreeOf t st).Pos :=
  create_wf h.strategies h.hflog h.hnc h.harg h.hpos h.build h.ranks

/-- **C13 for trees produced by the cluster tree builder**, from the two root clusters: each `(i,j)` of `n × m` in exactly one leaf. -/
theorem C13_built_leaves_tile {D : Type*} {S S' : Strategies D G} {flog flog' : ℕ → ℕ → ℕ} {fuel n nc fuel' m nc' : ℕ}
    {arg arg' : PartArg} {t s : CTree G} {st st' : CState G}
    (hA : Built S flog fuel n nc arg t st) (hB : Built S' flog' fuel' m nc' arg' s st')
    {E : BEnv G} (hEt : E.tct = clusterTreeOf t st) (hEs : E.sct = clusterTreeOf s st') (hsym : E.sym = .N) (htp : E.tp = none)
    {f : ℕ} {b : BTree G} (h : buildBlocks E f t s = some b) {i j : ℕ} (hi : i < n) (hj : j < m) :
    (getLeavesFrom b).1.countP (fun c => decide (InBlock c i j)) = 1 := by
  have := (C13_leaves_tile (E := E) (hEt ▸ hA.wf.1) (hEs ▸ hB.wf.1) hsym (hEt ▸ Tree.mem_pre_self t)
    (hEs ▸ Tree.mem_pre_self s) (Or.inl htp) h i j).1
  obtain ⟨a1, a2, -⟩ := create_shape hA.strategies hA.hflog hA.hnc hA.harg hA.build
  obtain ⟨b1, b2, -⟩ := create_shape hB.strategies hB.hflog hB.hnc hB.harg hB.build
  rw [this, if_pos]
  unfold InIv Tree.iv Tree.off Tree.sz
  simp only
  omega

/-- **C14 for a tree produced by the cluster tree builder**, from the root cluster against itself. -/
theorem C14_built_leaves_tile {D : Type*} {S : Strategies D G} {flog : ℕ → ℕ → ℕ} {fuel n nc : ℕ}
    {arg : PartArg} {t : CTree G} {st : CState G}
    (hA : Built S flog fuel n nc arg t st) {E : BEnv G} (hEt : E.tct = clusterTreeOf t st) (hEs : E.sct = E.tct)
    (hcons : E.consistent = true) (hsym : E.sym ≠ .N) (huplo : E.uplo ≠ .N) (htp : E.tp = none) (hps : E.psym = none)
    {f : ℕ} {b : BTree G} (h : buildBlocks E f t t = some b) {i j : ℕ} (hi : i < n) (hj : j < n) :
    (getLeavesFrom b).1.countP (fun c => decide (InBlock c i j)) +
      (getLeavesFrom b).2.countP (fun c => decide (InBlock c j i)) = 1 := by
  have := C14_symmetric_leaves_tile (E := E) ⟨hEt ▸ hA.wf.1, hEt ▸ hA.wf.2, hEs, hcons, hsym, huplo⟩ hps
    (hEt ▸ Tree.mem_pre_self t) (Or.inl htp) h i j
  obtain ⟨a1, a2, -⟩ := create_shape hA.strategies hA.hflog hA.hnc hA.harg hA.build
  rw [this, if_pos]
  unfold InIv Tree.iv Tree.off Tree.sz
  simp only
  omega

/-! ### Non-vacuity: a concrete cluster tree (12 points, 2 parts) and admissibility "intervals at distance at least 2" -/

/-- Concrete builder output. -/
def exBuild : Option (CTree (List ℕ) × CState (List ℕ)) := createClusterTree exStrategies Nat.log 16 12 2 (.auto 2)

/-- Concrete block tree settings. -/
def exEnv (t : CTree (List ℕ)) (st : CState (List ℕ)) (tp psym : Option ℕ) (sym : SymType) (uplo : UploType) : BEnv (List ℕ) :=
  { tct := clusterTreeOf t st, sct := clusterTreeOf t st,
    adm := fun a b => decide (a.offset + a.size + 1 < b.offset) || decide (b.offset + b.size + 1 < a.offset),
    mint := 0, mins := 0, tp := tp, sym := sym, uplo := uplo, psym := psym, consistent := true }

/-- Summary of a block tree: number of leaves, of admissible leaves, of mirrored leaves. -/
def exRun (tp psym : Option ℕ) (sym : SymType) (uplo : UploType) : Option (ℕ × ℕ × ℕ) :=
  exBuild.bind (fun r => (buildBlocks (exEnv r.1 r.2 tp psym sym uplo) 100 r.1 r.1).map (fun b =>
    ((getLeavesFrom b).1.length, ((getLeavesFrom b).1.filter (fun c => decide (c.label.kind = .adm))).length,
      (getLeavesFrom b).2.length)))

theorem exBuild_built : ∃ t st, exBuild = some (t, st) ∧ Built exStrategies Nat.log 16 12 2 (.auto 2) t st := by
  have h : exBuild.isSome := by decide +kernel
  obtain ⟨⟨t, st⟩, hr⟩ := Option.isSome_iff_exists.1 h
  refine ⟨t, st, hr, exStrategies_ok, flogOK_log, by omega, (show (1 : ℕ) ≤ 2 by omega), trivial, hr, ?_⟩
  have h2 : ∀ r ∈ exBuild, ∀ l ∈ r.1.leaves, 0 ≤ l.label.rank := by decide +kernel
  exact h2 (t, st) hr

example : exRun none none .N .N = some (16, 6, 0) := by decide +kernel
example : exRun none none .S .L = some (10, 3, 6) := by decide +kernel
example : exRun (some 1) none .N .N = some (8, 3, 0) := by decide +kernel
example : exRun (some 1) (some 1) .H .U = some (7, 3, 1) := by decide +kernel

/-- How often the entry `(i,j)` is covered by leaves and mirrored leaves in the concrete example. -/
def exCount (tp psym : Option ℕ) (sym : SymType) (uplo : UploType) (i j : ℕ) : Option ℕ :=
  exBuild.bind (fun r => (buildBlocks (exEnv r.1 r.2 tp psym sym uplo) 100 r.1 r.1).map (fun b =>
    (getLeavesFrom b).1.countP (fun c => decide (InBlock c i j)) +
      (getLeavesFrom b).2.countP (fun c => decide (InBlock c j i))))

/-- **C14, limits.** The two partition numbers must go together: from the root cluster, a symmetry restricted to partition 0 without
target partition covers entry `(0,6)` twice; a target partition 0 with unrestricted symmetry leaves entry `(0,6)` of its own rows
uncovered. -/
theorem C14_mixed_partition_settings_fail :
    exCount none (some 0) .S .L 0 6 = some 2 ∧ exCount (some 0) none .S .L 0 6 = some 0 := by
  decide +kernel

end Htool
