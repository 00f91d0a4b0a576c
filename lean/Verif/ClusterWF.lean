import Verif.Props.Cluster
import Verif.BlockSym

/-! # The output of `create_cluster_tree` as seen by the matrix code

`clusterTreeOf` turns the result of `createClusterTree` into the `ClusterTree` used by the block tree model, and `create_wf` proves
that it is well formed. -/

namespace Htool
variable {D G : Type*}
open Htool.Tree (iv)

/-- Dereferencing a `Cluster` pointer of `m_clusters_on_partition` (cluster_node.hpp 36-41): the node of the tree with the
same depth and counter (unique, see `C09_equality_identifies_node`). -/
def derefNode (t : CTree G) (c : CNode G) : Option (CTree G) :=
  t.pre.find? (fun x => decide (x.label.depth = c.depth) && decide (x.label.counter = c.counter))

/-- The cluster tree built: root and `get_clusters_on_partition()` (cluster_node.hpp 66). -/
def clusterTreeOf (t : CTree G) (st : CState G) : ClusterTree G :=
  { root := t, parts := st.parts.filterMap (fun o => o.bind (derefNode t)) }

/-- Nodes `j` levels below the root, from left to right. -/
def levelTrees : ℕ → CTree G → List (CTree G)
  | 0, t => [t]
  | j + 1, t => t.children.flatMap (levelTrees j)

theorem levelTrees_label (j : ℕ) (t : CTree G) : (levelTrees j t).map Tree.label = levelNodes j t := by
  induction j generalizing t with
  | zero => rfl
  | succ j ih =>
    simp only [levelTrees, levelNodes, List.map_flatMap]
    exact List.flatMap_congr (fun u _ => ih u)

theorem mem_levelTrees {j : ℕ} {t u : CTree G} (h : u ∈ levelTrees j t) : u ∈ t.pre := by
  induction j generalizing t with
  | zero => simp [levelTrees] at h; subst h; exact Tree.mem_pre_self _
  | succ j ih =>
    simp only [levelTrees, List.mem_flatMap] at h
    obtain ⟨c, hc, h⟩ := h
    exact Tree.mem_pre.2 (Or.inr ⟨c, hc, ih h⟩)

theorem levelTrees_depth {t : CTree G} (hd : DepthOK t) {j : ℕ} {u : CTree G} (h : u ∈ levelTrees j t) :
    u.label.depth = t.label.depth + j := by
  apply levelNodes_depth hd j
  rw [← levelTrees_label]; exact List.mem_map_of_mem h

/-- Every node at least `j` levels below is below a level node. -/
theorem levelTrees_above {t : CTree G} (hd : DepthOK t) {j : ℕ} {x : CTree G} (hx : x ∈ t.pre)
    (h : t.label.depth + j ≤ x.label.depth) : ∃ P ∈ levelTrees j t, x ∈ P.pre := by
  induction j generalizing t with
  | zero => exact ⟨t, by simp [levelTrees], hx⟩
  | succ j ih =>
    rcases Tree.mem_pre.1 hx with rfl | ⟨c, hc, hx'⟩
    · omega
    · have h2 := hd _ (Tree.mem_pre_self _) c hc
      obtain ⟨P, hP, hxP⟩ := ih (hd.child hc) hx' (by omega)
      exact ⟨P, List.mem_flatMap.2 ⟨c, hc, hP⟩, hxP⟩

theorem HierTiles.sub {t x : CTree G} (h : HierTiles t) (hx : x ∈ t.pre) : HierTiles x :=
  fun s hs => h s (Tree.mem_pre_trans hx hs)

theorem DepthOK.sub {t x : CTree G} (h : DepthOK t) (hx : x ∈ t.pre) : DepthOK x :=
  fun s hs => h s (Tree.mem_pre_trans hx hs)

theorem HierTiles.bounds {t : CTree G} (h : HierTiles t) : ∀ x ∈ t.pre, t.off ≤ x.off ∧ x.fin ≤ t.fin := by
  induction t using Tree.ind with
  | h a cs ih =>
    intro x hx
    rcases Tree.mem_pre.1 hx with rfl | ⟨c, hc, hx'⟩
    · exact ⟨le_refl _, le_refl _⟩
    · have h1 := ih c hc (h.child hc) x hx'
      have h2 := (h _ (Tree.mem_pre_self _) (List.ne_nil_of_mem hc)).mem_bounds
        (List.mem_map_of_mem (f := fun u : CTree G => u.label.iv) hc)
      simp only [CNode.iv, Tree.off, Tree.fin, Tree.sz, Tree.label_node] at *
      omega

theorem HierTiles.levelTrees {t : CTree G} (h : HierTiles t) (hd : DepthOK t) (j : ℕ)
    (hfull : ∀ s ∈ t.leaves, t.label.depth + j ≤ s.label.depth) :
    Tiles t.off t.fin ((Htool.levelTrees j t).map iv) := by
  have := h.level hd j hfull
  rw [← levelTrees_label, List.map_map] at this
  exact this

theorem leftContainsRight_iff {a b : CTree G} :
    leftContainsRight a b = true ↔ a.off ≤ b.off ∧ b.fin ≤ a.fin := by
  simp [leftContainsRight, Tree.fin, Nat.add_comm]

/-- The level nodes contained in the interval of an upper node are the level nodes below it. -/
theorem levelTrees_filter {t : CTree G} (h : HierTiles t) (hd : DepthOK t) (j : ℕ)
    (hpos : ∀ P ∈ t.pre, P = t ∨ 0 < P.sz) {x : CTree G} (hx : x ∈ t.pre) {k : ℕ}
    (hk : x.label.depth + k = t.label.depth + j) :
    (levelTrees j t).filter (fun u => leftContainsRight x u) = levelTrees k x := by
  induction t using Tree.ind generalizing j with
  | h a cs ih =>
    rcases Tree.mem_pre.1 hx with rfl | ⟨c, hc, hx'⟩
    · have : k = j := by omega
      subst this
      rw [List.filter_eq_self]
      intro u hu
      rw [leftContainsRight_iff]
      exact h.bounds u (mem_levelTrees hu)
    · have hc : c ∈ cs := hc
      have h2 := hd _ (Tree.mem_pre_self _) c hc
      have h3 : c.label.depth ≤ x.label.depth := by
        rcases (hd.child hc).le x hx' with h0 | h0
        · rw [h0]
        · exact h0.le
      simp only [Tree.label_node] at h2 hk
      obtain ⟨i, rfl⟩ : ∃ i, j = i + 1 := ⟨j - 1, by
        have : j ≠ 0 := by rintro rfl; omega
        omega⟩
      have key : ∀ c ∈ cs, x ∈ c.pre → (levelTrees i c).filter (fun u => leftContainsRight x u) = levelTrees k x := by
        intro c hc hx'
        have h2 := hd _ (Tree.mem_pre_self _) c hc
        simp only [Tree.label_node] at h2
        exact ih c hc (h.child hc) (hd.child hc) i
          (fun P hP => by
            rcases hpos P (Tree.mem_pre.2 (Or.inr ⟨c, hc, hP⟩)) with h0 | h0
            · exfalso
              have := Tree.count_child_lt (t := Tree.node a cs) (c := c) hc
              subst h0
              rcases mem_pre_count hP with h0 | h0
              · rw [← h0] at this; omega
              · omega
            · exact Or.inr h0) hx' (by omega)
      have hxpos : 0 < x.sz := by
        rcases hpos x hx with h0 | h0
        · exfalso
          subst h0
          have := Tree.count_child_lt (t := Tree.node a cs) (c := c) hc
          rcases mem_pre_count hx' with h0 | h0
          · rw [← h0] at this; omega
          · omega
        · exact h0
      have hxc := (h.child hc).bounds x hx'
      have hpw := (h _ (Tree.mem_pre_self _) (List.ne_nil_of_mem hc)).pairwise
      rw [List.pairwise_map] at hpw
      simp only [levelTrees, Tree.children_node] at *
      obtain ⟨l1, l2, rfl⟩ := List.append_of_mem hc
      rw [List.flatMap_append, List.flatMap_cons, List.filter_append, List.filter_append, key c hc hx']
      have hz : ∀ d ∈ l1 ++ c :: l2, (d.fin ≤ c.off ∨ c.fin ≤ d.off) →
          (levelTrees i d).filter (fun u => leftContainsRight x u) = [] := by
        intro d hd' hdc
        rw [List.filter_eq_nil_iff]
        intro u hu hux
        rw [leftContainsRight_iff] at hux
        have h5 := (h.child (t := Tree.node a (l1 ++ c :: l2)) hd').bounds u (mem_levelTrees hu)
        have hup : 0 < u.sz := by
          rcases hpos u (Tree.mem_pre.2 (Or.inr ⟨d, hd', mem_levelTrees hu⟩)) with h0 | h0
          · exfalso
            have := Tree.count_child_lt (t := Tree.node a (l1 ++ c :: l2)) (c := d) hd'
            rcases mem_pre_count (mem_levelTrees hu) with h1 | h1
            · rw [← h1, h0] at this; omega
            · rw [h0] at h1; omega
          · exact h0
        simp only [Tree.fin] at *
        omega
      rw [List.pairwise_append, List.pairwise_cons] at hpw
      have e1 : (l1.flatMap (levelTrees i)).filter (fun u => leftContainsRight x u) = [] := by
        rw [List.filter_flatMap, List.flatMap_eq_nil_iff]
        intro d hd'
        exact hz d (by simp [hd']) (Or.inl (hpw.2.2 d hd' c (by simp)))
      have e2 : (l2.flatMap (levelTrees i)).filter (fun u => leftContainsRight x u) = [] := by
        rw [List.filter_flatMap, List.flatMap_eq_nil_iff]
        intro d hd'
        exact hz d (by simp [hd']) (Or.inr (hpw.2.1.1 d hd'))
      rw [e1, e2]; simp

/-- Well-formedness from the structural facts of the builder. -/
theorem wf_of_levels {t : CTree G} (h : HierTiles t) (hd : DepthOK t) (j : ℕ)
    (h0 : t.label.depth = 0) (hpos : ∀ P ∈ t.pre, P = t ∨ 0 < P.sz)
    (hfull : ∀ s ∈ t.leaves, j + 1 ≤ s.label.depth)
    (hr : ∀ s ∈ t.pre, s.label.depth < j + 1 ∧ s.rk < 0 ∨ j + 1 ≤ s.label.depth ∧ 0 ≤ s.rk)
    (hp : ∀ (p : ℕ) (P : CTree G), (levelTrees (j + 1) t)[p]? = some P → ∀ x ∈ P.pre, x.rk = (p : ℤ)) :
    (ClusterTree.mk t (levelTrees (j + 1) t)).WF where
  hier := fun x hx hne => h x hx hne
  parts_mem := fun P hP => mem_levelTrees hP
  parts_tiles := h.levelTrees hd _ (by rw [h0]; simpa using hfull)
  parts_rank := hp
  ranked := by
    intro x hx hxr
    refine levelTrees_above hd hx ?_
    rcases hr x hx with h1 | h1
    · omega
    · omega
  above := by
    intro x hx hxr
    have hx : x ∈ t.pre := hx
    have hdx : x.label.depth < j + 1 := by
      rcases hr x hx with h1 | h1
      · exact h1.1
      · omega
    have hflt := levelTrees_filter h hd (j + 1) hpos hx (k := j + 1 - x.label.depth) (by omega)
    have hfullx : ∀ s ∈ x.leaves, j + 1 ≤ s.label.depth := by
      intro s hs
      obtain ⟨h1, h2⟩ := (Tree.mem_leaves_iff x s).1 hs
      exact hfull s ((Tree.mem_leaves_iff t s).2 ⟨Tree.mem_pre_trans hx h1, h2⟩)
    have htl := (h.sub hx).levelTrees (hd.sub hx) (j + 1 - x.label.depth)
      (fun s hs => by have := hfullx s hs; omega)
    have hne : x.children ≠ [] := by
      intro hc
      have := hfullx x ((Tree.mem_leaves_iff x x).2 ⟨Tree.mem_pre_self _, hc⟩)
      omega
    have hsub : ∀ u, u ∈ levelTrees (j + 1 - x.label.depth) x ↔
        u ∈ levelTrees (j + 1) t ∧ leftContainsRight x u = true := by
      intro u; rw [← hflt, List.mem_filter]
    refine ⟨hne, ?_, ?_, ?_, ?_⟩
    · show (levelTrees (j + 1) t).filter (fun u => leftContainsRight x u) ≠ []
      rw [hflt]
      obtain ⟨l, hl⟩ := List.exists_mem_of_ne_nil _ (Tree.leaves_ne_nil x)
      obtain ⟨P, hP, -⟩ := levelTrees_above (hd.sub hx) (j := j + 1 - x.label.depth)
        ((Tree.mem_leaves_iff x l).1 hl).1 (by have := hfullx l hl; omega)
      exact List.ne_nil_of_mem hP
    · show Tiles _ _ (((levelTrees (j + 1) t).filter (fun u => leftContainsRight x u)).map iv)
      rw [hflt]; exact htl
    · intro P hP hc
      exact mem_levelTrees ((hsub P).2 ⟨hP, hc⟩)
    · intro c hc hcr
      have hdc := hd x hx c hc
      have hct := Tree.mem_pre_trans hx (child_mem_pre hc)
      rcases hr c hct with h1 | h1
      · omega
      · refine ((hsub c).1 ?_).1
        have : j + 1 - x.label.depth = 0 + 1 := by omega
        rw [this]
        exact List.mem_flatMap.2 ⟨c, hc, by simp [levelTrees]⟩

theorem derefNode_of_mem {t : CTree G} (hdist : t.pre.Pairwise (fun s s' => ¬ s.label.sameSpot s'.label))
    {u : CTree G} (hu : u ∈ t.pre) : derefNode t u.label = some u := by
  unfold derefNode
  revert hdist hu
  generalize t.pre = l
  intro hdist hu
  induction l with
  | nil => simp at hu
  | cons a l ih =>
    rw [List.pairwise_cons] at hdist
    rcases List.mem_cons.1 hu with rfl | hu
    · simp
    · rw [List.find?_cons_of_neg]
      · exact ih hdist.2 hu
      · have := hdist.1 u hu
        simpa [CNode.sameSpot] using this

theorem deref_all {t : CTree G} (hdist : t.pre.Pairwise (fun s s' => ¬ s.label.sameSpot s'.label))
    (l : List (CTree G)) (hl : ∀ u ∈ l, u ∈ t.pre) :
    ((l.map Tree.label).map some).filterMap (fun o => o.bind (derefNode t)) = l := by
  induction l with
  | nil => rfl
  | cons u l ih =>
    have e : (some u.label).bind (derefNode t) = some u := derefNode_of_mem hdist (hl u (by simp))
    rw [List.map_cons, List.map_cons, List.filterMap_cons_some (f := fun o => Option.bind o (derefNode t)) (b := u) e, ih (fun v hv => hl v (by simp [hv]))]

/-- All nodes except the root of a build are nonempty. -/
theorem build_pos {E : CEnv D G} (hE : E.OK) {f c st t st'}
    (h : build E f c st = some (t, st')) : ∀ s ∈ t.pre, s = t ∨ 0 < s.label.size := by
  have := build_rec E (P := fun c _ t _ => t.label = c ∧ ∀ s ∈ t.pre, s = t ∨ 0 < s.label.size)
    (PL := fun cs _ ts _ => ts.map Tree.label = cs ∧ ∀ u ∈ ts, ∀ s ∈ u.pre, s = u ∨ 0 < s.label.size)
    (by intro c st _; refine ⟨rfl, ?_⟩; intro s hs; simp [Tree.pre, Tree.preL] at hs; exact Or.inl hs)
    (by
      rintro c st ts st' hs ⟨h1, h2⟩
      refine ⟨rfl, ?_⟩
      intro s hsm
      rcases Tree.mem_pre.1 hsm with h | ⟨u, hu, hs'⟩
      · exact Or.inl h
      · right
        have hu : u ∈ ts := hu
        have hupos : 0 < u.label.size := by
          have hm : u.label ∈ childrenOf E c st := by rw [← h1]; exact List.mem_map_of_mem hu
          have hm2 : u.label.iv ∈ splitOf E c st := by
            rw [← childrenOf_iv]; exact List.mem_map_of_mem hm
          exact (hE.splitOf c st hs).2.2 _ hm2
        rcases h2 u hu s hs' with rfl | h
        · exact hupos
        · exact h)
    (by intro st; simp)
    (by
      rintro c cs st t ts st1 st2 ⟨h1, h2⟩ ⟨h3, h4⟩
      refine ⟨by simp [h1, h3], ?_⟩
      intro u hu
      rcases List.mem_cons.1 hu with rfl | hu
      · exact h4
      · exact h2 u hu) f c st t st' h
  exact this.2

/-- Partition arguments with nonempty given parts. -/
def PartArg.posOK : PartArg → Prop
  | .auto _ => True
  | .given partition => ∀ iv ∈ partition, 0 < iv.2

/-- All created nodes occupy different spots. -/
theorem create_distinct {S : Strategies D G} (hS : S.OK) {flog} (hf : FlogOK flog)
    {fuel n nc : ℕ} (hnc : 2 ≤ nc) {arg : PartArg} (ha : arg.ok n) {t : Tree (CNode G)} {st : CState G}
    (h : createClusterTree S flog fuel n nc arg = some (t, st)) :
    t.pre.Pairwise (fun s s' => ¬ s.label.sameSpot s'.label) := by
  cases arg with
  | auto sp =>
    have hE := simpleEnv_ok hS hf hnc ha
    obtain ⟨hl, hN⟩ := build_nodes hE h
    refine hN.distinct hE ?_
    rw [hl]; intro _ _; simp [rootNode]
  | given partition =>
    exact createGiven_distinct hS hnc h

/-- **The matrix code receives a well-formed cluster tree**: if every leaf has a rank (otherwise the builder logs an error) the tree
with its partition clusters satisfies `ClusterTree.WF`. -/
theorem create_wf {S : Strategies D G} (hS : S.OK) {flog} (hf : FlogOK flog)
    {fuel n nc : ℕ} (hnc : 2 ≤ nc) {arg : PartArg} (ha : arg.ok n) (hpa : arg.posOK) {t : Tree (CNode G)} {st : CState G}
    (h : createClusterTree S flog fuel n nc arg = some (t, st))
    (hranks : ∀ l ∈ t.leaves, 0 ≤ l.label.rank) :
    (clusterTreeOf t st).WF ∧ (clusterTreeOf t st).Pos := by
  have hdist := create_distinct hS hf hnc ha h
  obtain ⟨hoff, hsz, hdep, hT, hD⟩ := create_shape hS hf hnc ha h
  have hrootrk : t.label.rank < 0 := by
    cases arg with
    | auto sp =>
      have hE := simpleEnv_ok hS hf hnc ha
      rw [(build_nodes hE h).1]; simp [rootNode]
    | given partition =>
      obtain ⟨ts, rfl, hb⟩ := createGiven_inv h
      simp [rootNode]
  have hrootne : t.children ≠ [] := by
    intro hc
    have := hranks t ((Tree.mem_leaves_iff t t).2 ⟨Tree.mem_pre_self _, hc⟩)
    omega
  have hpos : ∀ P ∈ t.pre, P = t ∨ 0 < P.sz := by
    cases arg with
    | auto sp => exact build_pos (simpleEnv_ok hS hf hnc ha) h
    | given partition =>
      obtain ⟨ts, rfl, hb⟩ := createGiven_inv h
      have hE := givenEnv_ok hS hnc
      have key : ts.map Tree.label = givenChildren S n partition ∧ ∀ u ∈ ts, ∀ s ∈ u.pre, s = u ∨ 0 < s.label.size := by
        refine buildList_rec (P := fun c _ t _ => t.label = c ∧ ∀ s ∈ t.pre, s = t ∨ 0 < s.label.size)
          (PL := fun cs _ ts _ => ts.map Tree.label = cs ∧ ∀ u ∈ ts, ∀ s ∈ u.pre, s = u ∨ 0 < s.label.size)
          (fun c s t s' hbb => ⟨(build_nodes hE hbb).1, build_pos hE hbb⟩) (fun _ => by simp) ?_ _ _ _ _ hb
        rintro c cs st t ts st1 st2 ⟨h1, h2⟩ ⟨h3, h4⟩
        refine ⟨by simp [h1, h3], ?_⟩
        intro u hu
        rcases List.mem_cons.1 hu with rfl | hu
        · exact h4
        · exact h2 u hu
      intro P hP
      rcases Tree.mem_pre.1 hP with h0 | ⟨u, hu, hPu⟩
      · exact Or.inl h0
      · right
        rcases key.2 u hu P hPu with rfl | h0
        · have h1 : P.label ∈ givenChildren S n partition := by rw [← key.1]; exact List.mem_map_of_mem hu
          have h2 : P.label.iv ∈ partition := by
            rw [← givenChildren_iv S n partition]; exact List.mem_map_of_mem h1
          exact hpa _ h2
        · exact h0
  have hPos : (clusterTreeOf t st).Pos := by
    intro x hx
    rcases hpos x hx with rfl | h0
    · obtain ⟨u, hu⟩ := List.exists_mem_of_ne_nil _ hrootne
      have h1 := hT.bounds u (child_mem_pre hu)
      have h2 : 0 < u.sz := by
        rcases hpos u (child_mem_pre hu) with h0 | h0
        · have := Tree.count_child_lt hu; rw [h0] at this; omega
        · exact h0
      simp only [Tree.fin] at h1
      omega
    · exact h0
  refine ⟨?_, hPos⟩
  cases arg with
  | auto sp =>
    obtain ⟨j, hj, hfull, hparts, hlen, hrk, -, -⟩ := create_parts_auto hS hf hnc ha h hranks
    have hE := simpleEnv_ok hS hf hnc ha
    obtain ⟨hl, hN⟩ := build_nodes hE h
    have hsimple : (simpleEnv S flog nc sp).simple = true := rfl
    have hrks := hN.ranks hsimple (Or.inl ⟨by rw [hdep]; omega, by rw [hl]; rfl⟩)
    have e : clusterTreeOf t st = ⟨t, levelTrees (j + 1) t⟩ := by
      unfold clusterTreeOf
      rw [hparts, ← levelTrees_label, deref_all hdist _ (fun u hu => mem_levelTrees hu)]
    rw [e]
    refine wf_of_levels hT hD j hdep hpos (by rw [hdep] at hfull; simpa using hfull) ?_ ?_
    · intro s hs
      have := hrks s hs
      rw [hj] at this
      rcases this with ⟨h1, h2⟩ | ⟨h1, h2⟩
      · left; exact ⟨h1, by rw [Tree.rk, h2]; omega⟩
      · right; exact ⟨h1, h2⟩
    · intro p P hP x hx
      have hPm := List.mem_of_getElem? hP
      have hPd := levelTrees_depth hD hPm
      have hNP : NodesOK (simpleEnv S flog nc sp) P :=
        fun s hs => hN s (Tree.mem_pre_trans (mem_levelTrees hPm) hs)
      have h1 := (hNP.rank_inherit (Or.inr (by rw [hj, hPd, hdep]; omega)) x hx).1
      have h2 : (levelNodes (j + 1) t)[p]? = some P.label := by
        rw [← levelTrees_label, List.getElem?_map, hP]; rfl
      obtain ⟨h3, h4⟩ := List.getElem?_eq_some_iff.1 h2
      have h5 := hrk p h3
      rw [h4] at h5
      rw [Tree.rk, h1, h5]
  | given partition =>
    obtain ⟨parts, hparts, hpe, hrk, -⟩ := C05_given_partition_clusters hS hnc h
    have hE := givenEnv_ok hS hnc
    have hlev : levelTrees 1 t = t.children := by
      show t.children.flatMap (fun u => [u]) = t.children
      simp
    have hrank : ∀ (p : ℕ) (P : CTree G), t.children[p]? = some P → ∀ x ∈ P.pre, x.rk = (p : ℤ) := by
      intro p P hP x hx
      have h2 : parts[p]? = some P.label := by rw [hpe, List.getElem?_map, hP]; rfl
      obtain ⟨h3, h4⟩ := List.getElem?_eq_some_iff.1 h2
      have h5 := hrk p h3
      obtain ⟨ts, rfl, hb⟩ := createGiven_inv h
      have hNP : NodesOK (givenEnv S nc) P := createGiven_nodes hS hnc hb P (List.mem_of_getElem? hP)
      have h1 := (hNP.rank_inherit (Or.inl rfl) x hx).1
      rw [Tree.rk, h1, ← h4, h5]
    have e : clusterTreeOf t st = ⟨t, levelTrees (0 + 1) t⟩ := by
      unfold clusterTreeOf
      rw [hparts, hpe, deref_all hdist _ (fun u hu => child_mem_pre hu), Nat.zero_add, hlev]
    rw [e]
    have hchild : ∀ u ∈ t.children, ∀ x ∈ u.pre, 0 ≤ x.rk ∧ 1 ≤ x.label.depth := by
      intro u hu x hx
      obtain ⟨p, hp, hpu⟩ := List.getElem_of_mem hu
      have := hrank p u (List.getElem?_eq_some_iff.2 ⟨hp, hpu⟩) x hx
      have h2 := hD _ (Tree.mem_pre_self _) u hu
      have h3 : u.label.depth ≤ x.label.depth := by
        rcases (hD.child hu).le x hx with h0 | h0
        · rw [h0]
        · exact h0.le
      omega
    refine wf_of_levels hT hD 0 hdep hpos ?_ ?_ (by rw [Nat.zero_add, hlev]; exact hrank)
    · intro s hs
      obtain ⟨h1, h2⟩ := (Tree.mem_leaves_iff t s).1 hs
      rcases Tree.mem_pre.1 h1 with rfl | ⟨u, hu, hsu⟩
      · exact absurd h2 hrootne
      · exact (hchild u hu s hsu).2
    · intro s hs
      rcases Tree.mem_pre.1 hs with rfl | ⟨u, hu, hsu⟩
      · left; exact ⟨by omega, hrootrk⟩
      · right; exact ⟨(hchild u hu s hsu).2, (hchild u hu s hsu).1⟩

end Htool
