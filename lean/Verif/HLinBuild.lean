import Verif.HLinProd5
import Verif.Props.BlockTree

/-! # The block trees the library builds are block trees of the linear algebra

Links `Verif/ClusterBuild.lean` and `Verif/BlockTree.lean` to the hypotheses `ClOK`, `ClusterTree.Top` and `Shape` of the theorems on products,
solves and factorizations. -/

namespace Htool
variable {G R : Type*}

/-- Two tilings of the same interval by nonempty clusters, one included in the other. -/
theorem tiles_sub {a b : ℕ} {l l' : List (CTree G)} (h : Tiles a b (l.map Tree.iv)) (h' : Tiles a b (l'.map Tree.iv))
    (p : ∀ u ∈ l, 0 < u.sz) (p' : ∀ u ∈ l', 0 < u.sz) (hs : ∀ u ∈ l, u ∈ l') : l = l' := by
  induction l generalizing a l' with
  | nil =>
    have hab : a = b := h
    cases l' with
    | nil => rfl
    | cons u l' =>
      exfalso
      have h2 : u.off = a ∧ Tiles (a + u.sz) b (l'.map Tree.iv) := h'
      have := h2.2.le
      have := p' u (by simp)
      omega
  | cons u l ih =>
    have h1 : u.off = a ∧ Tiles (a + u.sz) b (l.map Tree.iv) := h
    have hu := p u (by simp)
    cases l' with
    | nil => exact absurd (hs u (by simp)) (by simp)
    | cons v l' =>
      have h2 : v.off = a ∧ Tiles (a + v.sz) b (l'.map Tree.iv) := h'
      have hv := p' v (by simp)
      have later : ∀ w ∈ l', v.fin ≤ w.off := by
        intro w hw
        have := (h2.2.mem_bounds (List.mem_map_of_mem (f := Tree.iv) hw)).1
        show v.off + v.sz ≤ w.off
        rw [h2.1]; exact this
      have e : u = v := by
        rcases List.mem_cons.1 (hs u (by simp)) with e | e
        · exact e
        · have := later u e
          unfold Tree.fin at this
          omega
      subst e
      congr 1
      refine ih h1.2 h2.2 (fun w hw => p w (by simp [hw])) (fun w hw => p' w (by simp [hw])) fun w hw => ?_
      rcases List.mem_cons.1 (hs w (by simp [hw])) with e | e
      · have := (h1.2.mem_bounds (List.mem_map_of_mem (f := Tree.iv) hw)).1
        have : a + u.sz ≤ w.off := this
        rw [e] at this
        omega
      · exact e

section cluster
variable {c : ClusterTree G}

/-- Cluster trees given to the matrix code satisfy `ClOK`. -/
theorem clOK_of_wf (h : c.WF) (hp : c.Pos) (hd : DepthOK c.root) : ClOK c where
  pos := hp
  tiles := h.hier
  depth := hd
  leaf x hx hc := by
    by_contra hr
    exact (h.above x hx (by omega)).1 hc
  rank x hx hr y hy := by
    obtain ⟨P, hP, hxP⟩ := h.ranked x hx hr
    obtain ⟨p, hp, e⟩ := List.getElem_of_mem hP
    have := h.parts_rank p P (List.getElem?_eq_some_iff.2 ⟨hp, e⟩) y (Tree.mem_pre_trans hxP (child_mem_pre hy))
    omega

/-- The partition below a cluster is the list of partition clusters it contains. -/
theorem front_of_wf (h : c.WF) (hp : c.Pos) (hd : DepthOK c.root) {x : CTree G} (hx : x ∈ c.root.pre) (hr : x.rk < 0) :
    x.front = c.parts.filter (fun u => leftContainsRight x u) := by
  have ok := clOK_of_wf h hp hd
  have okx : ClOK (⟨x, c.parts⟩ : ClusterTree G) := ok.desc ⟨hx, rfl⟩
  have ft : Tiles x.off x.fin (x.front.map Tree.iv) := by
    have := okx.front_tiles
    unfold ClusterTree.front at this
    rw [List.map_map] at this
    exact this
  have mem : ∀ y : CTree G, y ∈ x.pre → y.rk < 0 → ∀ u ∈ y.front, u ∈ c.parts := by
    intro y
    induction y using Tree.ind with
    | h a cs ih =>
      intro hy hry u hu
      rw [Tree.front_neg hry, List.mem_flatMap] at hu
      obtain ⟨d, hd, hu⟩ := hu
      by_cases hdr : 0 ≤ d.rk
      · rw [Tree.front_rank hdr, List.mem_singleton] at hu
        subst hu
        exact (h.above _ (Tree.mem_pre_trans hx hy) hry).2.2.2.2 u hd hdr
      · exact ih d hd (Tree.mem_pre_trans hy (child_mem_pre hd)) (by omega) u hu
  refine tiles_sub ft (h.above x hx hr).2.2.1 (fun u hu => hp u (Tree.mem_pre_trans hx (Tree.front_mem hu).1)) (fun u hu => ?_) (fun u hu => ?_)
  · exact hp u (h.parts_mem u (List.mem_filter.1 hu).1)
  · refine List.mem_filter.2 ⟨mem x (Tree.mem_pre_self _) hr u hu, ?_⟩
    have := h.contained hx (Tree.front_mem hu).1
    unfold leftContainsRight
    simp only [Bool.and_eq_true, decide_eq_true_eq]
    unfold Tree.fin at this
    omega

theorem top_of_wf (h : c.WF) (hp : c.Pos) (hd : DepthOK c.root) : c.Top := by
  by_cases hr : 0 ≤ c.rk
  · exact Or.inl hr
  · right
    rw [front_of_wf h hp hd (Tree.mem_pre_self _) (by unfold ClusterTree.rk at hr; omega)]
    symm
    apply List.filter_eq_self.2
    intro u hu
    have := h.contained (Tree.mem_pre_self _) (h.parts_mem u hu)
    unfold leftContainsRight
    simp only [Bool.and_eq_true, decide_eq_true_eq]
    unfold Tree.fin at this
    omega

/-- Every cluster tree built by the library. -/
theorem Built.clOK {D : Type*} {S : Strategies D G} {flog : ℕ → ℕ → ℕ} {fuel n nc : ℕ} {arg : PartArg} {t : CTree G} {st : CState G}
    (h : Built S flog fuel n nc arg t st) : ClOK (clusterTreeOf t st) ∧ (clusterTreeOf t st).Top := by
  have w := create_wf h.strategies h.hflog h.hnc h.harg h.hpos h.build h.ranks
  have s := create_shape h.strategies h.hflog h.hnc h.harg h.build
  exact ⟨clOK_of_wf w.1 w.2 s.2.2.2.2, top_of_wf w.1 w.2 s.2.2.2.2⟩

end cluster

/-! ## Block trees -/

/-- Which blocks the builder keeps. -/
def BEnv.mask (E : BEnv G) : Mask := if E.sym = .N then .full else match E.uplo with | .N => .full | .L => .lower | .U => .upper

/-- A node of the block tree with its data: `cT`, `cS` are the cluster trees. -/
structure Fills (E : BEnv G) (P : FNode G R → Prop) (b : BNode G) (n : FNode G R) : Prop where
  t : n.t = ⟨b.t, E.tct.parts⟩
  s : n.s = ⟨b.s, E.sct.parts⟩
  hier : n.data = .hier ↔ b.kind = .hier
  prop : P n

theorem mapOpt_eq {α β : Type*} {f : α → Option β} : ∀ {l : List α} {l' : List β}, mapOpt f l = some l' → List.Forall₂ (fun a b => f a = some b) l l'
  | [], l', h => by cases h; exact List.Forall₂.nil
  | a :: l, l', h => by
    unfold mapOpt at h
    cases ha : f a with
    | none => rw [ha] at h; simp at h
    | some b =>
      cases hl : mapOpt f l with
      | none => rw [ha, hl] at h; simp at h
      | some bs =>
        rw [ha, hl] at h
        cases h
        exact List.Forall₂.cons ha (mapOpt_eq hl)

theorem pairs_map {α β γ δ : Type*} (f : α → γ) (g : β → δ) (l : List α) (l' : List β) :
    pairs (l.map f) (l'.map g) = (pairs l l').map (fun x => (f x.1, g x.2)) := by
  unfold pairs
  rw [List.flatMap_map, List.map_flatMap]
  congr 1
  funext a
  rw [List.map_map, List.map_map]
  rfl

section block
variable {E : BEnv G}

theorem guard_none (hp : E.tp = none) (u v : CTree G) : E.guardT u v = !E.removed u v := by
  unfold BEnv.guardT BEnv.inPart
  rw [hp]
  simp

theorem keep_removed (hp : E.psym = none) (u v : CTree G) :
    (!E.removed u v) = E.mask.keep (⟨u, E.tct.parts⟩ : ClusterTree G) ⟨v, E.sct.parts⟩ := by
  unfold BEnv.removed BEnv.mask Mask.keep
  rw [hp]
  by_cases hs : E.sym = .N
  · rw [if_pos hs]; simp [hs]
  · rw [if_neg hs]
    cases hu : E.uplo
    · simp
    · simp only [ne_eq, hs, not_false_eq_true, decide_true, Bool.and_true, Bool.true_and, reduceCtorEq, decide_false, Bool.false_and, Bool.false_or]
      show (!decide (u.off + u.sz ≤ v.off)) = decide (v.off < u.off + u.sz)
      by_cases h : u.off + u.sz ≤ v.off
      · rw [decide_eq_true h, decide_eq_false (by omega)]; rfl
      · rw [decide_eq_false h, decide_eq_true (by omega)]; rfl
    · simp only [ne_eq, hs, not_false_eq_true, decide_true, Bool.and_true, Bool.true_and, reduceCtorEq, decide_false, Bool.false_and, Bool.or_false]
      show (!decide (v.off + v.sz ≤ u.off)) = decide (u.off < v.off + v.sz)
      by_cases h : v.off + v.sz ≤ u.off
      · rw [decide_eq_true h, decide_eq_false (by omega)]; rfl
      · rw [decide_eq_false h, decide_eq_true (by omega)]; rfl

/-- The two cluster trees of a block tree. -/
structure BEnv.Good (E : BEnv G) : Prop where
  wfT : E.tct.WF
  posT : E.tct.Pos
  depT : DepthOK E.tct.root
  wfS : E.sct.WF
  posS : E.sct.Pos
  depS : DepthOK E.sct.root
  cons : E.consistent = true
  tp : E.tp = none
  psym : E.psym = none

/-- How the builder divides a block. -/
theorem step_subs (h : E.Good) {t s : CTree G} (ht : t ∈ E.tct.root.pre) (hs : s ∈ E.sct.root.pre) :
    (E.step t s = .adm ∧ 0 ≤ t.rk ∧ 0 ≤ s.rk) ∨ (E.step t s = .dense ∧ t.children = [] ∧ s.children = []) ∨
    ∃ l, E.step t s = .split l ∧ ¬ (t.isLeaf = true ∧ s.isLeaf = true) ∧
      l.map (fun x => ((⟨x.1, E.tct.parts⟩ : ClusterTree G), (⟨x.2, E.sct.parts⟩ : ClusterTree G))) =
        (pairs (subs (⟨t, E.tct.parts⟩ : ClusterTree G) ⟨s, E.sct.parts⟩).1 (subs (⟨t, E.tct.parts⟩ : ClusterTree G) ⟨s, E.sct.parts⟩).2).filter
          (fun x => E.mask.keep x.1 x.2) := by
  have key : ∀ (lt ls : List (CTree G)) (g : CTree G × CTree G → Bool), (∀ x, g x = !E.removed x.1 x.2) →
      ((pairs lt ls).filter g).map (fun x => ((⟨x.1, E.tct.parts⟩ : ClusterTree G), (⟨x.2, E.sct.parts⟩ : ClusterTree G))) =
        (pairs (lt.map (fun u => (⟨u, E.tct.parts⟩ : ClusterTree G))) (ls.map (fun u => (⟨u, E.sct.parts⟩ : ClusterTree G)))).filter
          (fun x => E.mask.keep x.1 x.2) := by
    intro lt ls g hg
    rw [pairs_map, List.filter_map]
    congr 1
    apply List.filter_congr
    intro x _
    rw [hg, keep_removed h.psym]; rfl
  unfold BEnv.step
  by_cases ha : E.isAdmTask t s = true
  · left
    rw [if_pos ha]
    unfold BEnv.isAdmTask at ha
    simp only [h.cons, Bool.and_eq_true, decide_eq_true_eq, Bool.not_true, Bool.false_or] at ha
    exact ⟨rfl, ha.1.2, ha.2⟩
  · rw [if_neg ha]
    right
    by_cases hl : (s.isLeaf && t.isLeaf) = true
    · left
      rw [if_pos hl]
      rw [Bool.and_eq_true] at hl
      exact ⟨rfl, isLeaf_iff.1 hl.2, isLeaf_iff.1 hl.1⟩
    · rw [if_neg hl]
      right
      have hl' : ¬ (t.isLeaf = true ∧ s.isLeaf = true) := fun hc => hl (by rw [hc.1, hc.2]; rfl)
      have gd : ∀ x : CTree G × CTree G, E.guardT x.1 x.2 = !E.removed x.1 x.2 := fun x => guard_none h.tp _ _
      have lfT : ∀ ps, (⟨t, ps⟩ : ClusterTree G).leaf = t.isLeaf := fun _ => rfl
      have lfS : ∀ ps, (⟨s, ps⟩ : ClusterTree G).leaf = s.isLeaf := fun _ => rfl
      unfold subs
      rw [lfT, lfS]
      by_cases h1 : s.isLeaf = true
      · rw [if_pos h1, if_pos h1]
        exact ⟨_, rfl, hl', key _ _ _ gd⟩
      · rw [if_neg h1, if_neg h1]
        by_cases h2 : t.isLeaf = true
        · rw [if_pos h2, if_pos h2]
          exact ⟨_, rfl, hl', key [t] s.children _ fun _ => rfl⟩
        · rw [if_neg h2, if_neg h2, if_pos h.cons]
          have rT : ∀ ps, (⟨t, ps⟩ : ClusterTree G).rk = t.rk := fun _ => rfl
          have rS : ∀ ps, (⟨s, ps⟩ : ClusterTree G).rk = s.rk := fun _ => rfl
          rw [rT, rS]
          by_cases h3 : t.rk < 0 ∧ 0 ≤ s.rk
          · rw [if_pos h3, if_pos h3]
            refine ⟨_, rfl, hl', ?_⟩
            rw [key _ _ _ gd]
            unfold BEnv.tParts
            rw [← front_of_wf h.wfT h.posT h.depT ht h3.1]
            rfl
          · rw [if_neg h3, if_neg h3]
            by_cases h4 : s.rk < 0 ∧ 0 ≤ t.rk
            · rw [if_pos h4, if_pos h4]
              refine ⟨_, rfl, hl', ?_⟩
              rw [key [t] (E.sParts s) _ fun _ => rfl]
              unfold BEnv.sParts
              rw [← front_of_wf h.wfS h.posS h.depS hs h4.1]
              rfl
            · rw [if_neg h4, if_neg h4]
              exact ⟨_, rfl, hl', key _ _ _ gd⟩

/-- Every block tree built by the library, filled with any data, is a block tree in the sense of the theorems on the linear algebra. -/
theorem shape_of_build (h : E.Good) {P : FNode G R → Prop} : ∀ (fuel : ℕ) {t s : CTree G} {b : BTree G} {F : FTree G R}, t ∈ E.tct.root.pre →
    s ∈ E.sct.root.pre → buildBlockTree E fuel t s = some b → Tree.Rel (Fills E P) b F →
    Shape E.mask P F ∧ F.label.t = ⟨t, E.tct.parts⟩ ∧ F.label.s = ⟨s, E.sct.parts⟩ := by
  have okT := clOK_of_wf h.wfT h.posT h.depT
  have okS := clOK_of_wf h.wfS h.posS h.depS
  intro fuel
  induction fuel with
  | zero => intro t s b F _ _ hb; exact absurd hb (by simp [buildBlockTree])
  | succ f ih =>
    intro t s b F ht hs hb hF
    have cT : ClOK (⟨t, E.tct.parts⟩ : ClusterTree G) := okT.desc ⟨ht, rfl⟩
    have cS : ClOK (⟨s, E.sct.parts⟩ : ClusterTree G) := okS.desc ⟨hs, rfl⟩
    unfold buildBlockTree at hb
    have leafcase : ∀ k : BKind, k ≠ .hier → b = .node ⟨t, s, k, E.symFlag t s⟩ [] → 0 ≤ t.rk → 0 ≤ s.rk →
        Shape E.mask P F ∧ F.label.t = ⟨t, E.tct.parts⟩ ∧ F.label.s = ⟨s, E.sct.parts⟩ := by
      rintro k hk rfl rt rs
      cases F with
      | node n ds =>
        obtain ⟨hn, hds⟩ := Tree.Rel_node.1 hF
        cases hds
        have hh : FTree.isHier (Tree.node n []) = false := by
          by_contra hc
          have := isHier_iff.1 (by simpa using hc)
          exact hk (hn.hier.1 this)
        refine ⟨?_, hn.t, hn.s⟩
        intro X hX
        rw [pre_leaf rfl, List.mem_singleton] at hX
        subst hX
        refine ⟨hn.prop, ?_, ?_, fun _ => ⟨rfl, ?_, ?_⟩, fun hx => ?_⟩
        · show ClOK n.t; rw [hn.t]; exact cT
        · show ClOK n.s; rw [hn.s]; exact cS
        · show 0 ≤ n.t.rk; rw [hn.t]; exact rt
        · show 0 ≤ n.s.rk; rw [hn.s]; exact rs
        · rw [hh] at hx; exact absurd hx (by simp)
    rcases step_subs h ht hs with ⟨e, rt, rs⟩ | ⟨e, lt, ls⟩ | ⟨l, e, hl, hsub⟩
    · rw [e] at hb
      exact leafcase .adm (by simp) (by simpa using hb.symm) rt rs
    · rw [e] at hb
      exact leafcase .dense (by simp) (by simpa using hb.symm) (okT.leaf t ht lt) (okS.leaf s hs ls)
    · rw [e] at hb
      cases hm : mapOpt (fun x => buildBlockTree E f x.1 x.2) l with
      | none => simp only [hm] at hb; exact absurd hb (by simp)
      | some cs =>
        simp only [hm] at hb
        cases hb
        have hf := mapOpt_eq hm
        cases F with
        | node n ds =>
          obtain ⟨hn, hds⟩ := Tree.Rel_node.1 hF
          have hmem : ∀ x ∈ l, x.1 ∈ E.tct.root.pre ∧ x.2 ∈ E.sct.root.pre := by
            intro x hx
            have hx' := List.mem_map_of_mem (f := fun x : CTree G × CTree G => ((⟨x.1, E.tct.parts⟩ : ClusterTree G), (⟨x.2, E.sct.parts⟩ : ClusterTree G))) hx
            rw [hsub, List.mem_filter, mem_pairs] at hx'
            have := subs_desc cT cS hx'.1.1 hx'.1.2
            exact ⟨Tree.mem_pre_trans ht this.1.1, Tree.mem_pre_trans hs this.2.1.1⟩
          -- the children
          have hch : ∀ (l : List (CTree G × CTree G)) (cs : List (BTree G)) (ds : List (FTree G R)), (∀ x ∈ l, x.1 ∈ E.tct.root.pre ∧ x.2 ∈ E.sct.root.pre) →
              List.Forall₂ (fun (x : CTree G × CTree G) b => buildBlockTree E f x.1 x.2 = some b) l cs → List.Forall₂ (Tree.Rel (Fills E P)) cs ds →
              (∀ d ∈ ds, Shape E.mask P d) ∧ ds.map (fun c => (c.label.t, c.label.s)) =
                l.map (fun x => ((⟨x.1, E.tct.parts⟩ : ClusterTree G), (⟨x.2, E.sct.parts⟩ : ClusterTree G))) := by
            intro l cs ds hm h1
            induction h1 generalizing ds with
            | nil => intro h2; cases h2; exact ⟨by simp, rfl⟩
            | @cons x b l cs hx _ ihc =>
              intro h2
              cases h2 with
              | @cons _ d _ ds hd hds =>
                obtain ⟨r1, r2⟩ := ihc ds (fun y hy => hm y (by simp [hy])) hds
                obtain ⟨s1, s2, s3⟩ := ih (hm x (by simp)).1 (hm x (by simp)).2 hx hd
                refine ⟨?_, ?_⟩
                · intro y hy
                  rcases List.mem_cons.1 hy with rfl | hy
                  · exact s1
                  · exact r1 y hy
                · rw [List.map_cons, List.map_cons, r2, s2, s3]
          obtain ⟨c1, c2⟩ := hch l cs ds hmem hf hds
          have hh : FTree.isHier (Tree.node n ds) = true := isHier_iff.2 (hn.hier.2 rfl)
          refine ⟨?_, hn.t, hn.s⟩
          intro X hX
          rcases Tree.mem_pre.1 hX with rfl | ⟨d, hd, hX⟩
          · refine ⟨hn.prop, ?_, ?_, fun hx => ?_, fun _ => ⟨?_, ?_⟩⟩
            · show ClOK n.t; rw [hn.t]; exact cT
            · show ClOK n.s; rw [hn.s]; exact cS
            · rw [hh] at hx; exact absurd hx (by simp)
            · show ¬ (n.t.leaf = true ∧ n.s.leaf = true)
              rw [hn.t, hn.s]
              exact hl
            · show ds.map (fun c : FTree G R => (c.label.t, c.label.s)) = (pairs (subs n.t n.s).1 (subs n.t n.s).2).filter _
              rw [hn.t, hn.s, c2, hsub]
          · exact c1 d hd X hX

end block
end Htool
