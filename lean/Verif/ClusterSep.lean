import Verif.ClusterLemmas

/-! # Children of a cluster are ordered along the split direction -/

namespace Htool
variable {D G : Type*} {K : Type*} [LinearOrder K]

/-- Children of `s` are separated, in `perm`, along some direction `d`. -/
def Separated (key : D → ℕ → K) (perm : List ℕ) (s : Tree (CNode G)) : Prop :=
  ∃ d, s.children.Pairwise (fun u v => ∀ i ∈ slice perm u.label.offset u.label.size,
    ∀ j ∈ slice perm v.label.offset v.label.size, key d i ≤ key d j)

theorem Separated.congr {key : D → ℕ → K} {p q : List ℕ} {s : Tree (CNode G)}
    (h : Separated key p s)
    (hpq : ∀ u ∈ s.children, ∀ i ∈ slice q u.label.offset u.label.size,
      i ∈ slice p u.label.offset u.label.size) : Separated key q s := by
  obtain ⟨d, hd⟩ := h
  refine ⟨d, List.Pairwise.imp_of_mem ?_ hd⟩
  intro u v hu hv h i hi j hj
  exact h i (hpq u hu i hi) j (hpq v hv j hj)

/-- One cluster: children of every node are separated in the final array. -/
def SepP (E : CEnv D G) (key : D → ℕ → K) (c : CNode G) (st : CState G) (t : Tree (CNode G))
    (st' : CState G) : Prop :=
  FrozenP E c st t st' ∧ t.label = c ∧ HierTiles t ∧
  (c.offset + c.size ≤ st.perm.length → ∀ s ∈ t.pre, Separated key st'.perm s)

/-- Several clusters. -/
def SepPL (E : CEnv D G) (key : D → ℕ → K) (cs : List (CNode G)) (st : CState G)
    (ts : List (Tree (CNode G))) (st' : CState G) : Prop :=
  FrozenPL E cs st ts st' ∧ ts.map Tree.label = cs ∧ (∀ t ∈ ts, HierTiles t) ∧
  ∀ a b, Tiles a b (cs.map CNode.iv) → b ≤ st.perm.length →
    (∀ c ∈ cs, (slice st'.perm c.offset c.size).Perm (slice st.perm c.offset c.size)) ∧
    ∀ t ∈ ts, ∀ s ∈ t.pre, Separated key st'.perm s

theorem sep_nil (E : CEnv D G) (key : D → ℕ → K) (st : CState G) : SepPL E key [] st [] st :=
  ⟨frozen_nil E st, rfl, by simp, fun a b _ _ => by simp⟩

theorem sep_cons (E : CEnv D G) (key : D → ℕ → K) (c : CNode G) (cs : List (CNode G))
    (st : CState G) (t : Tree (CNode G)) (ts : List (Tree (CNode G))) (st1 st2 : CState G)
    (h1 : SepPL E key cs st ts st1) (h2 : SepP E key c st1 t st2) :
    SepPL E key (c :: cs) st (t :: ts) st2 := by
  obtain ⟨f1, l1, t1, s1⟩ := h1
  obtain ⟨f2, l2, t2, s2⟩ := h2
  refine ⟨frozen_cons E c cs st t ts st1 st2 f1 f2, by simp [l1, l2], ?_, ?_⟩
  · intro u hu
    rcases List.mem_cons.1 hu with rfl | hu
    · exact t2
    · exact t1 u hu
  · intro a b hT hb
    obtain ⟨ha, hT'⟩ : c.offset = a ∧ Tiles (a + c.size) b (cs.map CNode.iv) := hT
    subst ha
    have hle := hT'.le
    obtain ⟨p1, -, c1⟩ := f1 _ _ hT' hb
    have hlen : c.offset + c.size ≤ st1.perm.length := by rw [p1.length]; omega
    obtain ⟨p2, -, c2⟩ := f2 hlen
    obtain ⟨q1, q2⟩ := s1 _ _ hT' hb
    constructor
    · intro d hd
      rcases List.mem_cons.1 hd with rfl | hd
      · have e : slice st1.perm d.offset d.size = slice st.perm d.offset d.size :=
          slice_congr (fun i _ hi => p1.outside i (by omega))
        have := p2.inside
        rw [Nat.add_sub_cancel_left] at this
        rwa [e] at this
      · have hbd := hT'.mem_bounds (List.mem_map_of_mem (f := CNode.iv) hd)
        have hbd1 : c.offset + c.size ≤ d.offset := hbd.1
        have e : slice st2.perm d.offset d.size = slice st1.perm d.offset d.size :=
          slice_congr (fun i hi _ => p2.outside i (by omega))
        rw [e]; exact q1 d hd
    · intro u hu s hs
      rcases List.mem_cons.1 hu with rfl | hu
      · exact s2 hlen s hs
      · refine (q2 u hu s hs).congr ?_
        intro v hv i hi
        have hv' : v ∈ u.pre := Tree.mem_pre_trans hs (Tree.mem_pre.2 (Or.inr ⟨v, hv, Tree.mem_pre_self v⟩))
        have hb := c1 u hu v hv'
        rwa [slice_congr (q := st1.perm) (fun i hi _ => p2.outside i (by omega))] at hi

theorem build_sep {E : CEnv D G} (hE : E.OK) (key : D → ℕ → K)
    (hsort : ∀ d l, (E.sort d l).Pairwise (fun a b => key d a ≤ key d b)) {f c st t st'}
    (h : build E f c st = some (t, st')) : SepP E key c st t st' := by
  -- structural facts are already known; only the separation is new
  refine build_rec E (P := SepP E key) (PL := SepPL E key) ?_ ?_ (sep_nil E key) (sep_cons E key)
    f c st t st' h
  · intro c st hs
    have hb : build E 1 c st = some (Tree.node c [], finishLeaf (sorted E c st) c) := by
      rw [build_succ, if_pos hs]
    refine ⟨build_frozen hE hb, rfl, (build_shape hE hb).2.1, ?_⟩
    intro hlen s hsm
    simp [Tree.pre, Tree.preL] at hsm; subst hsm
    exact ⟨E.dir c st.perm, by simp⟩
  · intro c st ts st' hs hPL
    obtain ⟨fz, hl, ht, hsep⟩ := hPL
    have hspl := hE.splitOf c st hs
    have hT := hspl.2.1
    rw [← childrenOf_iv] at hT
    refine ⟨?_, rfl, ?_, ?_⟩
    · intro hlen
      have hst := sorted_step hE hlen
      obtain ⟨p1, f1, c1⟩ := fz _ _ hT (by simpa [hst.length] using hlen)
      simp only [register_perm] at p1 f1
      have hchild : ∀ d ∈ childrenOf E c st, FrozenAt E (sorted E c st).perm d := by
        intro d hd
        obtain ⟨p, iv, -, -, rfl⟩ := mem_childrenOf hd
        exact ⟨_, rfl, List.Perm.refl _⟩
      refine ⟨hst.trans p1, ?_, ?_⟩
      · intro hfr s hsm
        rcases Tree.mem_pre.1 hsm with rfl | ⟨u, hu, hs'⟩
        · exact hfr.step (hst.trans p1)
        · exact f1 hchild u hu s hs'
      · intro s hsm
        rcases Tree.mem_pre.1 hsm with rfl | ⟨u, hu, hs'⟩
        · simp
        · exact c1 u hu s hs'
    · intro s hsm hne
      rcases Tree.mem_pre.1 hsm with rfl | ⟨u, hu, hs'⟩
      · have := hspl.2.1
        rw [← childrenOf_iv, ← hl, List.map_map] at this
        exact this
      · exact ht u hu s hs' hne
    · intro hlen
      have hst := sorted_step hE hlen
      obtain ⟨q1, q2⟩ := hsep _ _ hT (by simpa [hst.length] using hlen)
      intro s hsm
      rcases Tree.mem_pre.1 hsm with rfl | ⟨u, hu, hs'⟩
      · -- the node itself
        refine ⟨E.dir c st.perm, ?_⟩
        show ts.Pairwise _
        have hsl : slice (sorted E c st).perm c.offset c.size =
            E.sort (E.dir c st.perm) (slice st.perm c.offset c.size) :=
          slice_sortSlice (hE.sort _) hlen
        have hsorted := hsort (E.dir c st.perm) (slice st.perm c.offset c.size)
        rw [← hsl] at hsorted
        have hpw := hT.pairwise
        rw [← hl, List.map_map, List.pairwise_map] at hpw
        refine List.Pairwise.imp_of_mem ?_ hpw
        intro u v hu hv huv i hi j hj
        have huv : u.label.offset + u.label.size ≤ v.label.offset := huv
        have hu' : u.label ∈ childrenOf E c st := by rw [← hl]; exact List.mem_map_of_mem hu
        have hv' : v.label ∈ childrenOf E c st := by rw [← hl]; exact List.mem_map_of_mem hv
        have hi := (q1 _ hu').mem_iff.1 hi
        have hj := (q1 _ hv').mem_iff.1 hj
        simp only [register_perm] at hi hj
        have bu := hT.mem_bounds (List.mem_map_of_mem (f := CNode.iv) hu')
        have bv := hT.mem_bounds (List.mem_map_of_mem (f := CNode.iv) hv')
        simp only [CNode.iv] at bu bv
        obtain ⟨a, hia⟩ := List.mem_iff_getElem?.1 hi
        have ha : a < u.label.size := by
          by_contra hh; rw [slice_getElem?, if_neg hh] at hia; simp at hia
        obtain ⟨b, hjb⟩ := List.mem_iff_getElem?.1 hj
        have hb : b < v.label.size := by
          by_contra hh; rw [slice_getElem?, if_neg hh] at hjb; simp at hjb
        rw [slice_getElem?, if_pos ha] at hia
        rw [slice_getElem?, if_pos hb] at hjb
        -- positions inside the parent's slice
        have e1 : (slice (sorted E c st).perm c.offset c.size)[u.label.offset - c.offset + a]? = some i := by
          rw [slice_getElem?, if_pos (by omega), ← hia]; congr 1; omega
        have e2 : (slice (sorted E c st).perm c.offset c.size)[v.label.offset - c.offset + b]? = some j := by
          rw [slice_getElem?, if_pos (by omega), ← hjb]; congr 1; omega
        obtain ⟨n1, m1⟩ := List.getElem?_eq_some_iff.1 e1
        obtain ⟨n2, m2⟩ := List.getElem?_eq_some_iff.1 e2
        have := List.pairwise_iff_getElem.1 hsorted _ _ n1 n2 (by omega)
        rwa [m1, m2] at this
      · exact q2 u hu s hs'

end Htool
