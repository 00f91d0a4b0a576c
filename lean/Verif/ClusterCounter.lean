import Verif.ClusterLemmas

/-! # Counters, ranks and partition clusters -/

namespace Htool
variable {D G : Type*}

/-- Counter of the first child of a node at depth `e` with counter `x`. -/
def CEnv.first (E : CEnv D G) (e x : ℕ) : ℕ :=
  if E.lvl e then x * E.col else x * E.nc

/-- Number of children of a node at depth `e` with counter `x` which splits. -/
def CEnv.kids (E : CEnv D G) (e x : ℕ) : ℕ :=
  if E.lvl e then E.col + (if x + 1 = E.nc ^ e then E.add else 0) else E.nc

/-- Smallest possible counter `j` levels below. -/
def CEnv.lo (E : CEnv D G) : ℕ → ℕ → ℕ → ℕ
  | 0, _, x => x
  | j + 1, e, x => E.lo j (e + 1) (E.first e x)

/-- Largest possible counter `j` levels below. -/
def CEnv.hi (E : CEnv D G) : ℕ → ℕ → ℕ → ℕ
  | 0, _, x => x
  | j + 1, e, x => E.hi j (e + 1) (E.first e x + E.kids e x - 1)

/-- `x` is a possible counter at depth `e`. -/
def CEnv.valid (E : CEnv D G) (e x : ℕ) : Prop := E.simple = true → e < E.dp → x < E.nc ^ e

theorem lvl_true {E : CEnv D G} {e : ℕ} : E.lvl e = true ↔ E.simple = true ∧ e + 1 = E.dp := by
  simp [CEnv.lvl]

theorem lvl_false {E : CEnv D G} {e : ℕ} (h : ¬ e + 1 = E.dp) : E.lvl e = false := by
  simp [CEnv.lvl, h]

theorem CEnv.OK.kids_pos {E : CEnv D G} (h : E.OK) (e x : ℕ) : 1 ≤ E.kids e x := by
  unfold CEnv.kids
  have h1 := h.nc
  split_ifs with ha hb
  all_goals
    try
      have := h.col (lvl_true.1 ha).1
    omega

theorem valid_child {E : CEnv D G} (hE : E.OK) {e x p : ℕ} (h : E.valid e x) (hp : p < E.kids e x) :
    E.valid (e + 1) (E.first e x + p) := by
  intro hs he
  have hx := h hs (by omega)
  unfold CEnv.first CEnv.kids at *
  have : ¬ (e + 1 = E.dp) := by omega
  simp only [lvl_false this, Bool.false_eq_true, if_false] at hp ⊢
  calc x * E.nc + p < x * E.nc + E.nc := by omega
    _ = (x + 1) * E.nc := by ring
    _ ≤ E.nc ^ e * E.nc := Nat.mul_le_mul_right _ hx
    _ = E.nc ^ (e + 1) := by ring

/-- Consecutive nodes have consecutive ranges of children. -/
theorem first_succ {E : CEnv D G} (hE : E.OK) {e x : ℕ} (h : E.valid e (x + 1)) :
    E.first e x + E.kids e x = E.first e (x + 1) := by
  unfold CEnv.first CEnv.kids
  split_ifs with ha hb
  · have ha' := lvl_true.1 ha
    have := h ha'.1 (by omega)
    omega
  · ring
  · ring

theorem lo_le_hi {E : CEnv D G} (hE : E.OK) (j e x : ℕ) (hv : E.valid e x) : E.lo j e x ≤ E.hi j e x ∧
    ∀ y, E.valid e (x + y) → E.lo j e x ≤ E.lo j e (x + y) ∧ E.hi j e x ≤ E.hi j e (x + y) := by
  induction j generalizing e x with
  | zero =>
    simp [CEnv.lo, CEnv.hi]
  | succ j ih =>
    have key : ∀ x, E.valid e x → E.lo (j + 1) e x ≤ E.hi (j + 1) e x := by
      intro x hx
      have hk := hE.kids_pos e x
      have h1 := (ih (e + 1) (E.first e x) (by simpa using valid_child hE hx (p := 0) (by omega)))
      have h2 := h1.2 (E.kids e x - 1) (valid_child hE hx (by omega))
      show E.lo j (e + 1) (E.first e x) ≤ E.hi j (e + 1) (E.first e x + E.kids e x - 1)
      rw [show E.first e x + E.kids e x - 1 = E.first e x + (E.kids e x - 1) by omega]
      omega
    refine ⟨key x hv, ?_⟩
    intro y hy
    induction y with
    | zero => exact ⟨le_refl _, le_refl _⟩
    | succ y ihy =>
      have hvy : E.valid e (x + y) := by
        intro hs he; have := hy hs he; omega
      have h0 := ihy hvy
      rw [← Nat.add_assoc] at hy ⊢
      have hfs := first_succ hE (x := x + y) (e := e) hy
      have hk := hE.kids_pos e (x + y)
      have hf0 : E.valid (e + 1) (E.first e (x + y)) := by
        simpa using valid_child hE hvy (p := 0) (by omega)
      have hk' := hE.kids_pos e (x + y + 1)
      have hf1 : E.valid (e + 1) (E.first e (x + y + 1)) := by
        simpa using valid_child hE hy (p := 0) (by omega)
      constructor
      · refine le_trans h0.1 ?_
        show E.lo j (e + 1) (E.first e (x + y)) ≤ E.lo j (e + 1) (E.first e (x + y + 1))
        have := ((ih (e + 1) (E.first e (x + y)) hf0).2 (E.kids e (x + y)) (by rw [hfs]; exact hf1)).1
        rwa [hfs] at this
      · refine le_trans h0.2 ?_
        show E.hi j (e + 1) (E.first e (x + y) + E.kids e (x + y) - 1) ≤
          E.hi j (e + 1) (E.first e (x + y + 1) + E.kids e (x + y + 1) - 1)
        have hl : E.valid (e + 1) (E.first e (x + y) + (E.kids e (x + y) - 1)) :=
          valid_child hE hvy (by omega)
        have := ((ih (e + 1) (E.first e (x + y) + (E.kids e (x + y) - 1)) hl).2
          (E.kids e (x + y + 1)) (by
            have := valid_child hE hy (p := E.kids e (x + y + 1) - 1) (by omega)
            rw [← hfs] at this
            convert this using 1
            omega)).2
        convert this using 2 <;> omega

/-- The range of the next node starts where the range of a node ends. -/
theorem hi_succ {E : CEnv D G} (hE : E.OK) (j e x : ℕ) (h : E.valid e (x + 1)) :
    E.hi j e x + 1 = E.lo j e (x + 1) := by
  induction j generalizing e x with
  | zero => rfl
  | succ j ih =>
    show E.hi j (e + 1) (E.first e x + E.kids e x - 1) + 1 = E.lo j (e + 1) (E.first e (x + 1))
    have hk := hE.kids_pos e x
    have hfs := first_succ hE h
    have hk' := hE.kids_pos e (x + 1)
    have hv : E.valid (e + 1) (E.first e (x + 1)) := by
      simpa using valid_child hE h (p := 0) (by omega)
    rw [ih (e + 1) (E.first e x + E.kids e x - 1) (by
      rw [show E.first e x + E.kids e x - 1 + 1 = E.first e (x + 1) by omega]; exact hv)]
    congr 1
    omega

theorem lo_mono {E : CEnv D G} (hE : E.OK) {j e x y : ℕ} (hxy : x ≤ y) (hv : E.valid e y) :
    E.lo j e x ≤ E.lo j e y ∧ E.hi j e x ≤ E.hi j e y := by
  have hx : E.valid e x := fun h1 h2 => by have := hv h1 h2; omega
  have := (lo_le_hi hE j e x hx).2 (y - x) (by rw [show x + (y - x) = y by omega]; exact hv)
  rwa [show x + (y - x) = y by omega] at this

theorem hi_lt_lo {E : CEnv D G} (hE : E.OK) {j e x y : ℕ} (hxy : x < y) (hv : E.valid e y) :
    E.hi j e x < E.lo j e y := by
  have hx : E.valid e (x + 1) := fun h1 h2 => by have := hv h1 h2; omega
  have h1 := hi_succ hE j e x hx
  have h2 := (lo_mono hE (j := j) (show x + 1 ≤ y from hxy) hv).1
  omega

/-! ## Structural facts about the created nodes -/

/-- The children carry the counters, ranks and flags the builder computes. -/
def NodesOK (E : CEnv D G) (t : Tree (CNode G)) : Prop :=
  ∀ s ∈ t.pre, s.children ≠ [] →
    s.children.length = E.kids s.label.depth s.label.counter ∧
    ∀ p (u : Tree (CNode G)), s.children[p]? = some u →
      u.label.counter = E.first s.label.depth s.label.counter + p ∧
      u.label.depth = s.label.depth + 1 ∧
      (E.lvl s.label.depth = true → u.label.onPart = true ∧ u.label.rank = (u.label.counter : ℤ)) ∧
      (E.lvl s.label.depth = false → u.label.onPart = false ∧ u.label.rank = s.label.rank)

theorem build_nodes {E : CEnv D G} (hE : E.OK) {f c st t st'}
    (h : build E f c st = some (t, st')) : t.label = c ∧ NodesOK E t := by
  refine build_rec E (P := fun c _ t _ => t.label = c ∧ NodesOK E t)
    (PL := fun cs _ ts _ => ts.map Tree.label = cs ∧ ∀ t ∈ ts, NodesOK E t)
    ?_ ?_ ?_ ?_ f c st t st' h
  · intro c st _
    refine ⟨rfl, ?_⟩
    intro s hs
    rcases Tree.mem_pre.1 hs with rfl | ⟨u, hu, -⟩
    · intro h; exact absurd rfl h
    · simp at hu
  · rintro c st ts st' hs ⟨h1, h2⟩
    refine ⟨rfl, ?_⟩
    intro s hsm
    rcases Tree.mem_pre.1 hsm with rfl | ⟨u, hu, hs'⟩
    · intro _
      have hsp := hE.splitOf c st hs
      have hlen : ts.length = (splitOf E c st).length := by
        rw [← childrenOf_length, ← h1]; simp
      refine ⟨?_, ?_⟩
      · show ts.length = _
        rw [hlen, hsp.1]
        rfl
      · intro p u hu
        have hu' : (childrenOf E c st)[p]? = some u.label := by
          rw [← h1, List.getElem?_map]
          have hu2 : ts[p]? = some u := hu
          rw [hu2]; rfl
        unfold childrenOf at hu'
        rw [List.getElem?_mapIdx] at hu'
        cases hiv : (splitOf E c st)[p]? with
        | none => rw [hiv] at hu'; simp at hu'
        | some iv =>
          rw [hiv] at hu'
          simp only [Option.map_some, Option.some.injEq] at hu'
          rw [← hu']
          refine ⟨?_, rfl, ?_, ?_⟩
          · show (if E.lvl c.depth then _ else _) = (if E.lvl c.depth then _ else _) + p
            by_cases hb : E.lvl c.depth = true
            · rw [if_pos hb, if_pos hb]; rfl
            · rw [if_neg hb, if_neg hb, CEnv.numChildren, if_neg hb]; rfl
          · intro hb
            have hb : E.lvl c.depth = true := hb
            simp [CEnv.mkChild, hb]
          · intro hb
            have hb : E.lvl c.depth = false := hb
            simp [CEnv.mkChild, hb]
    · exact h2 u hu s hs'
  · intro st; simp
  · rintro c cs st t ts st1 st2 ⟨h1, h2⟩ ⟨h3, h4⟩
    refine ⟨by simp [h1, h3], ?_⟩
    intro u hu
    rcases List.mem_cons.1 hu with rfl | hu
    · exact h4
    · exact h2 u hu

theorem NodesOK.child {E : CEnv D G} {t u : Tree (CNode G)} (h : NodesOK E t)
    (hu : u ∈ t.children) : NodesOK E u :=
  fun s hs => h s (Tree.mem_pre.2 (Or.inr ⟨u, hu, hs⟩))

/-- Every descendant `j` levels below has its counter between `lo` and `hi`. -/
theorem NodesOK.bounds {E : CEnv D G} (hE : E.OK) {t : Tree (CNode G)} (h : NodesOK E t)
    (hv : E.valid t.label.depth t.label.counter) :
    ∀ s ∈ t.pre, ∃ j, s.label.depth = t.label.depth + j ∧
      E.lo j t.label.depth t.label.counter ≤ s.label.counter ∧
      s.label.counter ≤ E.hi j t.label.depth t.label.counter := by
  induction t using Tree.ind with
  | h a cs ih =>
    intro s hs
    rcases Tree.mem_pre.1 hs with rfl | ⟨u, hu, hs'⟩
    · exact ⟨0, rfl, le_refl _, le_refl _⟩
    · obtain ⟨hlen, hch⟩ := h _ (Tree.mem_pre_self _) (List.ne_nil_of_mem hu)
      obtain ⟨p, hp, rfl⟩ := List.getElem_of_mem hu
      obtain ⟨hcn, hd, -, -⟩ := hch p _ (List.getElem?_eq_getElem hp)
      simp only [Tree.children_node, Tree.label_node] at *
      have hp0 : p < cs.length := hp
      have hp' : p < E.kids a.depth a.counter := by omega
      have hvc : E.valid (a.depth + 1) (E.first a.depth a.counter + p) := valid_child hE hv hp'
      have hvl : E.valid (a.depth + 1)
          (E.first a.depth a.counter + E.kids a.depth a.counter - 1) := by
        have := valid_child hE hv (p := E.kids a.depth a.counter - 1) (by omega)
        rwa [show E.first a.depth a.counter + (E.kids a.depth a.counter - 1) =
          E.first a.depth a.counter + E.kids a.depth a.counter - 1 by omega] at this
      obtain ⟨j, h1, h2, h3⟩ := ih _ hu (h.child hu) (by rw [hcn, hd]; exact hvc) s hs'
      rw [hcn, hd] at h2 h3
      refine ⟨j + 1, by omega, ?_, ?_⟩
      · exact le_trans (lo_mono hE (j := j) (Nat.le_add_right _ p) hvc).1 h2
      · refine le_trans h3 ?_
        exact (lo_mono hE (j := j) (by omega) hvl).2

/-- Different positions carry different `(depth, counter)`. -/
def CNode.sameSpot (a b : CNode G) : Prop := a.depth = b.depth ∧ a.counter = b.counter

theorem distinct_siblings {E : CEnv D G} (hE : E.OK) (e : ℕ) (l : List (Tree (CNode G)))
    (hl : ∀ u ∈ l, u.label.depth = e ∧ E.valid e u.label.counter ∧ NodesOK E u ∧
      u.pre.Pairwise (fun s s' => ¬ s.label.sameSpot s'.label))
    (hpw : l.Pairwise (fun u u' => u.label.counter < u'.label.counter)) :
    (Tree.preL l).Pairwise (fun s s' => ¬ s.label.sameSpot s'.label) := by
  induction l with
  | nil => simp [Tree.preL]
  | cons u l ihl =>
    rw [List.pairwise_cons] at hpw
    rw [Tree.preL, List.pairwise_append]
    obtain ⟨u1, u2, u3, u4⟩ := hl u (by simp)
    refine ⟨u4, ihl (fun v hv => hl v (by simp [hv])) hpw.2, ?_⟩
    rintro s hs s' hs' ⟨e1, e2⟩
    obtain ⟨v, hv, hs''⟩ := Tree.mem_preL.1 hs'
    have hlt := hpw.1 v hv
    obtain ⟨v1, v2, v3, v4⟩ := hl v (by simp [hv])
    obtain ⟨j, h1, h2, h3⟩ := NodesOK.bounds hE u3 (by rw [u1]; exact u2) s hs
    obtain ⟨j', h1', h2', h3'⟩ := NodesOK.bounds hE v3 (by rw [v1]; exact v2) s' hs''
    rw [u1] at h1 h2 h3
    rw [v1] at h1' h2' h3'
    have : j = j' := by omega
    subst this
    have := hi_lt_lo hE (j := j) (e := e) hlt v2
    omega

/-- Different positions of the tree carry different `(depth, counter)`. -/
theorem NodesOK.distinct {E : CEnv D G} (hE : E.OK) {t : Tree (CNode G)} (h : NodesOK E t)
    (hv : E.valid t.label.depth t.label.counter) :
    t.pre.Pairwise (fun s s' => ¬ s.label.sameSpot s'.label) := by
  induction t using Tree.ind with
  | h a cs ih =>
    by_cases hcs : cs = []
    · subst hcs; simp [Tree.pre, Tree.preL]
    obtain ⟨hlen, hch⟩ := h _ (Tree.mem_pre_self _) hcs
    simp only [Tree.children_node, Tree.label_node] at hlen hch hv
    have hdepth : ∀ p (hp : p < cs.length), cs[p].label.counter = E.first a.depth a.counter + p ∧
        cs[p].label.depth = a.depth + 1 ∧ E.valid (a.depth + 1) (E.first a.depth a.counter + p) := by
      intro p hp
      have := hch p _ (List.getElem?_eq_getElem hp)
      exact ⟨this.1, this.2.1, valid_child hE hv (by omega)⟩
    have hall : ∀ u ∈ cs, u.label.depth = a.depth + 1 ∧ E.valid (a.depth + 1) u.label.counter := by
      intro u hu
      obtain ⟨p, hp, rfl⟩ := List.getElem_of_mem hu
      obtain ⟨q1, q2, q3⟩ := hdepth p hp
      exact ⟨q2, by rw [q1]; exact q3⟩
    rw [Tree.pre, List.pairwise_cons]
    constructor
    · intro s hs ⟨h1, _⟩
      obtain ⟨u, hu, hs'⟩ := Tree.mem_preL.1 hs
      obtain ⟨a1, a2⟩ := hall u hu
      obtain ⟨j, h2, -, -⟩ := NodesOK.bounds hE (h.child hu) (by rw [a1]; exact a2) s hs'
      simp at h1; omega
    · refine distinct_siblings hE (a.depth + 1) cs ?_ ?_
      · intro u hu
        obtain ⟨a1, a2⟩ := hall u hu
        exact ⟨a1, a2, h.child hu, ih u hu (h.child hu) (by rw [a1]; exact a2)⟩
      · rw [List.pairwise_iff_getElem]
        intro i j hi hj hij
        rw [(hdepth i hi).1, (hdepth j hj).1]; omega

/-- From distinct labels along a traversal to injectivity on addresses. -/
theorem at_inj {t : Tree (CNode G)}
    (h : t.pre.Pairwise (fun s s' => ¬ s.label.sameSpot s'.label))
    {p q : List ℕ} {s s' : Tree (CNode G)} (hp : t.at? p = some s) (hq : t.at? q = some s')
    (he : s.label.sameSpot s'.label) : p = q := by
  have hpm : p ∈ t.paths := (Tree.mem_paths t p).2 (by simp [hp])
  have hqm : q ∈ t.paths := (Tree.mem_paths t q).2 (by simp [hq])
  have hmap := Tree.paths_map_at t
  have hpw : (t.paths.map t.at?).Pairwise (fun x y => ∀ s s', x = some s → y = some s' →
      ¬ s.label.sameSpot s'.label) := by
    rw [hmap, List.pairwise_map]
    refine h.imp ?_
    intro a b hab s s' h1 h2
    cases h1; cases h2; exact hab
  rw [List.pairwise_map] at hpw
  by_contra hne
  rcases List.mem_iff_getElem.1 hpm with ⟨i, hi, rfl⟩
  rcases List.mem_iff_getElem.1 hqm with ⟨j, hj, rfl⟩
  rw [List.pairwise_iff_getElem] at hpw
  rcases Nat.lt_trichotomy i j with hij | rfl | hij
  · exact hpw i j hi hj hij s s' hp hq he
  · exact hne rfl
  · exact hpw j i hj hi hij s' s hq hp ⟨he.1.symm, he.2.symm⟩

/-! ## The partition level -/

/-- Labels of the nodes `j` levels below the root, from left to right. -/
def levelNodes : ℕ → Tree (CNode G) → List (CNode G)
  | 0, t => [t.label]
  | j + 1, t => t.children.flatMap (levelNodes j)

theorem mem_levelNodes {j : ℕ} {t : Tree (CNode G)} {c : CNode G} (h : c ∈ levelNodes j t) :
    ∃ s ∈ t.pre, s.label = c := by
  induction j generalizing t with
  | zero => simp [levelNodes] at h; exact ⟨t, Tree.mem_pre_self t, h.symm⟩
  | succ j ih =>
    simp only [levelNodes, List.mem_flatMap] at h
    obtain ⟨u, hu, h⟩ := h
    obtain ⟨s, hs, hc⟩ := ih h
    exact ⟨s, Tree.mem_pre.2 (Or.inr ⟨u, hu, hs⟩), hc⟩

theorem range'_flat (E : CEnv D G) (hE : E.OK) (j e y m : ℕ)
    (hv : ∀ p, p < m → E.valid e (y + p)) (hm : 1 ≤ m) :
    (List.range m).flatMap (fun p => List.range' (E.lo j e (y + p))
      (E.hi j e (y + p) + 1 - E.lo j e (y + p))) =
    List.range' (E.lo j e y) (E.hi j e (y + m - 1) + 1 - E.lo j e y) := by
  induction m with
  | zero => omega
  | succ m ih =>
    by_cases hm0 : m = 0
    · subst hm0; simp
    rw [List.range_succ, List.flatMap_append, ih (fun p hp => hv p (by omega)) (by omega)]
    simp only [List.flatMap_cons, List.flatMap_nil, List.append_nil]
    have hs := hi_succ hE j e (y + m - 1) (by
      rw [show y + m - 1 + 1 = y + m by omega]; exact hv m (by omega))
    rw [show y + m - 1 + 1 = y + m by omega] at hs
    have h1 := (lo_le_hi hE j e (y + m) (hv m (by omega))).1
    have h2 := (lo_mono hE (j := j) (Nat.le_add_right y m) (hv m (by omega))).1
    rw [show y + (m + 1) - 1 = y + m by omega, hs]
    have : List.range' (E.lo j e y) (E.hi j e (y + m) + 1 - E.lo j e y) =
        List.range' (E.lo j e y) ((E.lo j e (y + m) - E.lo j e y) +
          (E.hi j e (y + m) + 1 - E.lo j e (y + m))) := by congr 1; omega
    rw [this, ← List.range'_append_1]
    congr 2
    omega

/-- If no branch stops before the partition level, the counters at that level are consecutive. -/
theorem NodesOK.level {E : CEnv D G} (hE : E.OK) {t : Tree (CNode G)} (h : NodesOK E t)
    (hv : E.valid t.label.depth t.label.counter) (j : ℕ)
    (hfull : ∀ s ∈ t.leaves, t.label.depth + j ≤ s.label.depth) :
    (levelNodes j t).map CNode.counter = List.range' (E.lo j t.label.depth t.label.counter)
      (E.hi j t.label.depth t.label.counter + 1 - E.lo j t.label.depth t.label.counter) := by
  induction j generalizing t with
  | zero => simp [levelNodes, CEnv.lo, CEnv.hi]
  | succ j ih =>
    obtain ⟨a, cs⟩ := t
    have hcs : cs ≠ [] := by
      rintro rfl
      have := hfull (Tree.node a []) (by simp [Tree.leaves])
      simp at this
    obtain ⟨hlen, hch⟩ := h _ (Tree.mem_pre_self _) hcs
    simp only [Tree.children_node, Tree.label_node] at *
    have hk := hE.kids_pos a.depth a.counter
    have e1 : cs.map (fun u => (levelNodes j u).map CNode.counter) =
        (List.range (E.kids a.depth a.counter)).map (fun p =>
          List.range' (E.lo j (a.depth + 1) (E.first a.depth a.counter + p))
          (E.hi j (a.depth + 1) (E.first a.depth a.counter + p) + 1 -
            E.lo j (a.depth + 1) (E.first a.depth a.counter + p))) := by
      apply List.ext_getElem
      · simp [hlen]
      · intro p hp1 hp2
        simp only [List.length_map] at hp1
        obtain ⟨q1, q2, -, -⟩ := hch p _ (List.getElem?_eq_getElem hp1)
        have hmem : cs[p] ∈ cs := List.getElem_mem hp1
        simp only [List.getElem_map, List.getElem_range]
        have := ih (t := cs[p]) (h.child hmem)
          (by rw [q1, q2]; exact valid_child hE hv (by omega))
          (by
            intro s hs
            have := hfull s (by rw [Tree.leaves_node_ne hcs]; exact Tree.mem_leavesL.2 ⟨_, hmem, hs⟩)
            rw [q2]; omega)
        rw [this, q1, q2]
    show (cs.flatMap (levelNodes j)).map CNode.counter = _
    rw [List.map_flatMap, List.flatMap_def, e1, ← List.flatMap_def,
      range'_flat E hE j (a.depth + 1) (E.first a.depth a.counter) (E.kids a.depth a.counter)
        (fun p hp => valid_child hE hv hp) hk]
    rfl

/-- Level nodes tile the node if no branch stops before the level. -/
theorem HierTiles.level {t : Tree (CNode G)} (h : HierTiles t) (hd : DepthOK t) (j : ℕ)
    (hfull : ∀ s ∈ t.leaves, t.label.depth + j ≤ s.label.depth) :
    Tiles t.label.offset (t.label.offset + t.label.size) ((levelNodes j t).map CNode.iv) := by
  induction j generalizing t with
  | zero => exact ⟨rfl, rfl⟩
  | succ j ih =>
    obtain ⟨a, cs⟩ := t
    have hcs : cs ≠ [] := by
      rintro rfl
      have := hfull (Tree.node a []) (by simp [Tree.leaves])
      simp at this
    show Tiles _ _ ((cs.flatMap (levelNodes j)).map CNode.iv)
    rw [List.map_flatMap]
    refine tiles_flatMap cs (fun u => u.label.iv) _ (h _ (Tree.mem_pre_self _) hcs) ?_
    intro u hu
    refine ih (h.child hu) (hd.child hu) ?_
    intro s hs
    have h1 := hfull s (by rw [Tree.leaves_node_ne hcs]; exact Tree.mem_leavesL.2 ⟨_, hu, hs⟩)
    have h2 := hd _ (Tree.mem_pre_self _) u hu
    simp at h1 h2; omega

theorem levelNodes_depth {t : Tree (CNode G)} (hd : DepthOK t) (j : ℕ) :
    ∀ c ∈ levelNodes j t, c.depth = t.label.depth + j := by
  induction j generalizing t with
  | zero => intro c hc; simp [levelNodes] at hc; simp [hc]
  | succ j ih =>
    intro c hc
    simp only [levelNodes, List.mem_flatMap] at hc
    obtain ⟨u, hu, hc⟩ := hc
    have h1 := ih (hd.child hu) c hc
    have h2 := hd _ (Tree.mem_pre_self _) u hu
    omega

/-- Largest counter at depth `dp`, starting from the last node of an upper level. -/
theorem hi_root {E : CEnv D G} (hE : E.OK) (hs : E.simple = true) :
    ∀ j e, e + j + 1 = E.dp → E.hi (j + 1) e (E.nc ^ e - 1) = E.nc ^ (E.dp - 1) * E.col + E.add - 1 := by
  intro j
  have hnc := hE.nc
  have hcol := hE.col hs
  induction j with
  | zero =>
    intro e he
    have hpos : 0 < E.nc ^ e := Nat.pow_pos (by omega)
    have he' : e + 1 = E.dp := by omega
    show E.first e _ + E.kids e _ - 1 = _
    unfold CEnv.first CEnv.kids
    rw [if_pos (lvl_true.2 ⟨hs, he'⟩), if_pos (lvl_true.2 ⟨hs, he'⟩)]
    rw [if_pos (by omega), show E.dp - 1 = e by omega]
    obtain ⟨m, hm⟩ : ∃ m, E.nc ^ e = m + 1 := ⟨E.nc ^ e - 1, by omega⟩
    rw [hm]; simp only [Nat.add_sub_cancel]
    rw [Nat.succ_mul]; omega
  | succ j ih =>
    intro e he
    have hpos : 0 < E.nc ^ e := Nat.pow_pos (by omega)
    show E.hi (j + 1) (e + 1) (E.first e _ + E.kids e _ - 1) = _
    rw [← ih (e + 1) (by omega)]
    congr 1
    unfold CEnv.first CEnv.kids
    have : ¬ (e + 1 = E.dp) := by omega
    rw [lvl_false this]
    obtain ⟨m, hm⟩ : ∃ m, E.nc ^ e = m + 1 := ⟨E.nc ^ e - 1, by omega⟩
    rw [pow_succ, hm]; simp only [Nat.add_sub_cancel, Bool.false_eq_true, if_false]
    rw [Nat.succ_mul]

theorem lo_root (E : CEnv D G) (j e : ℕ) : E.lo j e 0 = 0 := by
  induction j generalizing e with
  | zero => rfl
  | succ j ih =>
    show E.lo j (e + 1) (E.first e 0) = 0
    have : E.first e 0 = 0 := by unfold CEnv.first; split <;> simp
    rw [this, ih]

/-! ### Ranks -/

/-- Ranks below and above the partition level (automatic partition). -/
theorem NodesOK.ranks {E : CEnv D G} {t : Tree (CNode G)} (h : NodesOK E t) (hs : E.simple = true)
    (hr : t.label.depth < E.dp ∧ t.label.rank = -1 ∨ E.dp ≤ t.label.depth ∧ 0 ≤ t.label.rank) :
    ∀ s ∈ t.pre, s.label.depth < E.dp ∧ s.label.rank = -1 ∨ E.dp ≤ s.label.depth ∧ 0 ≤ s.label.rank := by
  induction t using Tree.ind with
  | h a cs ih =>
    intro s hsm
    rcases Tree.mem_pre.1 hsm with rfl | ⟨u, hu, hs'⟩
    · exact hr
    · obtain ⟨hlen, hch⟩ := h _ (Tree.mem_pre_self _) (List.ne_nil_of_mem hu)
      obtain ⟨p, hp, hpu⟩ := List.getElem_of_mem hu
      obtain ⟨q1, q2, q3, q4⟩ := hch p u (List.getElem?_eq_some_iff.2 ⟨hp, hpu⟩)
      refine ih u hu (h.child hu) ?_ s hs'
      simp only [Tree.label_node] at hr q1 q2 q3 q4
      by_cases hd : a.depth + 1 = E.dp
      · right; rw [(q3 (lvl_true.2 ⟨hs, hd⟩)).2, q2]; exact ⟨by omega, by positivity⟩
      · rw [(q4 (lvl_false hd)).2, q2]
        rcases hr with ⟨h1, h2⟩ | ⟨h1, h2⟩
        · left; exact ⟨by omega, h2⟩
        · right; exact ⟨by omega, h2⟩

/-- Below the partition level every node inherits the rank. -/
theorem NodesOK.rank_inherit {E : CEnv D G} {t : Tree (CNode G)} (h : NodesOK E t)
    (hd : E.simple = false ∨ E.dp ≤ t.label.depth) :
    ∀ s ∈ t.pre, s.label.rank = t.label.rank ∧ (s = t ∨ s.label.onPart = false) := by
  induction t using Tree.ind with
  | h a cs ih =>
    intro s hsm
    rcases Tree.mem_pre.1 hsm with rfl | ⟨u, hu, hs'⟩
    · exact ⟨rfl, Or.inl rfl⟩
    · obtain ⟨hlen, hch⟩ := h _ (Tree.mem_pre_self _) (List.ne_nil_of_mem hu)
      obtain ⟨p, hp, hpu⟩ := List.getElem_of_mem hu
      obtain ⟨q1, q2, q3, q4⟩ := hch p u (List.getElem?_eq_some_iff.2 ⟨hp, hpu⟩)
      simp only [Tree.label_node] at *
      have hcond : E.lvl a.depth = false := by
        rcases hd with h' | h'
        · simp [CEnv.lvl, h']
        · exact lvl_false (by omega)
      obtain ⟨r1, r2⟩ := ih u hu (h.child hu) (by
        rw [q2]
        rcases hd with h' | h'
        · exact Or.inl h'
        · right; omega) s hs'
      refine ⟨r1.trans (q4 hcond).2, Or.inr ?_⟩
      rcases r2 with rfl | r2
      · exact (q4 hcond).1
      · exact r2

/-! ### The array of partition clusters -/

/-- Successive registrations. -/
def setParts (parts : List (Option (CNode G))) (cs : List (CNode G)) : List (Option (CNode G)) :=
  cs.foldl setPart parts

theorem register_parts_eq (st : CState G) (cs : List (CNode G)) :
    (register st cs).parts = setParts st.parts (cs.filter (fun c => c.onPart)) := by
  unfold register setParts
  simp only
  rw [List.foldl_filter]

/-- Nodes of a tree, other than its root, created as partition clusters. -/
def partBelow (t : Tree (CNode G)) : List (CNode G) :=
  ((Tree.preL t.children).map Tree.label).filter (fun c => c.onPart)

theorem build_parts {E : CEnv D G} {f c st t st'}
    (h : build E f c st = some (t, st')) :
    ∃ ds, ds.Perm (partBelow t) ∧ st'.parts = setParts st.parts ds := by
  have := build_rec E
    (P := fun c st t st' => t.label = c ∧ ∃ ds, ds.Perm (partBelow t) ∧ st'.parts = setParts st.parts ds)
    (PL := fun cs st ts st' => ts.map Tree.label = cs ∧
      ∃ ds, ds.Perm (ts.flatMap partBelow) ∧ st'.parts = setParts st.parts ds)
    ?_ ?_ ?_ ?_ f c st t st' h
  · exact this.2
  · intro c st _
    exact ⟨rfl, [], by simp [partBelow, Tree.preL], by simp [setParts]⟩
  · rintro c st ts st' _ ⟨hl, ds, h1, h2⟩
    refine ⟨rfl, (childrenOf E c st).filter (fun c => c.onPart) ++ ds, ?_, ?_⟩
    · rw [← hl]
      have key : ∀ ts : List (Tree (CNode G)),
          ((ts.map Tree.label).filter (fun c => c.onPart) ++ ts.flatMap partBelow).Perm
            (((Tree.preL ts).map Tree.label).filter (fun c => c.onPart)) := by
        intro ts
        induction ts with
        | nil => simp [Tree.preL]
        | cons u us ih =>
          have e : ((Tree.preL (u :: us)).map Tree.label).filter (fun c => c.onPart) =
              [u.label].filter (fun c => c.onPart) ++ partBelow u ++
              ((Tree.preL us).map Tree.label).filter (fun c => c.onPart) := by
            obtain ⟨a, cs⟩ := u
            simp only [Tree.preL, Tree.pre, List.map_append, List.filter_append, partBelow,
              List.map_cons, Tree.label_node, Tree.children_node]
            rw [List.filter_cons, List.filter_cons]
            split <;> simp
          rw [e]
          have e2 : ((u :: us).map Tree.label).filter (fun c => c.onPart) =
              [u.label].filter (fun c => c.onPart) ++ (us.map Tree.label).filter (fun c => c.onPart) := by
            rw [← List.filter_append]; rfl
          rw [e2, List.flatMap_cons, List.append_assoc, List.append_assoc]
          refine List.Perm.append_left _ ?_
          refine List.Perm.trans ?_ (ih.append_left _)
          rw [← List.append_assoc, ← List.append_assoc]
          exact List.perm_append_comm.append_right _
      exact (h1.append_left _).trans (key ts)
    · rw [h2, register_parts_eq]
      simp [setParts, List.foldl_append]
  · intro st; exact ⟨rfl, [], by simp, rfl⟩
  · rintro c cs st t ts st1 st2 ⟨hl, ds, h1, h2⟩ ⟨hc, ds', h3, h4⟩
    refine ⟨by simp [hl, hc], ds ++ ds', ?_, ?_⟩
    · rw [List.flatMap_cons]
      exact List.perm_append_comm.trans (h3.append h1)
    · rw [h4, h2]; simp [setParts, List.foldl_append]

theorem setPart_get (parts : List (Option (CNode G))) (c : CNode G) (r : ℕ) :
    ((setPart parts c)[r]?).join = if r = c.rank.toNat then some c else (parts[r]?).join := by
  unfold setPart
  simp only
  set k := c.rank.toNat
  by_cases hr : r = k
  · subst hr
    rw [List.getElem?_set_self]
    · simp
    · split_ifs with h
      · simp; omega
      · omega
  · rw [List.getElem?_set_ne (by omega), if_neg hr]
    split_ifs with h
    · by_cases hl : r < parts.length
      · rw [List.getElem?_append_left hl]
      · rw [List.getElem?_append_right (by omega), List.getElem?_eq_none (l := parts) (by omega)]
        rw [List.getElem?_replicate]
        split <;> rfl
    · rfl

theorem setPart_length (parts : List (Option (CNode G))) (c : CNode G) :
    (setPart parts c).length = max parts.length (c.rank.toNat + 1) := by
  unfold setPart
  simp only [List.length_set]
  split_ifs with h
  · simp; omega
  · omega

theorem setParts_get (ds : List (CNode G)) (parts : List (Option (CNode G))) (d : CNode G)
    (hd : d ∈ ds) (hpw : ds.Pairwise (fun a b => a.rank.toNat ≠ b.rank.toNat)) :
    ((setParts parts ds)[d.rank.toNat]?).join = some d := by
  induction ds generalizing parts with
  | nil => simp at hd
  | cons c cs ih =>
    rw [List.pairwise_cons] at hpw
    rcases List.mem_cons.1 hd with rfl | hd'
    · have : ∀ (cs : List (CNode G)) (parts : List (Option (CNode G))),
          (∀ a ∈ cs, d.rank.toNat ≠ a.rank.toNat) →
          ((setParts parts cs)[d.rank.toNat]?).join = (parts[d.rank.toNat]?).join := by
        intro cs
        induction cs with
        | nil => intro parts _; rfl
        | cons a as ih2 =>
          intro parts h
          show ((setParts (setPart parts a) as)[d.rank.toNat]?).join = _
          rw [ih2 _ (fun b hb => h b (by simp [hb])), setPart_get, if_neg (h a (by simp))]
      show ((setParts (setPart parts d) cs)[d.rank.toNat]?).join = _
      rw [this cs _ hpw.1, setPart_get, if_pos rfl]
    · exact ih (setPart parts c) hd' hpw.2

theorem setParts_length (ds : List (CNode G)) (parts : List (Option (CNode G))) (m : ℕ)
    (hp : parts.length ≤ m) (hlt : ∀ d ∈ ds, d.rank.toNat < m)
    (hex : parts.length = m ∨ ∃ d ∈ ds, d.rank.toNat + 1 = m) :
    (setParts parts ds).length = m := by
  induction ds generalizing parts with
  | nil =>
    rcases hex with h | ⟨d, hd, -⟩
    · exact h
    · simp at hd
  | cons c cs ih =>
    have hc := hlt c (by simp)
    refine ih (setPart parts c) ?_ (fun d hd => hlt d (by simp [hd])) ?_
    · rw [setPart_length]; omega
    · rw [setPart_length]
      rcases hex with h | ⟨d, hd, h⟩
      · left; omega
      · rcases List.mem_cons.1 hd with rfl | hd
        · left; omega
        · right; exact ⟨d, hd, h⟩

/-- In an automatically partitioned tree, the partition clusters are exactly the nodes at depth `dp`. -/
theorem NodesOK.partBelow_eq {E : CEnv D G} {t : Tree (CNode G)} (h : NodesOK E t)
    (hs : E.simple = true) (j : ℕ) (hj : t.label.depth + j + 1 = E.dp) :
    partBelow t = levelNodes (j + 1) t := by
  induction j generalizing t with
  | zero =>
    obtain ⟨a, cs⟩ := t
    simp only [Tree.label_node, Nat.add_zero] at hj
    unfold partBelow
    simp only [levelNodes, Tree.children_node]
    have key : ∀ l : List (Tree (CNode G)), (∀ u ∈ l, u ∈ cs) →
        ((Tree.preL l).map Tree.label).filter (fun c => c.onPart) = l.flatMap (fun u => [u.label]) := by
      intro l
      induction l with
      | nil => intro _; rfl
      | cons u us ih =>
        intro hm
        have hu := hm u (by simp)
        obtain ⟨hlen, hch⟩ := h _ (Tree.mem_pre_self _) (List.ne_nil_of_mem hu)
        obtain ⟨p, hp, hpu⟩ := List.getElem_of_mem hu
        obtain ⟨q1, q2, q3, q4⟩ := hch p u (List.getElem?_eq_some_iff.2 ⟨hp, hpu⟩)
        simp only [Tree.label_node] at q3 q2
        replace q3 := (q3 (lvl_true.2 ⟨hs, hj⟩)).1
        have hin := (h.child hu).rank_inherit (Or.inr (by omega))
        have hnone : ((Tree.preL u.children).map Tree.label).filter (fun c => c.onPart) = [] := by
          rw [List.filter_eq_nil_iff]
          intro c hc
          obtain ⟨s, hsm, rfl⟩ := List.mem_map.1 hc
          obtain ⟨v, hv, hsv⟩ := Tree.mem_preL.1 hsm
          have := hin s (Tree.mem_pre.2 (Or.inr ⟨v, hv, hsv⟩))
          rcases this.2 with rfl | h0
          · exfalso
            have c1 := Tree.count_child_lt hv
            have : ∀ (v s : Tree (CNode G)), s ∈ v.pre → s.count ≤ v.count := by
              intro v
              induction v using Tree.ind with
              | h b ds ihh =>
                intro s hs
                rcases Tree.mem_pre.1 hs with rfl | ⟨w, hw, hsw⟩
                · exact le_refl _
                · have := ihh w hw s hsw
                  have := Tree.count_child_lt (t := Tree.node b ds) hw
                  omega
            have := this v s hsv
            omega
          · simp [h0]
        obtain ⟨b, ds⟩ := u
        simp only [Tree.preL, Tree.pre, List.map_append, List.filter_append, List.map_cons,
          Tree.label_node, List.flatMap_cons, Tree.children_node] at hnone q3 ⊢
        rw [List.filter_cons, if_pos q3, hnone, ih (fun v hv => hm v (by simp [hv]))]
    exact key cs (fun _ h => h)
  | succ j ih =>
    obtain ⟨a, cs⟩ := t
    simp only [Tree.label_node] at hj
    unfold partBelow
    simp only [Tree.children_node]
    rw [show levelNodes (j + 1 + 1) (Tree.node a cs) = cs.flatMap (levelNodes (j + 1)) from rfl]
    have key : ∀ l : List (Tree (CNode G)), (∀ u ∈ l, u ∈ cs) →
        ((Tree.preL l).map Tree.label).filter (fun c => c.onPart) = l.flatMap (levelNodes (j + 1)) := by
      intro l
      induction l with
      | nil => intro _; rfl
      | cons u us ihl =>
        intro hm
        have hu := hm u (by simp)
        obtain ⟨hlen, hch⟩ := h _ (Tree.mem_pre_self _) (List.ne_nil_of_mem hu)
        obtain ⟨p, hp, hpu⟩ := List.getElem_of_mem hu
        obtain ⟨q1, q2, q3, q4⟩ := hch p u (List.getElem?_eq_some_iff.2 ⟨hp, hpu⟩)
        have hne : ¬ a.depth + 1 = E.dp := by omega
        simp only [Tree.label_node] at q4 q2
        replace q3 := (q4 (lvl_false hne)).1
        have hrec := ih (t := u) (h.child hu) (by omega)
        obtain ⟨b, ds⟩ := u
        simp only [Tree.preL, Tree.pre, List.map_append, List.filter_append, List.map_cons,
          Tree.label_node, List.flatMap_cons] at q3 ⊢
        rw [List.filter_cons, if_neg (by simp [q3]), ihl (fun v hv => hm v (by simp [hv]))]
        congr 1
    exact key cs (fun _ h => h)

end Htool
