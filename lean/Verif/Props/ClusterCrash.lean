import Verif.Props.ClusterIO
import Mathlib.Data.List.Infix

/-! # Reading cluster tree files cut by an interruption

`save_cluster_tree` (`include/htool/clustering/cluster_output.hpp` 32-84) writes two files with buffered streams. An interruption (crash, full disk) leaves an
arbitrary prefix of each. This file says what `read_cluster_tree` (86-181) does with them. -/

namespace Htool.ClusterIO
variable {K : Type*}

/-! ### Text -/

/-- The pieces of a cut text: the same pieces, except the last one, which is cut. -/
theorem splitStr_prefix (d : Char) {s' s : Str} (h : s' <+: s) :
    ∃ k w x, (splitStr d s)[k]? = some x ∧ w <+: x ∧ splitStr d s' = (splitStr d s).take k ++ [w] := by
  induction s generalizing s' with
  | nil =>
    have : s' = [] := List.prefix_nil.1 h
    subst this
    exact ⟨0, [], [], rfl, List.prefix_rfl, rfl⟩
  | cons c s ih =>
    cases s' with
    | nil =>
      cases hx : splitStr d (c :: s) with
      | nil => exact absurd hx (splitStr_ne _ _)
      | cons x xs => exact ⟨0, [], x, rfl, List.nil_prefix, rfl⟩
    | cons c' s' =>
      obtain ⟨rfl, h0⟩ := List.cons_prefix_cons.1 h
      obtain ⟨k, w, x, h1, h2, h3⟩ := ih h0
      by_cases hc : c' = d
      · refine ⟨k + 1, w, x, ?_, h2, ?_⟩
        · rw [splitStr, if_pos hc]; simpa using h1
        · rw [splitStr, if_pos hc, splitStr, if_pos hc, h3]; rfl
      · cases hs : splitStr d s with
        | nil => exact absurd hs (splitStr_ne _ _)
        | cons y ys =>
          rw [hs] at h1 h3
          have e : splitStr d (c' :: s) = (c' :: y) :: ys := by rw [splitStr, if_neg hc, hs]
          cases k with
          | zero =>
            simp only [List.getElem?_cons_zero, Option.some.injEq] at h1
            subst h1
            refine ⟨0, c' :: w, c' :: y, by rw [e]; rfl, List.cons_prefix_cons.2 ⟨rfl, h2⟩, ?_⟩
            rw [splitStr, if_neg hc, h3]; rfl
          | succ k =>
            refine ⟨k + 1, w, x, by rw [e]; simpa using h1, h2, ?_⟩
            rw [splitStr, if_neg hc, h3, e]; rfl

/-- Every piece of a cut text is a prefix of the piece of the whole text at the same place, and equal to it unless it is the last one. -/
theorem splitStr_cut (d : Char) {s' s : Str} (h : s' <+: s) {j : ℕ} {x' : Str} (hx : (splitStr d s')[j]? = some x') :
    ∃ x, (splitStr d s)[j]? = some x ∧ x' <+: x ∧ (j + 1 < (splitStr d s').length → x' = x) := by
  obtain ⟨k, w, x, h1, h2, h3⟩ := splitStr_prefix d h
  have hk : k < (splitStr d s).length := (List.getElem?_eq_some_iff.1 h1).1
  rw [h3] at hx ⊢
  have hl : ((splitStr d s).take k).length = k := by rw [List.length_take]; omega
  rcases Nat.lt_or_ge j k with hj | hj
  · rw [List.getElem?_append_left (by omega), List.getElem?_take_of_lt hj] at hx
    exact ⟨x', hx, List.prefix_rfl, fun _ => rfl⟩
  · have hjk : j = k := by
      have := (List.getElem?_eq_some_iff.1 hx).1
      simp at this; omega
    subst hjk
    rw [List.getElem?_append_right (by omega), hl, Nat.sub_self] at hx
    simp only [List.getElem?_cons_zero, Option.some.injEq] at hx
    subst hx
    refine ⟨x, h1, h2, fun h => ?_⟩
    rw [List.length_append, hl] at h; simp at h

/-- The same for the lines of a file. -/
theorem getLines_cut {s' s : Str} (h : s' <+: s) {j : ℕ} {x' : Str} (hx : (getLines s')[j]? = some x') :
    ∃ x, (getLines s)[j]? = some x ∧ x' <+: x ∧ (j + 1 < (getLines s').length → x' = x) := by
  have sub : ∀ (u : Str) (j : ℕ) (y : Str), (getLines u)[j]? = some y →
      (splitStr '\n' u)[j]? = some y ∧ (getLines u).length ≤ (splitStr '\n' u).length ∧
      (j + 1 = (splitStr '\n' u).length → y ≠ []) := by
    intro u j y hy
    unfold getLines at hy ⊢
    simp only at hy ⊢
    split_ifs at hy ⊢ with hl
    · rw [List.dropLast_eq_take] at hy
      have hlt : j < (splitStr '\n' u).length - 1 := by
        have := (List.getElem?_eq_some_iff.1 hy).1
        simp at this; omega
      rw [List.getElem?_take_of_lt hlt] at hy
      exact ⟨hy, by simp, fun he => by omega⟩
    · refine ⟨hy, le_rfl, fun he h0 => hl ?_⟩
      rw [List.getLast?_eq_getElem?, ← he, Nat.add_sub_cancel, hy, h0]
  obtain ⟨h1, h2, h3⟩ := sub s' j x' hx
  obtain ⟨x, k1, k2, k3⟩ := splitStr_cut '\n' h h1
  refine ⟨x, ?_, k2, fun hj => k3 (by omega)⟩
  unfold getLines
  simp only
  split_ifs with hl
  · have hlen : j < (splitStr '\n' s).length := (List.getElem?_eq_some_iff.1 k1).1
    have : j < (splitStr '\n' s).length - 1 := by
      by_contra hge
      have hj : j = (splitStr '\n' s).length - 1 := by omega
      rw [List.getLast?_eq_getElem?, ← hj, k1] at hl
      simp only [Option.some.injEq] at hl
      subst hl
      have hx0 : x' = [] := List.prefix_nil.1 k2
      by_cases he : j + 1 = (splitStr '\n' s').length
      · exact h3 he hx0
      · -- then the piece is not the last one of the cut text, so the cut text has more pieces than the whole text
        have hlt : j + 1 < (splitStr '\n' s').length := by
          have := (List.getElem?_eq_some_iff.1 h1).1; omega
        obtain ⟨y, hy⟩ : ∃ y, (splitStr '\n' s')[j + 1]? = some y := ⟨_, List.getElem?_eq_getElem hlt⟩
        obtain ⟨z, hz, -⟩ := splitStr_cut '\n' h hy
        have := (List.getElem?_eq_some_iff.1 hz).1
        omega
    rw [List.dropLast_eq_take, List.getElem?_take_of_lt this]
    exact k1
  · exact k1

/-! ### Reading with cut cells -/

/-- A cluster as read from a text, without its last coordinate. -/
def NodeInfo.core (i : NodeInfo K) : NodeInfo K := { i with center := i.center.dropLast }

/-- A cluster without the last coordinate of its center: everything that does not depend on the end of its text. -/
def coreN (c : CNode (Geo K)) : CNode (Geo K) := { c with geo := (c.geo.1, c.geo.2.dropLast) }

theorem NodeInfo.core_node {i i' : NodeInfo K} (h : i'.core = i.core) (d : ℕ) : coreN (i'.node d) = coreN (i.node d) := by
  unfold NodeInfo.core at h
  unfold coreN NodeInfo.node
  injection h with h1 h2 h3 h4 h5 h6 h7 h8
  simp only [h2, h3, h4, h5, h6, h7, h8]

/-- A successful `mapM` has a result at every place. -/
theorem mapM_forall₂ {α β : Type*} {f : α → Option β} {l : List α} {r : List β} (h : l.mapM f = some r) :
    List.Forall₂ (fun a b => f a = some b) l r := by
  induction l generalizing r with
  | nil => simp at h; subst h; exact .nil
  | cons a l ih =>
    rw [List.mapM_cons] at h
    cases ha : f a with
    | none => rw [ha] at h; exact absurd h (by simp)
    | some b =>
      rw [ha] at h
      cases hl : l.mapM f with
      | none => rw [hl] at h; exact absurd h (by simp)
      | some bs =>
        rw [hl] at h
        simp at h
        subst h
        exact .cons ha (ih hl)

theorem mapM_of_forall₂ {α β : Type*} {f : α → Option β} {l : List α} {r : List β}
    (h : List.Forall₂ (fun a b => f a = some b) l r) : l.mapM f = some r := by
  induction h with
  | nil => rfl
  | cons h1 _ ih => rw [List.mapM_cons, h1, ih]; rfl

/-- Fields of a cut cell: if a cut text of a cluster with `dim` coordinates can be read, it is cut in the last coordinate. -/
theorem parseNode_cut (F : NumFmt K) {dim : ℕ} (hdim : 0 < dim) {c c' : Str} (hc : c' <+: c)
    (hl : (splitStr '|' c).length = 7 + dim) {i' : NodeInfo K} (h : parseNode F dim c' = some i') :
    ∃ i, parseNode F dim c = some i ∧ i'.core = i.core := by
  unfold parseNode at h
  simp only [Option.bind_eq_some_iff] at h
  obtain ⟨nch, a0, r, a4, ctr, actr, rank, a1, off, a2, sz, a3, cn, a5, fl, a6, hi⟩ := h
  unfold fieldCenter at actr
  have hf := mapM_forall₂ actr
  have hlen : (splitStr '|' c').length = 7 + dim := by
    have h1 : 7 + (dim - 1) < (splitStr '|' c').length := by
      have hctr : ctr.length = dim := by simpa using hf.length_eq.symm
      have := List.forall₂_iff_get.1 hf
      have h2 := this.2 (dim - 1) (by simp; omega) (by omega)
      simp only [List.get_eq_getElem, List.getElem_range, Option.map_eq_some_iff] at h2
      obtain ⟨y, hy, -⟩ := h2
      exact (List.getElem?_eq_some_iff.1 hy).1
    have h2 : ∀ j, j < (splitStr '|' c').length → j < (splitStr '|' c).length := by
      intro j hj
      obtain ⟨x, hx, -⟩ := splitStr_cut '|' hc (List.getElem?_eq_getElem hj)
      exact (List.getElem?_eq_some_iff.1 hx).1
    have h3 := h2 ((splitStr '|' c').length - 1) (by omega)
    omega
  have same : ∀ j, j < 6 + dim → (splitStr '|' c)[j]? = (splitStr '|' c')[j]? := by
    intro j hj
    obtain ⟨x, hx, -, he⟩ := splitStr_cut '|' hc (List.getElem?_eq_getElem (show j < (splitStr '|' c').length by omega))
    rw [hx, List.getElem?_eq_getElem (show j < (splitStr '|' c').length by omega), he (by omega)]
  set ctr2 : List K := (List.range dim).map fun l => F.parse ((splitStr '|' c).getD (7 + l) []) with hctr2
  have hcen : fieldCenter F (splitStr '|' c) dim = some ctr2 := by
    unfold fieldCenter
    refine mapM_some (g := fun l => F.parse ((splitStr '|' c).getD (7 + l) [])) ?_
    intro l hlm
    rw [List.mem_range] at hlm
    have : 7 + l < (splitStr '|' c).length := by omega
    rw [List.getElem?_eq_getElem this, List.getD_eq_getElem _ _ this]; rfl
  refine ⟨{ nch := nch, rank := rank, offset := off, size := sz, radius := F.parse r, counter := F.toInt (F.parse cn),
            onPart := strBool fl, center := ctr2 }, ?_, ?_⟩
  · unfold parseNode
    simp only [Option.bind_eq_some_iff]
    refine ⟨nch, ?_, r, ?_, ctr2, hcen, rank, ?_, off, ?_, sz, ?_, cn, ?_, fl, ?_, rfl⟩
    · unfold fieldNat fieldInt at a0 ⊢; rw [same 0 (by omega)]; exact a0
    · rw [same 4 (by omega)]; exact a4
    · unfold fieldInt at a1 ⊢; rw [same 1 (by omega)]; exact a1
    · unfold fieldNat fieldInt at a2 ⊢; rw [same 2 (by omega)]; exact a2
    · unfold fieldNat fieldInt at a3 ⊢; rw [same 3 (by omega)]; exact a3
    · rw [same 5 (by omega)]; exact a5
    · rw [same 6 (by omega)]; exact a6
  · simp only [Option.some.injEq] at hi
    subst hi
    unfold NodeInfo.core
    simp only
    have : ctr.dropLast = ctr2.dropLast := by
      apply List.ext_getElem?
      intro l
      have hctr : ctr.length = dim := by simpa using hf.length_eq.symm
      have hctr2' : ctr2.length = dim := by simp [hctr2]
      rw [List.dropLast_eq_take, List.dropLast_eq_take, hctr, hctr2']
      by_cases hl : l < dim - 1
      · rw [List.getElem?_take_of_lt hl, List.getElem?_take_of_lt hl, List.getElem?_eq_getElem (by omega),
          List.getElem?_eq_getElem (by omega)]
        have h2 := (List.forall₂_iff_get.1 hf).2 l (by simp; omega) (by omega)
        simp only [List.get_eq_getElem, List.getElem_range, Option.map_eq_some_iff] at h2
        obtain ⟨y, hy, e⟩ := h2
        rw [← same (7 + l) (by omega)] at hy
        rw [← e]
        simp only [hctr2, List.getElem_map, List.getElem_range, List.getD_eq_getElem?_getD, hy, Option.getD_some]
      · rw [List.getElem?_eq_none (by rw [List.length_take]; omega), List.getElem?_eq_none (by rw [List.length_take]; omega)]
    rw [this]

/-- The cell number `j` of row `d`. -/
def cell (o : List (List Str)) (d j : ℕ) : Option Str := (o[d]?).bind fun row => row[j]?

/-- Every cell of `o'` which can be read gives the same as the cell of `o` at the same place, except perhaps for the last coordinate. -/
def CutOf (F : NumFmt K) (dim : ℕ) (o' o : List (List Str)) : Prop :=
  ∀ d j c', cell o' d j = some c' → ∃ c, cell o d j = some c ∧ ∀ i', parseNode F dim c' = some i' → ∃ i, parseNode F dim c = some i ∧ i'.core = i.core

theorem readChildren_cut {F : NumFmt K} {dim : ℕ} {o' o : List (List Str)} (ho : CutOf F dim o' o) {depth nch : ℕ} {off : ℕ → ℕ}
    {is' : List (NodeInfo K)} (h : readChildren F dim o' depth nch off = some is') :
    ∃ is, readChildren F dim o depth nch off = some is ∧ is'.map NodeInfo.core = is.map NodeInfo.core := by
  unfold readChildren at h ⊢
  have hf := mapM_forall₂ h
  clear h
  generalize List.range nch = l at hf ⊢
  induction hf with
  | nil => exact ⟨[], rfl, rfl⟩
  | @cons p i' l is' h1 _ ih =>
    obtain ⟨is, k1, k2⟩ := ih
    have h1' : (cell o' (depth + 1) (off (depth + 1) + p)).bind (parseNode F dim) = some i' := by
      rw [← h1]; unfold cell; cases o'[depth + 1]? <;> rfl
    obtain ⟨c', hc', hp'⟩ := Option.bind_eq_some_iff.1 h1'
    obtain ⟨c, hc, hp⟩ := ho _ _ _ hc'
    obtain ⟨i, hi, he⟩ := hp i' hp'
    have h2 : ((o[depth + 1]?).bind fun row => (row[off (depth + 1) + p]?).bind (parseNode F dim)) = some i := by
      unfold cell at hc
      cases hr : o[depth + 1]? with
      | none => rw [hr] at hc; exact absurd hc (by simp)
      | some row =>
        rw [hr] at hc
        simp only [Option.bind_some] at hc ⊢
        rw [hc]; exact hi
    refine ⟨i :: is, ?_, by rw [List.map_cons, List.map_cons, he, k2]⟩
    rw [List.mapM_cons, h2, k1]; rfl

theorem setPart_core (ps : List (Option (CNode (Geo K)))) (c : CNode (Geo K)) :
    (setPart ps c).map (Option.map coreN) = setPart (ps.map (Option.map coreN)) (coreN c) := by
  unfold setPart
  simp only [List.length_map, show (coreN c).rank = c.rank from rfl]
  split_ifs with h
  · simp [List.map_set]
  · simp [List.map_set]

theorem register_core {cs' cs : List (CNode (Geo K))} (h : cs'.map coreN = cs.map coreN) {ps' ps : List (Option (CNode (Geo K)))}
    (hp : ps'.map (Option.map coreN) = ps.map (Option.map coreN)) :
    (cs'.foldl (fun ps d => if d.onPart then setPart ps d else ps) ps').map (Option.map coreN) =
      (cs.foldl (fun ps d => if d.onPart then setPart ps d else ps) ps).map (Option.map coreN) := by
  induction cs' generalizing cs ps' ps with
  | nil =>
    have : cs = [] := by simpa using h.symm
    subst this; exact hp
  | cons c' cs' ih =>
    cases cs with
    | nil => exact absurd h (by simp)
    | cons c cs =>
      rw [List.map_cons, List.map_cons] at h
      injection h with h1 h2
      rw [List.foldl_cons, List.foldl_cons]
      refine ih h2 ?_
      have e : c'.onPart = c.onPart := show (coreN c').onPart = (coreN c).onPart by rw [h1]
      rw [e]
      split_ifs
      · rw [setPart_core, setPart_core, h1, hp]
      · exact hp

/-- Two states of the reader which differ by last coordinates only. -/
def RState.Near (s' s : RState K) : Prop := s'.off = s.off ∧ s'.parts.map (Option.map coreN) = s.parts.map (Option.map coreN)

/-- Whatever is read from cut cells is read from the whole cells, up to last coordinates. -/
theorem readNode_cut {F : NumFmt K} {dim : ℕ} {o' o : List (List Str)} (ho : CutOf F dim o' o) :
    ∀ (f' f : ℕ), f' ≤ f → ∀ (c' c : CNode (Geo K)) (n : ℕ) (s' s : RState K), coreN c' = coreN c → s'.Near s →
      ∀ T' r', readNode F dim o' f' (c', n) s' = some (T', r') →
        ∃ T r, readNode F dim o f (c, n) s = some (T, r) ∧ T'.map coreN = T.map coreN ∧ r'.Near r := by
  intro f'
  induction f' with
  | zero => intro f _ c' c n s' s _ _ T' r' h; exact absurd h (by simp [readNode])
  | succ f' ih =>
    intro f hf c' c n s' s hc hs T' r' h
    obtain ⟨f, rfl⟩ : ∃ g, f = g + 1 := ⟨f - 1, by omega⟩
    rw [readNode] at h
    obtain ⟨is', h1, h⟩ := Option.bind_eq_some_iff.1 h
    simp only at h
    obtain ⟨⟨ts', r1'⟩, h2, h⟩ := Option.bind_eq_some_iff.1 h
    simp only [Option.some.injEq, Prod.mk.injEq] at h
    obtain ⟨rfl, rfl⟩ := h
    have hd : c'.depth = c.depth := show (coreN c').depth = (coreN c).depth by rw [hc]
    simp only [hd, hs.1] at h1
    obtain ⟨is, k1, k2⟩ := readChildren_cut ho h1
    -- the children
    have hlist : ∀ (is' is : List (NodeInfo K)), is'.map NodeInfo.core = is.map NodeInfo.core → ∀ (s' s : RState K), s'.Near s →
        ∀ ts' r', readList (readNode F dim o' f') ((is'.map fun i => i.node (c.depth + 1)).zip (is'.map NodeInfo.nch)) s' = some (ts', r') →
        ∃ ts r, readList (readNode F dim o f) ((is.map fun i => i.node (c.depth + 1)).zip (is.map NodeInfo.nch)) s = some (ts, r) ∧
          ts'.map (Tree.map coreN) = ts.map (Tree.map coreN) ∧ r'.Near r := by
      intro is'
      induction is' with
      | nil =>
        intro is he s' s hs ts' r' h
        have : is = [] := by simpa using he.symm
        subst this
        simp only [List.map_nil, List.zip_nil_left, readList, Option.some.injEq, Prod.mk.injEq] at h
        obtain ⟨rfl, rfl⟩ := h
        exact ⟨[], s, rfl, rfl, hs⟩
      | cons i' is' ihl =>
        intro is he s' s hs ts' r' h
        cases is with
        | nil => exact absurd he (by simp)
        | cons i is =>
          rw [List.map_cons, List.map_cons] at he
          injection he with he1 he2
          simp only [List.map_cons, List.zip_cons_cons, readList] at h ⊢
          obtain ⟨⟨t1, s1⟩, g1, h⟩ := Option.bind_eq_some_iff.1 h
          obtain ⟨⟨ts1, s2⟩, g2, h⟩ := Option.bind_eq_some_iff.1 h
          simp only [Option.some.injEq, Prod.mk.injEq] at h
          obtain ⟨rfl, rfl⟩ := h
          have en : i'.nch = i.nch := show i'.core.nch = i.core.nch by rw [he1]
          rw [en] at g1
          obtain ⟨t, r, a1, a2, a3⟩ := ih f (by omega) _ (i.node (c.depth + 1)) i.nch s' s (NodeInfo.core_node he1 _) hs _ _ g1
          obtain ⟨ts, r2, b1, b2, b3⟩ := ihl is he2 s1 r a3 _ _ g2
          refine ⟨t :: ts, r2, ?_, by rw [List.map_cons, List.map_cons, a2, b2], b3⟩
          rw [a1]
          simp only [Option.bind_some]
          rw [b1]; rfl
    have hcs : (is'.map fun i => i.node (c.depth + 1)).map coreN = (is.map fun i => i.node (c.depth + 1)).map coreN := by
      have : ∀ (a b : List (NodeInfo K)), a.map NodeInfo.core = b.map NodeInfo.core →
          (a.map fun i => i.node (c.depth + 1)).map coreN = (b.map fun i => i.node (c.depth + 1)).map coreN := by
        intro a
        induction a with
        | nil => intro b hb; have : b = [] := by simpa using hb.symm
                 subst this; rfl
        | cons x a iha =>
          intro b hb
          cases b with
          | nil => exact absurd hb (by simp)
          | cons y b =>
            rw [List.map_cons, List.map_cons] at hb
            injection hb with hb1 hb2
            simp only [List.map_cons]
            rw [NodeInfo.core_node hb1, iha b hb2]
      exact this _ _ k2
    simp only [hd, hs.1] at h2
    obtain ⟨ts, r, e1, e2, e3⟩ := hlist is' is k2
      { off := if n = 0 then s.off else Function.update s.off (c.depth + 1) (s.off (c.depth + 1) + n),
        parts := (is'.map fun i => i.node (c.depth + 1)).foldl (fun ps d => if d.onPart then setPart ps d else ps) s'.parts }
      { off := if n = 0 then s.off else Function.update s.off (c.depth + 1) (s.off (c.depth + 1) + n),
        parts := (is.map fun i => i.node (c.depth + 1)).foldl (fun ps d => if d.onPart then setPart ps d else ps) s.parts }
      ⟨rfl, register_core hcs hs.2⟩ _ _ h2
    refine ⟨Tree.node c ts, r, ?_, ?_, e3⟩
    · rw [readNode]
      rw [k1]
      simp only [Option.bind_some]
      rw [e1]; rfl
    · rw [Tree.map_node, Tree.map_node, hc, e2]

/-- The cells of the saved tree file: the texts of the clusters, the first one being the root. -/
theorem saved_cells (F : NumFmt K) {dim : ℕ} {p0 : CNode (Geo K)} {t : Tree (CNode (Geo K))} {D : TreeData (Geo K)} (h : Savable F dim p0 t D)
    {file : Str} (hf : saveTreeFile F t D = some file) :
    (∀ d j c, cell ((getLines file).map (splitStr ',')) d j = some c → c = [] ∨ ∃ s ∈ t.pre, ∃ flag, c = nodeStr F flag s) ∧
    ∃ flag, cell ((getLines file).map (splitStr ',')) 0 0 = some (nodeStr F flag t) := by
  have hpre : t.preorderTraversal = t.pre := Tree.preorderTraversal_eq t
  obtain ⟨rows, r1, r2, r3⟩ := saveStep_foldl F h.first t.pre (List.replicate (D.st.maxDepth + 1) [])
    (fun s hs => by have := h.maxd s hs; simp; omega)
  rw [List.length_replicate] at r2 r3
  have r3' : ∀ e, e < D.st.maxDepth + 1 → rows.getD e [] =
      (lev e [t]).map (fun s => nodeStr F (decide (s.label.depth = p0.depth)) s) := by
    intro e he
    rw [r3 e he]
    have : (List.replicate (D.st.maxDepth + 1) ([] : List Str)).getD e [] = [] := by
      rw [List.getD_eq_getElem _ _ (by simpa using he)]; simp
    rw [this, List.nil_append]
    unfold lev
    simp [Tree.preL]
  set str : Tree (CNode (Geo K)) → Str := fun s => nodeStr F (decide (s.label.depth = p0.depth)) s with hstr
  have hfree : ∀ s, ',' ∉ str s ∧ '\n' ∉ str s := fun s => nodeStr_free h.free _ s
  have hrowmem : ∀ row ∈ rows, ∀ x ∈ row, ∃ s ∈ t.pre, x = str s := by
    intro row hr x hx
    obtain ⟨e, he, rfl⟩ := List.getElem_of_mem hr
    have := r3' e (by omega)
    rw [List.getD_eq_getElem _ _ he] at this
    rw [this] at hx
    obtain ⟨s, hs, rfl⟩ := List.mem_map.1 hx
    unfold lev at hs
    exact ⟨s, by simpa [Tree.preL] using (List.mem_filter.1 hs).1, rfl⟩
  have hfile : file = ((rows.map fun r => commas r ++ ['\n']).flatten) := by
    unfold saveTreeFile saveRows at hf
    rw [hpre, r1] at hf
    simpa using hf.symm
  have hout : ((getLines file).map (splitStr ',')) = rows.map fun r => if r = [] then [[]] else r := by
    have e1 : (rows.map fun r => commas r ++ ['\n']) = (rows.map commas).map fun r => r ++ ['\n'] := by
      rw [List.map_map]; rfl
    rw [hfile, e1, getLines_lines, List.map_map]
    · apply List.map_congr_left
      intro r hr
      simp only [Function.comp]
      rw [commas_eq]
      by_cases hr0 : r = []
      · subst hr0; rfl
      · rw [if_neg hr0, splitStr_sepBy hr0]
        intro x hx
        obtain ⟨s, -, rfl⟩ := hrowmem r hr x hx
        exact (hfree s).1
    · intro r hr
      obtain ⟨r', hr', rfl⟩ := List.mem_map.1 hr
      rw [commas_eq]
      intro hc
      rcases mem_sepBy hc with hc | ⟨x, hx, hc⟩
      · exact absurd hc (by decide)
      · obtain ⟨s, -, rfl⟩ := hrowmem r' hr' x hx
        exact (hfree s).2 hc
  rw [hout]
  refine ⟨?_, decide (t.label.depth = p0.depth), ?_⟩
  · intro d j c hc
    unfold cell at hc
    obtain ⟨row, hrow, hc⟩ := Option.bind_eq_some_iff.1 hc
    rw [List.getElem?_map] at hrow
    obtain ⟨r, hr, rfl⟩ := Option.map_eq_some_iff.1 hrow
    split_ifs at hc with h0
    · left
      have := List.mem_of_getElem? hc
      simpa using this
    · right
      obtain ⟨s, hs, rfl⟩ := hrowmem r (List.mem_of_getElem? hr) c (List.mem_of_getElem? hc)
      exact ⟨s, hs, _, rfl⟩
  · have hroot : lev 0 [t] = [t] := lev_self (fun u hu => by rw [List.mem_singleton.1 hu]; exact h.depth0)
      (fun u hu => by rw [List.mem_singleton.1 hu]; exact h.depths)
    have h0 := r3' 0 (by omega)
    rw [hroot] at h0
    have hl : 0 < rows.length := by omega
    rw [List.getD_eq_getElem _ _ hl] at h0
    unfold cell
    rw [List.getElem?_map, List.getElem?_eq_getElem hl, h0]
    rfl

/-- The rows of a cut file. -/
theorem cell_cut {s' s : Str} (h : s' <+: s) {d j : ℕ} {c' : Str} (hc : cell ((getLines s').map (splitStr ',')) d j = some c') :
    ∃ c, cell ((getLines s).map (splitStr ',')) d j = some c ∧ c' <+: c ∧ (d + 1 < (getLines s').length → c' = c) := by
  unfold cell at hc ⊢
  obtain ⟨row, hrow, hc⟩ := Option.bind_eq_some_iff.1 hc
  rw [List.getElem?_map] at hrow
  obtain ⟨l', hl, rfl⟩ := Option.map_eq_some_iff.1 hrow
  obtain ⟨l, k1, k2, k3⟩ := getLines_cut h hl
  obtain ⟨c, m1, m2, -⟩ := splitStr_cut ',' k2 hc
  refine ⟨c, by rw [List.getElem?_map, k1]; exact m1, m2, fun hd => ?_⟩
  rw [k3 hd, m1] at hc
  exact (Option.some.inj hc).symm

/-- **C76 (both files cut, positive part).** A tree in a space of dimension at least one, with at least two levels. Whatever the properties file contains (in
particular any prefix of the saved one), if only an arbitrary prefix of the tree file was written and `read_cluster_tree` returns, the clusters and the
partition are the saved ones, except perhaps for last coordinates of centers (`coreN` forgets them). -/
theorem C76_both_files_cut_partial (F : NumFmt K) {dim : ℕ} (hdim : 0 < dim) {p0 : CNode (Geo K)} {t : Tree (CNode (Geo K))} {D : TreeData (Geo K)}
    (h : Savable F dim p0 t D) (hch : t.children ≠ []) {file cut props : Str} (hf : saveTreeFile F t D = some file) (hcut : cut <+: file)
    {t' : Tree (CNode (Geo K))} {D' : TreeData (Geo K)} (hr : readClusterTree F props cut = some (t', D')) :
    t'.map coreN = (t.map (roundNode F)).map coreN ∧
    D'.st.parts.map (Option.map coreN) = (D.st.parts.map (Option.map (roundNode F))).map (Option.map coreN) ∧
    ∃ D0, readProps (K := K) t.label.size (getLinesS 5 (props, false) []) = some D0 ∧ D' = { D0 with st := { D0.st with parts := D'.st.parts } } := by
  obtain ⟨file', hf', hwhole⟩ := C11_read_saved_tree F h
  obtain rfl : file' = file := Option.some.inj (hf'.symm.trans hf)
  obtain ⟨hcells, flag, hroot⟩ := saved_cells F h hf
  unfold readClusterTree at hr hwhole
  set o := (getLines file').map (splitStr ',') with ho
  set o' := (getLines cut).map (splitStr ',') with ho'
  unfold readOutputs at hr hwhole
  obtain ⟨s0', h0', hr⟩ := Option.bind_eq_some_iff.1 hr
  change cell o' 0 0 = some s0' at h0'
  change (cell o 0 0).bind _ = _ at hwhole
  obtain ⟨s0, h0, hpre, hsame⟩ := cell_cut hcut h0'
  rw [← ho] at h0
  obtain rfl : nodeStr F flag t = s0 := Option.some.inj (hroot.symm.trans h0)
  obtain ⟨root', hroot', hr⟩ := Option.bind_eq_some_iff.1 hr
  obtain ⟨D0, hD0, hr⟩ := Option.bind_eq_some_iff.1 hr
  obtain ⟨⟨T', r'⟩, hT', hr⟩ := Option.bind_eq_some_iff.1 hr
  simp only [Option.some.injEq, Prod.mk.injEq] at hr
  obtain ⟨rfl, rfl⟩ := hr
  -- the first row is complete
  have hlen : 1 < (getLines cut).length := by
    by_contra hle
    have hn : root'.2 = t.children.length := by
      unfold readRoot at hroot'
      simp only [Option.bind_eq_some_iff] at hroot'
      obtain ⟨nch, a0, rank, a1, off, a2, size, a3, r, a4, z, a5, ctr, a6, e⟩ := hroot'
      have hfl : 5 < (splitStr '|' s0').length := by
        unfold fieldInt at a5
        obtain ⟨x, hx, -⟩ := Option.bind_eq_some_iff.1 a5
        exact (List.getElem?_eq_some_iff.1 hx).1
      obtain ⟨x, hx, -, he⟩ := splitStr_cut '|' hpre (List.getElem?_eq_getElem (show 0 < (splitStr '|' s0').length by omega))
      rw [nodeStr_split h.free] at hx
      have hx0 : (splitStr '|' s0')[0]? = some (intStr (t.children.length : ℤ)) := by
        rw [List.getElem?_eq_getElem (by omega), he (by omega), ← hx]; rfl
      rw [fieldNat_int hx0 (h.ints t (Tree.mem_pre_self t)).nch] at a0
      rw [← Option.some.inj e]
      exact (Option.some.inj a0).symm
    have hpos : 0 < t.children.length := List.length_pos_iff.2 hch
    rw [show root' = (root'.1, root'.2) from rfl, readNode] at hT'
    obtain ⟨is', h1, -⟩ := Option.bind_eq_some_iff.1 hT'
    unfold readChildren at h1
    have hf := mapM_forall₂ h1
    have h2 := (List.forall₂_iff_get.1 hf).2 0 (by simp; omega) (by rw [← hf.length_eq]; simp; omega)
    obtain ⟨row, hrow, -⟩ := Option.bind_eq_some_iff.1 h2
    have := (List.getElem?_eq_some_iff.1 hrow).1
    rw [ho', List.length_map] at this
    omega
  have hs0 := hsame (by omega)
  subst hs0
  have hsplit : splitStr '|' (nodeStr F flag t) = fields F flag t := nodeStr_split h.free _ t
  have hdimR : (splitStr '|' (nodeStr F flag t)).length - 7 = dim := by
    rw [hsplit]
    unfold fields
    rw [List.length_append, List.length_map, h.dims t (Tree.mem_pre_self t)]; simp
  rw [hdimR] at hT'
  have hco : CutOf F dim o' o := by
    intro d j c' hc'
    obtain ⟨c, hc, hp, -⟩ := cell_cut hcut hc'
    rw [← ho] at hc
    refine ⟨c, hc, fun i' hi' => ?_⟩
    rcases hcells d j c hc with rfl | ⟨s, hs, fl, rfl⟩
    · have : c' = [] := List.prefix_nil.1 hp
      subst this
      exact ⟨i', hi', rfl⟩
    · refine parseNode_cut F hdim hp ?_ hi'
      rw [nodeStr_split h.free]
      unfold fields
      rw [List.length_append, List.length_map, h.dims s hs]; rfl
  have hle : o'.length + 1 ≤ o.length + 1 := by
    rw [ho, ho', List.length_map, List.length_map]
    obtain ⟨x, hx, -⟩ := getLines_cut hcut (List.getElem?_eq_getElem (show (getLines cut).length - 1 < (getLines cut).length by omega))
    have := (List.getElem?_eq_some_iff.1 hx).1
    omega
  obtain ⟨T, r, k1, k2, k3⟩ := readNode_cut hco _ _ hle root'.1 root'.1 root'.2 { off := fun _ => 0, parts := [] } { off := fun _ => 0, parts := [] }
    rfl ⟨rfl, rfl⟩ _ _ hT'
  rw [h0, Option.bind_some, hroot', Option.bind_some] at hwhole
  obtain ⟨D1, hD1, hwhole⟩ := Option.bind_eq_some_iff.1 hwhole
  rw [hdimR, show root' = (root'.1, root'.2) from rfl, k1, Option.bind_some] at hwhole
  simp only [Option.some.injEq, Prod.mk.injEq] at hwhole
  obtain ⟨e1, e2⟩ := hwhole
  refine ⟨by rw [k2, e1], ?_, D0, ?_, rfl⟩
  · show r'.parts.map _ = _
    rw [k3.2]
    have := congrArg (fun X : TreeData (Geo K) => X.st.parts) e2
    simp only at this
    rw [this]
  · have hl : T.label = root'.1 := by
      rw [readNode] at k1
      obtain ⟨is', h1, h2⟩ := Option.bind_eq_some_iff.1 k1
      simp only at h2
      obtain ⟨q, -, h3⟩ := Option.bind_eq_some_iff.1 h2
      simp only [Option.some.injEq, Prod.mk.injEq] at h3
      rw [← h3.1]; rfl
    have hsz : t.label.size = root'.1.size := by
      rw [← hl, e1]
      cases t; rw [Tree.map_node]; rfl
    rw [hsz]
    exact hD0

/-- **C76 (tree file cut, positive part).** The same with the complete properties file: the tree data are the saved ones. -/
theorem C76_tree_file_cut_partial (F : NumFmt K) {dim : ℕ} (hdim : 0 < dim) {p0 : CNode (Geo K)} {t : Tree (CNode (Geo K))} {D : TreeData (Geo K)}
    (h : Savable F dim p0 t D) (hch : t.children ≠ []) {file cut : Str} (hf : saveTreeFile F t D = some file) (hcut : cut <+: file)
    {t' : Tree (CNode (Geo K))} {D' : TreeData (Geo K)} (hr : readClusterTree F (savePropsFile D) cut = some (t', D')) :
    t'.map coreN = (t.map (roundNode F)).map coreN ∧
    D'.st.parts.map (Option.map coreN) = (D.st.parts.map (Option.map (roundNode F))).map (Option.map coreN) ∧
    D' = { D with st := { D.st with parts := D'.st.parts } } := by
  obtain ⟨a1, a2, D0, a3, a4⟩ := C76_both_files_cut_partial F hdim h hch hf hcut hr
  refine ⟨a1, a2, ?_⟩
  obtain ⟨file', hf', hwhole⟩ := C11_read_saved_tree F h
  obtain rfl : file' = file := Option.some.inj (hf'.symm.trans hf)
  obtain ⟨-, -, D1, b3, b4⟩ := C76_both_files_cut_partial F hdim h hch hf (List.prefix_refl _) hwhole
  obtain rfl : D0 = D1 := Option.some.inj (a3.symm.trans b3)
  rw [a4]
  rw [TreeData.mk.injEq, CState.mk.injEq] at b4
  obtain ⟨⟨a, b, c, -⟩, d, e⟩ := b4
  cases D0 with
  | mk st0 m l =>
    cases st0
    cases D with
    | mk st m l =>
      cases st
      simp only at a b c d e
      subst a b c d e
      rfl

/-! ### The properties file -/

/-- A stream whose end was reached gives the last line again and again. -/
theorem getLinesS_eof (n : ℕ) (s line : Str) : getLinesS n (s, true) line = List.replicate n line := by
  induction n with
  | zero => rfl
  | succ n ih =>
    show (getlineS (s, true) line).1 :: getLinesS n (getlineS (s, true) line).2 (getlineS (s, true) line).1 = _
    have e : getlineS (s, true) line = (line, (s, true)) := by simp [getlineS]
    rw [e, List.replicate_succ]
    exact congrArg _ ih

/-- A last line without line end is read as a line, then repeated. -/
theorem getLinesS_tail (n : ℕ) {w : Str} (hw : '\n' ∉ w) (line : Str) : getLinesS (n + 1) (w, false) line = List.replicate (n + 1) w := by
  show (getlineS (w, false) line).1 :: getLinesS n (getlineS (w, false) line).2 (getlineS (w, false) line).1 = _
  have e : getlineS (w, false) line = (w, ([], true)) := by
    unfold getlineS
    have : w.dropWhile (fun c => decide (c ≠ '\n')) = [] := by
      have : ∀ c ∈ w, c ≠ '\n' := fun c hc h => hw (h ▸ hc)
      clear hw
      induction w with
      | nil => rfl
      | cons c w ih =>
        rw [List.dropWhile_cons, if_pos (by simpa using this c List.mem_cons_self)]
        exact ih fun x hx => this x (List.mem_cons_of_mem _ hx)
    simp only [Bool.false_eq_true, if_false, this]
  rw [e, getLinesS_eof, List.replicate_succ]

/-- The lines seen by the reader in a file made of `k` complete lines and an incomplete one. -/
theorem getLinesS_cut (rows : List Str) (h : ∀ r ∈ rows, '\n' ∉ r) {w : Str} (hw : '\n' ∉ w) (n : ℕ) :
    getLinesS (rows.length + (n + 1)) (((rows.map fun r => r ++ ['\n']).flatten) ++ w, false) [] = rows ++ List.replicate (n + 1) w := by
  rw [getLinesS_lines rows h, getLinesS_tail n hw]

/-- Reading with other properties: the tree does not depend on them. -/
theorem readClusterTree_props {F : NumFmt K} {props props' file : Str} {T : Tree (CNode (Geo K))} {D D' : TreeData (Geo K)}
    (h : readClusterTree F props file = some (T, D)) (hp : readProps (K := K) T.label.size (getLinesS 5 (props', false) []) = some D') :
    readClusterTree F props' file = some (T, { D' with st := { D'.st with parts := D.st.parts } }) := by
  unfold readClusterTree readOutputs at h ⊢
  obtain ⟨s0, h0, h⟩ := Option.bind_eq_some_iff.1 h
  obtain ⟨root, hroot, h⟩ := Option.bind_eq_some_iff.1 h
  obtain ⟨D0, hD0, h⟩ := Option.bind_eq_some_iff.1 h
  obtain ⟨⟨T', r'⟩, hT', h⟩ := Option.bind_eq_some_iff.1 h
  simp only [Option.some.injEq, Prod.mk.injEq] at h
  obtain ⟨rfl, rfl⟩ := h
  have hl : T'.label = root.1 := by
    rw [show root = (root.1, root.2) from rfl, readNode] at hT'
    obtain ⟨is', h1, h2⟩ := Option.bind_eq_some_iff.1 hT'
    simp only at h2
    obtain ⟨q, -, h3⟩ := Option.bind_eq_some_iff.1 h2
    simp only [Option.some.injEq, Prod.mk.injEq] at h3
    rw [← h3.1]; rfl
  rw [hl] at hp
  rw [h0, Option.bind_some, hroot, Option.bind_some, hp, Option.bind_some, hT', Option.bind_some]

/-- And conversely, when the properties cannot be read nothing is returned. -/
theorem readClusterTree_none {F : NumFmt K} {props : Str} (file : Str)
    (hp : ∀ size, readProps (K := K) size (getLinesS 5 (props, false) []) = none) : readClusterTree F props file = none := by
  unfold readClusterTree readOutputs
  cases ((((getLines file).map (splitStr ','))[0]?).bind fun row => row[0]?) with
  | none => rfl
  | some s0 =>
    rw [Option.bind_some]
    cases readRoot F (splitStr '|' s0) with
    | none => rfl
    | some root => rw [Option.bind_some, hp]; rfl

/-- `strtol` stops at the first character which is not a digit. -/
theorem strtol_natStr_append (n : ℕ) {s : Str} (hs : s = [] ∨ ∃ r, s = ',' :: r) : strtol (natStr n ++ s) = some (n : ℤ) := by
  have hd : ∀ (l : List ℕ), (∀ k ∈ l, k < 10) → digitPrefix (l.map digitChar ++ s) = l := by
    intro l hl
    induction l with
    | nil => rcases hs with rfl | ⟨r, rfl⟩ <;> simp [digitPrefix, digitVal]
    | cons k l ih =>
      rw [List.map_cons, List.cons_append, digitPrefix, digitVal_digitChar (hl k List.mem_cons_self)]
      simp only
      rw [ih fun x hx => hl x (List.mem_cons_of_mem _ hx)]
  have hp : digitPrefix (natStr n ++ s) = decDigits n := by rw [natStr_eq]; exact hd _ (decDigits_lt n)
  have hne := natStr_ne n
  have hdig : ∀ c ∈ natStr n, c ≠ '-' := by
    intro c hc h
    have := natStr_digit hc
    rw [h] at this
    revert this; decide
  cases hx : natStr n with
  | nil => exact absurd hx hne
  | cons c r =>
    have hc : c ≠ '-' := hdig c (by rw [hx]; exact List.mem_cons_self)
    rw [hx] at hp
    rw [List.cons_append] at hp ⊢
    unfold strtol
    split
    · rename_i heq
      exact absurd (List.cons.inj heq).1 hc
    · rw [hp, if_neg (decDigits_ne n), decDigits_val]

/-- A written list begins with its first entries. -/
theorem commas_take (l : List ℕ) (m : ℕ) : commas ((l.take m).map natStr) <+: commas (l.map natStr) := by
  induction l generalizing m with
  | nil => simp
  | cons a l ih =>
    cases m with
    | zero => exact List.nil_prefix
    | succ m =>
      rw [List.take_succ_cons]
      cases l with
      | nil => simp
      | cons b l =>
        cases m with
        | zero =>
          simp only [List.take_zero, List.map_cons, List.map_nil, commas]
          exact List.prefix_append _ _
        | succ m =>
          have := ih (m + 1)
          rw [List.take_succ_cons] at this ⊢
          simp only [List.map_cons, commas] at this ⊢
          exact (List.prefix_append_right_inj _).2 (List.cons_prefix_cons.2 ⟨rfl, this⟩)

/-- The properties file cut after the `m`-th entry of the permutation. -/
def cutPerm (D : TreeData (Geo K)) (m : ℕ) : Str :=
  (((propsLines D).take 3).map fun r => r ++ ['\n']).flatten ++ ("permutation:".toList ++ ' ' :: commas ((D.st.perm.take m).map natStr))

/-- **C76 (properties file cut in the permutation).** For every saved tree and every `m ≥ 1`, the file cut after `m` entries of the permutation is read without
any error: the tree is the saved one, but the permutation is completed with `m, m + 1, …` and the permutation is declared local exactly when its first entry is not 0. -/
theorem C76_permutation_cut (F : NumFmt K) {dim : ℕ} {p0 : CNode (Geo K)} {t : Tree (CNode (Geo K))} {D : TreeData (Geo K)} (h : Savable F dim p0 t D)
    {file : Str} (hf : saveTreeFile F t D = some file) {m : ℕ} (hm : 1 ≤ m) (hmn : m ≤ t.label.size) :
    cutPerm D m <+: savePropsFile D ∧
    readClusterTree F (cutPerm D m) file = some (t.map (roundNode F),
      { minclustersize := D.minclustersize, isLocal := decide (D.st.perm.getD 0 0 ≠ 0),
        st := { perm := D.st.perm.take m ++ (List.range t.label.size).drop m, maxDepth := D.st.maxDepth, minDepth := D.st.minDepth,
                parts := D.st.parts.map (Option.map (roundNode F)) } }) := by
  obtain ⟨file', hf', hwhole⟩ := C11_read_saved_tree F h
  obtain rfl : file' = file := Option.some.inj (hf'.symm.trans hf)
  have hperm : D.st.perm ≠ [] := by
    intro h0
    have h1 := h.perm
    have h2 := h.pos
    rw [h0] at h1; simp at h1; omega
  have hw : ∀ n, ' ' ∉ natStr n := fun n => natStr_free (by decide)
  refine ⟨?_, ?_⟩
  · rw [savePropsFile_eq hperm]
    unfold cutPerm propsLines
    simp only [List.take_succ_cons, List.take_zero, List.map_cons, List.map_nil, List.flatten_cons, List.flatten_nil, List.append_nil, List.append_assoc]
    have e : ∀ (a b c d : Str), commas ((D.st.perm.take m).map natStr) <+: d → a ++ (b ++ (c ++ ("permutation:".toList ++ ' ' :: commas ((D.st.perm.take m).map natStr)))) <+:
        a ++ (b ++ (c ++ ("permutation:".toList ++ ' ' :: d))) := fun a b c d hd =>
      (List.prefix_append_right_inj _).2 ((List.prefix_append_right_inj _).2 ((List.prefix_append_right_inj _).2 ((List.prefix_append_right_inj _).2
        (List.cons_prefix_cons.2 ⟨rfl, hd⟩))))
    have := e ("minclustersize:".toList ++ ' ' :: natStr D.minclustersize ++ ['\n']) ("maximal depth:".toList ++ ' ' :: natStr D.st.maxDepth ++ ['\n'])
      ("minimal depth:".toList ++ ' ' :: natStr D.st.minDepth ++ ['\n']) (commas (D.st.perm.map natStr) ++ (['\n'] ++ ("local permutation:".toList ++
        (' ' :: natStr (if D.isLocal = true then 1 else 0) ++ ['\n'])))) ((commas_take _ _).trans (List.prefix_append _ _))
    simpa only [List.append_assoc, List.cons_append] using this
  · have hl0 : '\n' ∉ "permutation:".toList ++ ' ' :: commas ((D.st.perm.take m).map natStr) := by
      rw [List.mem_append, List.mem_cons]
      rintro (hc | hc | hc)
      · revert hc; decide
      · exact absurd hc (by decide)
      · exact commas_natStr_free (by decide) (by decide) hc
    have hlines : getLinesS 5 (cutPerm D m, false) [] =
        (propsLines D).take 3 ++ List.replicate 2 ("permutation:".toList ++ ' ' :: commas ((D.st.perm.take m).map natStr)) :=
      getLinesS_cut ((propsLines D).take 3) (fun r hr => propsLines_free D r (List.mem_of_mem_take hr)) hl0 1
    have hlast : lastWord ("permutation:".toList ++ ' ' :: commas ((D.st.perm.take m).map natStr)) = commas ((D.st.perm.take m).map natStr) :=
      lastWord_append (commas_natStr_free (by decide) (by decide))
    have hne : D.st.perm.take m ≠ [] := by
      intro h0
      have := congrArg List.length h0
      rw [List.length_take, h.perm] at this
      simp at this; omega
    have hp : readPerm t.label.size (splitStr ',' (commas ((D.st.perm.take m).map natStr))) = some (D.st.perm.take m ++ (List.range t.label.size).drop m) := by
      rw [commas_eq, splitStr_sepBy (by simpa using hne)]
      · unfold readPerm
        have : ((D.st.perm.take m).map natStr).mapM stoi = some ((D.st.perm.take m).map fun i : ℕ => (i : ℤ)) := by
          rw [List.mapM_map]
          refine mapM_some (g := fun i : ℕ => (i : ℤ)) ?_
          intro i hi
          exact stoi_natStr (h.permInts i (List.mem_of_mem_take hi))
        have hlen : (D.st.perm.take m).length = m := by rw [List.length_take, h.perm]; omega
        rw [this, Option.bind_some, List.length_map, hlen, if_pos hmn, List.map_map]
        congr 2
        conv_rhs => rw [← List.map_id (D.st.perm.take m)]
        apply List.map_congr_left
        intro i _
        simp
      · intro x hx
        obtain ⟨n, -, rfl⟩ := List.mem_map.1 hx
        exact natStr_free (by decide)
    have hloc : stoi (commas ((D.st.perm.take m).map natStr)) = some ((D.st.perm.getD 0 0 : ℕ) : ℤ) := by
      obtain ⟨a, l, hl⟩ : ∃ a l, D.st.perm = a :: l := by
        cases hx : D.st.perm with
        | nil => exact absurd hx hperm
        | cons a l => exact ⟨a, l, rfl⟩
      obtain ⟨m, rfl⟩ : ∃ k, m = k + 1 := ⟨m - 1, by omega⟩
      have hfit : FitsInt a := h.permInts a (by rw [hl]; exact List.mem_cons_self)
      have : ∃ s, (s = [] ∨ ∃ r, s = ',' :: r) ∧ commas ((D.st.perm.take (m + 1)).map natStr) = natStr a ++ s := by
        rw [hl, List.take_succ_cons]
        cases (l.take m) with
        | nil => exact ⟨[], Or.inl rfl, by simp [commas]⟩
        | cons b l' => exact ⟨',' :: commas ((b :: l').map natStr), Or.inr ⟨_, rfl⟩, by simp [commas]⟩
      obtain ⟨s, hs, e⟩ := this
      unfold stoi
      rw [e, strtol_natStr_append a hs, Option.bind_some, if_pos hfit, hl]; rfl
    have w0 : lastWord (((propsLines D).take 3 ++ List.replicate 2 ("permutation:".toList ++ ' ' :: commas ((D.st.perm.take m).map natStr))).getD 0 []) =
      natStr D.minclustersize := lastWord_append (hw _)
    have w1 : lastWord (((propsLines D).take 3 ++ List.replicate 2 ("permutation:".toList ++ ' ' :: commas ((D.st.perm.take m).map natStr))).getD 1 []) =
      natStr D.st.maxDepth := lastWord_append (hw _)
    have w2 : lastWord (((propsLines D).take 3 ++ List.replicate 2 ("permutation:".toList ++ ' ' :: commas ((D.st.perm.take m).map natStr))).getD 2 []) =
      natStr D.st.minDepth := lastWord_append (hw _)
    have w3 : lastWord (((propsLines D).take 3 ++ List.replicate 2 ("permutation:".toList ++ ' ' :: commas ((D.st.perm.take m).map natStr))).getD 3 []) =
      commas ((D.st.perm.take m).map natStr) := hlast
    have w4 : lastWord (((propsLines D).take 3 ++ List.replicate 2 ("permutation:".toList ++ ' ' :: commas ((D.st.perm.take m).map natStr))).getD 4 []) =
      commas ((D.st.perm.take m).map natStr) := hlast
    have hprops : readProps (K := K) t.label.size (getLinesS 5 (cutPerm D m, false) []) =
        some { minclustersize := D.minclustersize, isLocal := decide (D.st.perm.getD 0 0 ≠ 0),
               st := { perm := D.st.perm.take m ++ (List.range t.label.size).drop m, maxDepth := D.st.maxDepth, minDepth := D.st.minDepth, parts := [] } } := by
      rw [hlines]
      unfold readProps
      rw [w0, w1, w2, w3, w4, strtol_natStr, stoi_natStr h.maxdInt, stoi_natStr h.mindInt, hp, hloc]
      simp only [Option.bind_some, Int.toNat_natCast]
      congr 2
      simp
    have hsz : (t.map (roundNode F)).label.size = t.label.size := by cases t; rw [Tree.map_node]; rfl
    exact readClusterTree_props hwhole (by rw [hsz]; exact hprops)

/-- The texts before the values in the five lines of the properties file. -/
def propsLabels : List Str := ["minclustersize: ".toList, "maximal depth: ".toList, "minimal depth: ".toList, "permutation: ".toList, "local permutation: ".toList]

/-- **C76 (properties file cut outside of its values).** If the properties file consists of its first `k < 5` lines and of a beginning `w` of the text before the
value of the next line (`w` may be empty or the whole text), nothing is returned, whatever the tree file is. -/
theorem C76_label_cut_rejected (F : NumFmt K) {D : TreeData (Geo K)} {k : ℕ} (hk : k < 5) {w : Str} (hw : w <+: propsLabels.getD k []) (tree : Str) :
    readClusterTree F ((((propsLines D).take k).map fun r => r ++ ['\n']).flatten ++ w) tree = none := by
  refine readClusterTree_none tree fun size => ?_
  have hlen : ((propsLines D).take k).length = k := by
    rw [List.length_take]; show min k 5 = k; omega
  have hmem : w ∈ (propsLabels.getD k []).inits := (List.mem_inits _ _).2 hw
  have hfacts : ∀ k < 5, ∀ w ∈ (propsLabels.getD k []).inits, '\n' ∉ w ∧ strtol (lastWord w) = none ∧ stoi (lastWord w) = none ∧
      ((splitStr ',' (lastWord w)).map fun x => stoi x) = [none] := by
    decide +kernel
  obtain ⟨hwn, e1, e2, e3⟩ := hfacts k hk w hmem
  have hl : getLinesS 5 ((((propsLines D).take k).map fun r => r ++ ['\n']).flatten ++ w, false) [] = (propsLines D).take k ++ List.replicate (5 - k) w := by
    have := getLinesS_cut ((propsLines D).take k) (fun r hr => propsLines_free D r (List.mem_of_mem_take hr)) hwn (4 - k)
    rw [hlen, show k + (4 - k + 1) = 5 by omega] at this
    rw [this, show 4 - k + 1 = 5 - k by omega]
  have hline : (getLinesS 5 ((((propsLines D).take k).map fun r => r ++ ['\n']).flatten ++ w, false) []).getD k [] = w := by
    rw [hl, List.getD_eq_getElem?_getD, List.getElem?_append_right (by omega), hlen, Nat.sub_self, List.getElem?_replicate]
    rw [if_pos (by omega)]; rfl
  have e4 : readPerm size (splitStr ',' (lastWord w)) = none := by
    cases hs : splitStr ',' (lastWord w) with
    | nil => rw [hs] at e3; simp at e3
    | cons a l =>
      rw [hs] at e3
      cases l with
      | cons b l => simp at e3
      | nil =>
        simp only [List.map_cons, List.map_nil, List.cons.injEq, and_true] at e3
        unfold readPerm
        simp [e3]
  generalize getLinesS 5 ((((propsLines D).take k).map fun r => r ++ ['\n']).flatten ++ w, false) [] = ls at hline
  unfold readProps
  interval_cases k
  · rw [hline, e1]; rfl
  · rw [hline, e2]; cases strtol (lastWord (ls.getD 0 [])) <;> rfl
  · rw [hline, e2]
    cases strtol (lastWord (ls.getD 0 [])) <;> [rfl; (cases stoi (lastWord (ls.getD 1 [])) <;> rfl)]
  · rw [hline, e4]
    cases strtol (lastWord (ls.getD 0 [])) <;> [rfl; (cases stoi (lastWord (ls.getD 1 [])) <;> [rfl; (cases stoi (lastWord (ls.getD 2 [])) <;> rfl)])]
  · rw [hline, e2]
    cases strtol (lastWord (ls.getD 0 [])) <;> [rfl; (cases stoi (lastWord (ls.getD 1 [])) <;>
      [rfl; (cases stoi (lastWord (ls.getD 2 [])) <;> [rfl; (cases readPerm size (splitStr ',' (lastWord (ls.getD 3 []))) <;> rfl)])])]

/-- **C76 (properties file cut between two lines).** If the properties file consists of its first `k < 5` lines, nothing is returned, whatever the tree file is. -/
theorem C76_whole_lines_rejected (F : NumFmt K) {D : TreeData (Geo K)} {k : ℕ} (hk : k < 5) (tree : Str) :
    readClusterTree F ((((propsLines D).take k).map fun r => r ++ ['\n']).flatten) tree = none := by
  have := C76_label_cut_rejected F (D := D) hk (List.nil_prefix) tree
  rwa [List.append_nil] at this

/-- **C76 (only the last line end is missing).** Without its very last character the properties file is read as the complete one. -/
theorem C76_last_line_end (F : NumFmt K) {dim : ℕ} {p0 : CNode (Geo K)} {t : Tree (CNode (Geo K))} {D : TreeData (Geo K)} (h : Savable F dim p0 t D)
    (tree : Str) : readClusterTree F (savePropsFile D).dropLast tree = readClusterTree F (savePropsFile D) tree := by
  have hperm : D.st.perm ≠ [] := by
    intro h0
    have h1 := h.perm
    have h2 := h.pos
    rw [h0] at h1; simp at h1; omega
  have hl : getLinesS 5 ((savePropsFile D).dropLast, false) [] = getLinesS 5 (savePropsFile D, false) [] := by
    rw [getLines_props hperm]
    have e : propsLines D = (propsLines D).take 4 ++ [(propsLines D).getD 4 []] := rfl
    have h4 : '\n' ∉ (propsLines D).getD 4 [] := propsLines_free D _ (List.mem_of_getElem? (i := 4) rfl)
    have hd : (savePropsFile D).dropLast = (((propsLines D).take 4).map fun r => r ++ ['\n']).flatten ++ (propsLines D).getD 4 [] := by
      rw [savePropsFile_eq hperm, e, List.map_append, List.flatten_append]
      simp only [List.map_cons, List.map_nil, List.flatten_cons, List.flatten_nil, List.append_nil]
      rw [← List.append_assoc, List.dropLast_concat]
      rfl
    rw [hd]
    have := getLinesS_cut ((propsLines D).take 4) (fun r hr => propsLines_free D r (List.mem_of_mem_take hr)) h4 0
    rw [show ((propsLines D).take 4).length + (0 + 1) = 5 from rfl] at this
    rw [this]
    exact e.symm
  unfold readClusterTree readOutputs
  rw [hl]

/-- **C76 is false.** For every tree made by the builder whose permutation does not begin with 0, there is a point where an interruption of `save_cluster_tree`
leaves files which `read_cluster_tree` reads without any error and whose permutation is not a permutation. -/
theorem C76_interrupted_save_false {D : Type*} (F : NumFmt K) (hF : F.Free) {S : Strategies D (Geo K)} (hS : S.OK) {flog}
    (hf : FlogOK flog) {fuel n nc dim m : ℕ} (hnc : 2 ≤ nc) (hn : 0 < n) {arg : PartArg} (ha : arg.ok n)
    (hdim : ∀ perm off sz, (S.geo perm off sz).2.length = dim)
    {t : Tree (CNode (Geo K))} {st : CState (Geo K)}
    (h : createClusterTree S flog fuel n nc arg = some (t, st)) (hranks : ∀ l ∈ t.leaves, 0 ≤ l.label.rank)
    (hints : ∀ s ∈ t.pre, IntNode s) (hsize : FitsInt n) (hdep : ∀ l ∈ t.leaves, FitsInt l.label.depth)
    (hcnt : ∀ s ∈ t.pre, F.toInt (F.parse (intStr s.label.counter)) = s.label.counter) (h0 : st.perm.getD 0 0 ≠ 0) :
    ∃ props tree t' D', props <+: savePropsFile (builtData m arg st) ∧ saveTreeFile F t (builtData m arg st) = some tree ∧
      readClusterTree F props tree = some (t', D') ∧ ¬ D'.st.perm.Nodup := by
  obtain ⟨p0, hs⟩ := savable_of_built (m := m) F hF hS hf hnc hn ha hdim h hranks hints hsize hdep hcnt
  obtain ⟨file, hfile, -⟩ := C11_read_saved_tree F hs
  obtain ⟨h1, h2⟩ := C76_permutation_cut F hs hfile (m := 1) le_rfl hs.pos
  refine ⟨_, file, _, _, h1, hfile, h2, ?_⟩
  obtain ⟨-, hsz, -⟩ := create_shape hS hf hnc ha h
  obtain ⟨c1, -, c3⟩ := C02_permutation_is_bijection hS hf hnc ha h
  have hlen : 0 < st.perm.length := by omega
  simp only [show (builtData m arg st).st = st from rfl]
  have ha : st.perm.getD 0 0 < n := by
    rw [List.getD_eq_getElem _ _ hlen]
    exact (c3 _).1 (List.getElem_mem hlen)
  have htake : st.perm.take 1 = [st.perm.getD 0 0] := by
    cases hp : st.perm with
    | nil => rw [hp] at hlen; simp at hlen
    | cons a l => simp
  rw [htake, List.singleton_append, List.nodup_cons, hsz]
  rintro ⟨hno, -⟩
  apply hno
  generalize st.perm.getD 0 0 = a at *
  rw [List.mem_drop_iff_getElem]
  exact ⟨a - 1, by simp; omega, by simp; omega⟩

/-! ### Non-vacuity -/

/-- The tree of 9 points of `exRound` with its two files cut: the permutation after the second entry, the tree file in the last coordinate (-3 becomes 0). -/
def exCut (kp kt : ℕ) : Option (List ℕ × Bool × List (ℤ × List ℤ)) :=
  (createClusterTree exIOStrategies Nat.log 12 9 2 (.auto 2)).bind fun r =>
    (saveTreeFile exFmt r.1 (builtData 1 (.auto 2) r.2)).bind fun file =>
      (readClusterTree exFmt ((savePropsFile (builtData 1 (.auto 2) r.2)).take kp) (file.take kt)).map fun q =>
        (q.2.st.perm, q.2.isLocal, q.1.leaves.map fun s => (s.label.geo.1, s.label.geo.2))

/-- The complete files. -/
example : exCut 1000 1000 = some ([6, 5, 8, 7, 1, 0, 4, 3, 2], false, [(2, [0, -3]), (2, [2, -3]), (2, [4, -3]), (3, [6, -3])]) := by
  unfold exCut
  simp only [saveTreeFile, saveRows, Tree.preorderTraversal_eq]
  decide +kernel

/-- The properties file cut after two entries of the permutation: 5 and 6 occur twice, 0 and 1 do not occur. -/
example : exCut 68 1000 = some ([6, 5, 2, 3, 4, 5, 6, 7, 8], true, [(2, [0, -3]), (2, [2, -3]), (2, [4, -3]), (3, [6, -3])]) := by
  unfold exCut
  simp only [saveTreeFile, saveRows, Tree.preorderTraversal_eq]
  decide +kernel

/-- The tree file cut in the last coordinate: another center. -/
example : exCut 1000 131 = some ([6, 5, 8, 7, 1, 0, 4, 3, 2], false, [(2, [0, -3]), (2, [2, -3]), (2, [4, -3]), (3, [6, 0])]) := by
  unfold exCut
  simp only [saveTreeFile, saveRows, Tree.preorderTraversal_eq]
  decide +kernel

end Htool.ClusterIO
