import Verif.HLin
import Verif.Props.LowRank
import Verif.Props.HProdRM
import Verif.Props.HOps

/-! # Structure of the blocks used by the H-matrix linear algebra

Specification side of `Verif/HLin.lean`: which trees of blocks the theorems are about (`Shape`), which matrix they contain (`Rep`), and how
`get_sub_hmatrix` and `get_child_or_this` address them. -/

namespace Htool
variable {G R : Type*}

/-! ## Clusters -/

namespace Tree
mutual
/-- The highest clusters with a rank below a cluster: the partition below it. -/
def front : CTree G → List (CTree G)
  | .node a cs => if 0 ≤ a.rank then [.node a cs] else frontL cs
/-- The same for a list of clusters. -/
def frontL : List (CTree G) → List (CTree G)
  | [] => []
  | c :: cs => front c ++ frontL cs
end

theorem frontL_eq (cs : List (CTree G)) : frontL cs = cs.flatMap front := by
  induction cs with
  | nil => rfl
  | cons c cs ih => simp [frontL, ih]

theorem front_rank {u : CTree G} (h : 0 ≤ u.rk) : u.front = [u] := by
  cases u with
  | node a cs => rw [front, if_pos (show 0 ≤ a.rank from h)]

theorem front_neg {u : CTree G} (h : u.rk < 0) : u.front = u.children.flatMap front := by
  cases u with
  | node a cs => rw [front, if_neg (show ¬ 0 ≤ a.rank from not_le.2 h), frontL_eq]; rfl

theorem front_mem {u v : CTree G} (h : v ∈ u.front) : v ∈ u.pre ∧ 0 ≤ v.rk := by
  induction u using Tree.ind generalizing v with
  | h a cs ih =>
    by_cases hr : 0 ≤ (Tree.node a cs).rk
    · rw [front_rank hr, List.mem_singleton] at h
      subst h
      exact ⟨mem_pre_self _, hr⟩
    · rw [front_neg (not_le.1 hr), List.mem_flatMap] at h
      obtain ⟨c, hc, hv⟩ := h
      obtain ⟨h1, h2⟩ := ih c hc hv
      exact ⟨mem_pre.2 (Or.inr ⟨c, hc, h1⟩), h2⟩

mutual
/-- Height of a tree. -/
def ht {α : Type*} : Tree α → ℕ
  | .node _ cs => htL cs + 1
/-- Largest height in a list. -/
def htL {α : Type*} : List (Tree α) → ℕ
  | [] => 0
  | c :: cs => max (ht c) (htL cs)
end

theorem ht_le_htL {α : Type*} {c : Tree α} {cs : List (Tree α)} (h : c ∈ cs) : c.ht ≤ htL cs := by
  induction cs with
  | nil => simp at h
  | cons d ds ih =>
    rw [htL]
    rcases List.mem_cons.1 h with rfl | h
    · exact Nat.le_max_left _ _
    · exact Nat.le_trans (ih h) (Nat.le_max_right _ _)

theorem htL_le {α : Type*} {cs : List (Tree α)} {n : ℕ} (h : ∀ c ∈ cs, c.ht ≤ n) : htL cs ≤ n := by
  induction cs with
  | nil => exact Nat.zero_le _
  | cons d ds ih => rw [htL]; exact Nat.max_le.2 ⟨h d (by simp), ih (fun c hc => h c (by simp [hc]))⟩

theorem ht_child {α : Type*} {c t : Tree α} (h : c ∈ t.children) : c.ht < t.ht := by
  cases t with
  | node a cs => rw [ht]; exact Nat.lt_succ_of_le (ht_le_htL h)

theorem ht_pos {α : Type*} (t : Tree α) : 0 < t.ht := by cases t; rw [ht]; omega

theorem ht_pre {α : Type*} {t x : Tree α} (h : x ∈ t.pre) : x = t ∨ x.ht < t.ht := by
  induction t using Tree.ind with
  | h a cs ih =>
    rcases mem_pre.1 h with h | ⟨c, hc, hx⟩
    · exact Or.inl h
    · have h1 : c.ht < (Tree.node a cs).ht := ht_child hc
      rcases ih c hc hx with rfl | h2
      · exact Or.inr h1
      · exact Or.inr (by omega)

theorem mem_pre_at {α : Type*} {t x : Tree α} (h : x ∈ t.pre) : ∃ π, t.at? π = some x := by
  induction t using Tree.ind with
  | h a cs ih =>
    rcases mem_pre.1 h with rfl | ⟨c, hc, hx⟩
    · exact ⟨[], rfl⟩
    · obtain ⟨π, hπ⟩ := ih c hc hx
      obtain ⟨k, hk, e⟩ := List.mem_iff_getElem.1 (show c ∈ cs from hc)
      refine ⟨k :: π, ?_⟩
      rw [at?]
      simp only [children_node, List.getElem?_eq_getElem hk, e]
      exact hπ

theorem at_mem_pre {α : Type*} {π : List ℕ} : ∀ {t x : Tree α}, t.at? π = some x → x ∈ t.pre := by
  induction π with
  | nil => intro t x h; rw [at?] at h; cases h; exact mem_pre_self t
  | cons k π ih =>
    intro t x h
    rw [at?] at h
    cases hc : t.children[k]? with
    | none => rw [hc] at h; exact absurd h (by simp)
    | some c =>
      rw [hc] at h
      exact mem_pre.2 (Or.inr ⟨c, List.mem_of_getElem? hc, ih h⟩)

end Tree

/-- A cluster and its descendants, as every cluster tree built by the library is (`clOK_of_wf`): nobody is empty, children tile their parent and are
one level deeper, leaves have a rank and ranks are inherited. -/
structure ClOK (c : ClusterTree G) : Prop where
  pos : ∀ x ∈ c.root.pre, 0 < x.sz
  tiles : ∀ x ∈ c.root.pre, x.children ≠ [] → Tiles x.off x.fin (x.children.map Tree.iv)
  depth : ∀ x ∈ c.root.pre, ∀ y ∈ x.children, y.label.depth = x.label.depth + 1
  leaf : ∀ x ∈ c.root.pre, x.children = [] → 0 ≤ x.rk
  rank : ∀ x ∈ c.root.pre, 0 ≤ x.rk → ∀ y ∈ x.children, 0 ≤ y.rk

namespace ClusterTree

/-- Partition clusters below a cluster. -/
def front (c : ClusterTree G) : List (ClusterTree G) := c.root.front.map (fun u => ⟨u, c.parts⟩)

/-- `d` is a descendant of `c` (or `c`). -/
def Desc (c d : ClusterTree G) : Prop := d.root ∈ c.root.pre ∧ d.parts = c.parts

/-- The list `get_clusters_on_partition` is the partition of this cluster (true for the root of a cluster tree), or the cluster is on the partition
or below. -/
def Top (c : ClusterTree G) : Prop := 0 ≤ c.rk ∨ c.parts = c.root.front

theorem Desc.refl (c : ClusterTree G) : c.Desc c := ⟨Tree.mem_pre_self _, rfl⟩
theorem Desc.trans {a b c : ClusterTree G} (h1 : a.Desc b) (h2 : b.Desc c) : a.Desc c :=
  ⟨Tree.mem_pre_trans h1.1 h2.1, h2.2.trans h1.2⟩

theorem kids_desc {c d : ClusterTree G} (h : d ∈ c.kids) : c.Desc d := by
  obtain ⟨u, hu, rfl⟩ := List.mem_map.1 h
  exact ⟨child_mem_pre hu, rfl⟩

theorem front_desc {c d : ClusterTree G} (h : d ∈ c.front) : c.Desc d ∧ 0 ≤ d.rk := by
  obtain ⟨u, hu, rfl⟩ := List.mem_map.1 h
  exact ⟨⟨(Tree.front_mem hu).1, rfl⟩, (Tree.front_mem hu).2⟩

theorem front_rank {c : ClusterTree G} (h : 0 ≤ c.rk) : c.front = [c] := by
  unfold front; rw [Tree.front_rank h]; rfl

theorem front_neg {c : ClusterTree G} (h : c.rk < 0) : c.front = c.kids.flatMap front := by
  unfold front kids; rw [Tree.front_neg h, List.map_flatMap, List.flatMap_map]

end ClusterTree

theorem ClOK.desc {c d : ClusterTree G} (h : ClOK c) (hd : c.Desc d) : ClOK d where
  pos x hx := h.pos x (Tree.mem_pre_trans hd.1 hx)
  tiles x hx := h.tiles x (Tree.mem_pre_trans hd.1 hx)
  depth x hx := h.depth x (Tree.mem_pre_trans hd.1 hx)
  leaf x hx := h.leaf x (Tree.mem_pre_trans hd.1 hx)
  rank x hx := h.rank x (Tree.mem_pre_trans hd.1 hx)

namespace ClOK
variable {c d : ClusterTree G}

theorem sz_pos (h : ClOK c) : 0 < c.sz := h.pos _ (Tree.mem_pre_self _)

theorem leaf_rank (h : ClOK c) (hl : c.leaf = true) : 0 ≤ c.rk :=
  h.leaf _ (Tree.mem_pre_self _) (by simpa [ClusterTree.leaf, Tree.isLeaf] using hl)

theorem kids_tiles (h : ClOK c) (hl : c.leaf = false) : Tiles c.off c.fin (c.kids.map ClusterTree.iv) := by
  have := h.tiles _ (Tree.mem_pre_self _) (by simpa [ClusterTree.leaf, Tree.isLeaf] using hl)
  rw [ClusterTree.kids, List.map_map]
  exact this

theorem kid_depth (h : ClOK c) (hd : d ∈ c.kids) : d.root.label.depth = c.root.label.depth + 1 := by
  obtain ⟨u, hu, rfl⟩ := List.mem_map.1 hd
  exact h.depth _ (Tree.mem_pre_self _) u hu

theorem kid_rank (h : ClOK c) (hr : 0 ≤ c.rk) (hd : d ∈ c.kids) : 0 ≤ d.rk := by
  obtain ⟨u, hu, rfl⟩ := List.mem_map.1 hd
  exact h.rank _ (Tree.mem_pre_self _) hr u hu

theorem desc_bounds (h : ClOK c) (hd : c.Desc d) : c.off ≤ d.off ∧ d.fin ≤ c.fin := by
  have hT : HierTiles c.root := fun x hx hne => h.tiles x hx hne
  exact HierTiles.contained hT _ hd.1

theorem desc_depth (h : ClOK c) (hd : c.Desc d) : d = c ∨ c.root.label.depth < d.root.label.depth := by
  obtain ⟨r, ps⟩ := c
  obtain ⟨r', ps'⟩ := d
  obtain ⟨h1, h2⟩ := hd
  simp only at h1 h2
  subst h2
  induction r using Tree.ind with
  | h a cs ih =>
    rcases Tree.mem_pre.1 h1 with rfl | ⟨u, hu, hx⟩
    · exact Or.inl rfl
    · right
      have hk := h.depth _ (Tree.mem_pre_self _) u hu
      rcases ih u hu hx (h.desc ⟨child_mem_pre (t := Tree.node a cs) hu, rfl⟩) with e | e
      · have : r' = u := congrArg ClusterTree.root e
        subst this
        simp only at hk ⊢; omega
      · simp only at hk e ⊢; omega

theorem front_tiles (h : ClOK c) : Tiles c.off c.fin (c.front.map ClusterTree.iv) := by
  obtain ⟨r, ps⟩ := c
  induction r using Tree.ind with
  | h a cs ih =>
    by_cases hr : 0 ≤ (ClusterTree.mk (Tree.node a cs) ps).rk
    · rw [ClusterTree.front_rank hr]; exact ⟨rfl, rfl⟩
    · have hr := not_le.1 hr
      rw [ClusterTree.front_neg hr, List.map_flatMap]
      have hl : (ClusterTree.mk (Tree.node a cs) ps).leaf = false := by
        by_contra hl
        have := h.leaf_rank (by simpa using hl)
        omega
      refine tiles_flatMap _ ClusterTree.iv _ (h.kids_tiles hl) ?_
      intro d hd
      obtain ⟨u, hu, rfl⟩ := List.mem_map.1 hd
      exact ih u hu (h.desc ⟨child_mem_pre hu, rfl⟩)

end ClOK

/-! ## The lists of clusters of the loops -/

section lists
variable {c d : ClusterTree G} {bad : Bool}

theorem clList_true (h : ClOK c) (ht : c.Top) : clList true c = c.front := by
  unfold clList
  by_cases hr : 0 ≤ c.rk
  · rw [if_pos (by simp [hr]), ClusterTree.front_rank hr]
  · have hl : c.leaf = false := by
      by_contra hl
      exact hr (h.leaf_rank (by simpa using hl))
    rw [if_neg (by simp [hr, hl]), if_pos rfl]
    unfold ClusterTree.onPart ClusterTree.front
    rw [ht.resolve_left hr]

theorem clList_false (c : ClusterTree G) : clList false c = if c.leaf then [c] else c.kids := by
  unfold clList; simp

theorem clList_tiles (h : ClOK c) (ht : c.Top) : Tiles c.off c.fin ((clList bad c).map ClusterTree.iv) := by
  cases bad with
  | true => rw [clList_true h ht]; exact h.front_tiles
  | false =>
    rw [clList_false]
    by_cases hl : c.leaf = true
    · rw [if_pos hl]; exact ⟨rfl, rfl⟩
    · rw [if_neg hl]; exact h.kids_tiles (by simpa using hl)

theorem clList_desc (h : ClOK c) (ht : c.Top) (hd : d ∈ clList bad c) : c.Desc d := by
  cases bad with
  | true => rw [clList_true h ht] at hd; exact (ClusterTree.front_desc hd).1
  | false =>
    rw [clList_false] at hd
    split_ifs at hd
    · rw [List.mem_singleton.1 hd]; exact ClusterTree.Desc.refl c
    · exact ClusterTree.kids_desc hd

/-- Below the lists all clusters have a rank, if the flag covers the cluster. -/
theorem clList_rank (h : ClOK c) (ht : c.Top) (hb : c.rk < 0 → bad = true) (hd : d ∈ clList bad c) : 0 ≤ d.rk := by
  cases bad with
  | true => rw [clList_true h ht] at hd; exact (ClusterTree.front_desc hd).2
  | false =>
    have hr : 0 ≤ c.rk := by
      by_contra hr
      exact absurd (hb (not_le.1 hr)) (by simp)
    rw [clList_false] at hd
    split_ifs at hd
    · rw [List.mem_singleton.1 hd]; exact hr
    · exact h.kid_rank hr hd

end lists

/-- Clusters of a tiling list are equal when their intervals are. -/
theorem tiling_inj {l : List (ClusterTree G)} {a b : ℕ} (ht : Tiles a b (l.map ClusterTree.iv)) (hpos : ∀ c ∈ l, 0 < c.sz)
    {c d : ClusterTree G} (hc : c ∈ l) (hd : d ∈ l) (h : c.off < d.fin ∧ d.off < c.fin) : c = d := by
  induction l generalizing a with
  | nil => simp at hc
  | cons x l ih =>
    obtain ⟨e, h2⟩ : x.off = a ∧ Tiles (a + x.sz) b (l.map ClusterTree.iv) := ht
    have hb : ∀ y ∈ l, x.fin ≤ y.off := fun y hy => by
      have := (h2.mem_bounds (List.mem_map_of_mem (f := ClusterTree.iv) hy)).1
      simp only [ClusterTree.iv] at this
      unfold ClusterTree.fin
      omega
    rcases List.mem_cons.1 hc with rfl | hc <;> rcases List.mem_cons.1 hd with rfl | hd
    · rfl
    · have := hb d hd; omega
    · have := hb c (by assumption); omega
    · exact ih h2 (fun y hy => hpos y (by simp [hy])) hc hd

/-! ## Trees of blocks -/

/-- Which half of the matrix is stored. -/
inductive Mask where
  | full | lower | upper
deriving DecidableEq

/-- The blocks which are not removed by symmetry (tree_builder.hpp 71-87). -/
def Mask.keep (m : Mask) (p q : ClusterTree G) : Bool :=
  match m with
  | .full => true
  | .lower => decide (q.off < p.fin)
  | .upper => decide (p.off < q.fin)

/-- The entries which are stored. -/
def Mask.ok (m : Mask) (i j : ℕ) : Prop :=
  match m with
  | .full => True
  | .lower => j ≤ i
  | .upper => i ≤ j

/-- How a block is divided (tree_builder.hpp 222-333 with a consistent block tree). -/
def subs (t s : ClusterTree G) : List (ClusterTree G) × List (ClusterTree G) :=
  if s.leaf then (t.kids, [s])
  else if t.leaf then ([t], s.kids)
  else if t.rk < 0 ∧ 0 ≤ s.rk then (t.front, [s])
  else if s.rk < 0 ∧ 0 ≤ t.rk then ([t], s.front)
  else (t.kids, s.kids)

/-- One block: its clusters are clusters of a cluster tree, a leaf is below the partition, a divided block has the children the builder gives. -/
structure FBlockOK (m : Mask) (P : FNode G R → Prop) (X : FTree G R) : Prop where
  prop : P X.label
  clT : ClOK X.label.t
  clS : ClOK X.label.s
  leaf : X.isHier = false → X.children = [] ∧ 0 ≤ X.label.t.rk ∧ 0 ≤ X.label.s.rk
  split : X.isHier = true → ¬ (X.label.t.leaf = true ∧ X.label.s.leaf = true) ∧
    X.children.map (fun c => (c.label.t, c.label.s)) =
      (pairs (subs X.label.t X.label.s).1 (subs X.label.t X.label.s).2).filter (fun x => m.keep x.1 x.2)

/-- A tree of blocks, with a property of all nodes. -/
def Shape (m : Mask) (P : FNode G R → Prop) (A : FTree G R) : Prop := ∀ X ∈ A.pre, FBlockOK m P X

theorem mem_pairs {α β : Type*} {l : List α} {l' : List β} {x : α × β} : x ∈ pairs l l' ↔ x.1 ∈ l ∧ x.2 ∈ l' := by
  unfold pairs
  simp only [List.mem_flatMap, List.mem_map]
  constructor
  · rintro ⟨a, ha, b, hb, rfl⟩; exact ⟨ha, hb⟩
  · rintro ⟨h1, h2⟩; exact ⟨x.1, h1, x.2, h2, rfl⟩

theorem kids_front {c p : ClusterTree G} (hr : c.rk < 0) (hp : p ∈ c.front) : ∃ d ∈ c.kids, p ∈ d.front := by
  rw [ClusterTree.front_neg hr] at hp
  exact List.mem_flatMap.1 hp

theorem self_front {c p : ClusterTree G} (hp : p ∈ c.front) : ∃ d ∈ c.front, p ∈ d.front :=
  ⟨p, hp, by rw [ClusterTree.front_rank (ClusterTree.front_desc hp).2]; simp⟩

section subs
variable {t s : ClusterTree G}

theorem subs_tiles (ht : ClOK t) (hs : ClOK s) (hl : ¬ (t.leaf = true ∧ s.leaf = true)) :
    Tiles t.off t.fin ((subs t s).1.map ClusterTree.iv) ∧ Tiles s.off s.fin ((subs t s).2.map ClusterTree.iv) := by
  have self : ∀ c : ClusterTree G, Tiles c.off c.fin ([c].map ClusterTree.iv) := fun c => ⟨rfl, rfl⟩
  unfold subs
  by_cases h1 : s.leaf = true
  · rw [if_pos h1]
    exact ⟨ht.kids_tiles (by simpa using fun h => hl ⟨h, h1⟩), self s⟩
  · rw [if_neg h1]
    by_cases h2 : t.leaf = true
    · rw [if_pos h2]; exact ⟨self t, hs.kids_tiles (by simpa using h1)⟩
    · rw [if_neg h2]
      split_ifs
      · exact ⟨ht.front_tiles, self s⟩
      · exact ⟨self t, hs.front_tiles⟩
      · exact ⟨ht.kids_tiles (by simpa using h2), hs.kids_tiles (by simpa using h1)⟩

/-- Clusters of a division are descendants, and one of the two is deeper. -/
theorem subs_desc (ht : ClOK t) (hs : ClOK s) {p q : ClusterTree G} (hp : p ∈ (subs t s).1) (hq : q ∈ (subs t s).2) :
    t.Desc p ∧ s.Desc q ∧ t.root.label.depth + s.root.label.depth < p.root.label.depth + q.root.label.depth := by
  have self : ∀ {c d : ClusterTree G}, d ∈ [c] → c.Desc d ∧ d.root.label.depth = c.root.label.depth := fun h => by
    rw [List.mem_singleton.1 h]; exact ⟨.refl _, rfl⟩
  have kid : ∀ {c d : ClusterTree G}, ClOK c → d ∈ c.kids → c.Desc d ∧ c.root.label.depth < d.root.label.depth := fun hc h =>
    ⟨ClusterTree.kids_desc h, by have := hc.kid_depth h; omega⟩
  have fr : ∀ {c d : ClusterTree G}, ClOK c → c.rk < 0 → d ∈ c.front → c.Desc d ∧ c.root.label.depth < d.root.label.depth := fun hc hr h => by
    obtain ⟨h1, h2⟩ := ClusterTree.front_desc h
    refine ⟨h1, ?_⟩
    rcases hc.desc_depth h1 with e | e
    · subst e; omega
    · exact e
  unfold subs at hp hq
  by_cases h1 : s.leaf = true
  · rw [if_pos h1] at hp hq
    have a := kid ht hp; have b := self hq
    exact ⟨a.1, b.1, by omega⟩
  · rw [if_neg h1] at hp hq
    by_cases h2 : t.leaf = true
    · rw [if_pos h2] at hp hq
      have a := self hp; have b := kid hs hq
      exact ⟨a.1, b.1, by omega⟩
    · rw [if_neg h2] at hp hq
      by_cases h3 : t.rk < 0 ∧ 0 ≤ s.rk
      · rw [if_pos h3] at hp hq
        have a := fr ht h3.1 hp; have b := self hq
        exact ⟨a.1, b.1, by omega⟩
      · rw [if_neg h3] at hp hq
        by_cases h4 : s.rk < 0 ∧ 0 ≤ t.rk
        · rw [if_pos h4] at hp hq
          have a := self hp; have b := fr hs h4.1 hq
          exact ⟨a.1, b.1, by omega⟩
        · rw [if_neg h4] at hp hq
          have a := kid ht hp; have b := kid hs hq
          exact ⟨a.1, b.1, by omega⟩

/-- Above the partition, a partition block is in exactly one part of the division. -/
theorem subs_front (ht : ClOK t) (hs : ClOK s) (hb : t.rk < 0 ∨ s.rk < 0) {p q : ClusterTree G} (hp : p ∈ t.front) (hq : q ∈ s.front) :
    (∃ d ∈ (subs t s).1, p ∈ d.front) ∧ ∃ d ∈ (subs t s).2, q ∈ d.front := by
  have self : ∀ {c p : ClusterTree G}, p ∈ c.front → ∃ d ∈ [c], p ∈ d.front := fun h => ⟨_, by simp, h⟩
  unfold subs
  by_cases h1 : s.leaf = true
  · rw [if_pos h1]
    have := hs.leaf_rank h1
    exact ⟨kids_front (by omega) hp, self hq⟩
  · rw [if_neg h1]
    by_cases h2 : t.leaf = true
    · rw [if_pos h2]
      have := ht.leaf_rank h2
      exact ⟨self hp, kids_front (by omega) hq⟩
    · rw [if_neg h2]
      split_ifs with h3 h4
      · exact ⟨self_front hp, self hq⟩
      · exact ⟨self hp, self_front hq⟩
      · exact ⟨kids_front (by omega) hp, kids_front (by omega) hq⟩

/-- Below the partition, the division is the one of the loops. -/
theorem subs_rank (h1 : 0 ≤ t.rk) (h2 : 0 ≤ s.rk) (hl : ¬ (t.leaf = true ∧ s.leaf = true)) : subs t s = (clList false t, clList false s) := by
  unfold subs
  rw [clList_false, clList_false]
  by_cases h1 : s.leaf = true
  · have : ¬ t.leaf = true := fun h => hl ⟨h, h1⟩
    rw [if_pos h1, if_pos h1, if_neg this]
  · by_cases h2 : t.leaf = true
    · rw [if_neg h1, if_pos h2, if_neg h1, if_pos h2]
    · rw [if_neg h1, if_neg h2, if_neg (by omega), if_neg (by omega), if_neg h1, if_neg h2]

end subs

theorem Mask.keep_mono {m : Mask} {p q t s : ClusterTree G} (hk : m.keep p q = true) (h1 : t.off ≤ p.off ∧ p.fin ≤ t.fin)
    (h2 : s.off ≤ q.off ∧ q.fin ≤ s.fin) : m.keep t s = true := by
  cases m with
  | full => rfl
  | lower => simp only [Mask.keep, decide_eq_true_eq] at *; omega
  | upper => simp only [Mask.keep, decide_eq_true_eq] at *; omega

/-! ## Geometry of the blocks -/

/-- The entry belongs to the block. -/
def FNode.Has (n : FNode G R) (i j : ℕ) : Prop := (n.t.off ≤ i ∧ i < n.t.fin) ∧ n.s.off ≤ j ∧ j < n.s.fin

/-- Two blocks without common entry. -/
def FNode.Disj (n n' : FNode G R) : Prop := ∀ i j, ¬ (n.Has i j ∧ n'.Has i j)

section geometry
variable {m : Mask} {P : FNode G R → Prop} {A X : FTree G R}

theorem Shape.self (h : Shape m P A) : FBlockOK m P A := h A (Tree.mem_pre_self A)

theorem Shape.sub (h : Shape m P A) (hX : X ∈ A.pre) : Shape m P X := fun Y hY => h Y (Tree.mem_pre_trans hX hY)

theorem Shape.child (h : Shape m P A) (hX : X ∈ A.children) : Shape m P X := h.sub (child_mem_pre hX)

theorem shape_iff : Shape m P A ↔ FBlockOK m P A ∧ ∀ X ∈ A.children, Shape m P X := by
  constructor
  · exact fun h => ⟨h.self, fun X hX => h.child hX⟩
  · rintro ⟨h1, h2⟩ X hX
    rcases Tree.mem_pre.1 hX with rfl | ⟨c, hc, hX⟩
    · exact h1
    · exact h2 c hc X hX

theorem Shape.hier_of_child (h : Shape m P A) (hX : X ∈ A.children) : A.isHier = true := by
  by_contra hh
  have := (h.self.leaf (by simpa using hh)).1
  rw [this] at hX; simp at hX

theorem Shape.child_desc (h : Shape m P A) (hX : X ∈ A.children) : A.label.t.Desc X.label.t ∧ A.label.s.Desc X.label.s ∧
    A.label.t.root.label.depth + A.label.s.root.label.depth < X.label.t.root.label.depth + X.label.s.root.label.depth := by
  have hh := h.hier_of_child hX
  have hm : (X.label.t, X.label.s) ∈ A.children.map (fun c => (c.label.t, c.label.s)) := List.mem_map.2 ⟨X, hX, rfl⟩
  rw [(h.self.split hh).2, List.mem_filter, mem_pairs] at hm
  exact subs_desc h.self.clT h.self.clS hm.1.1 hm.1.2

theorem Shape.pre_desc (h : Shape m P A) (hX : X ∈ A.pre) : A.label.t.Desc X.label.t ∧ A.label.s.Desc X.label.s ∧
    (X = A ∨ A.label.t.root.label.depth + A.label.s.root.label.depth < X.label.t.root.label.depth + X.label.s.root.label.depth) := by
  induction A using Tree.ind with
  | h a cs ih =>
    rcases Tree.mem_pre.1 hX with rfl | ⟨c, hc, hX⟩
    · exact ⟨.refl _, .refl _, Or.inl rfl⟩
    · obtain ⟨a1, a2, a3⟩ := h.child_desc hc
      obtain ⟨b1, b2, b3⟩ := ih c hc (h.child hc) hX
      refine ⟨a1.trans b1, a2.trans b2, Or.inr ?_⟩
      rcases b3 with rfl | b3 <;> omega

theorem Shape.pre_has (h : Shape m P A) (hX : X ∈ A.pre) {i j : ℕ} (hi : X.label.Has i j) : A.label.Has i j := by
  obtain ⟨h1, h2, -⟩ := h.pre_desc hX
  have e1 := h.self.clT.desc_bounds h1
  have e2 := h.self.clS.desc_bounds h2
  unfold FNode.Has at *
  omega

theorem pairs_pairwise {l l' : List (ClusterTree G)} {a b a' b' : ℕ} (h : Tiles a b (l.map ClusterTree.iv))
    (h' : Tiles a' b' (l'.map ClusterTree.iv)) :
    (pairs l l').Pairwise (fun x y => x.1.fin ≤ y.1.off ∨ x.2.fin ≤ y.2.off) := by
  have e1 : l.Pairwise (fun x y => x.fin ≤ y.off) := by
    have := h.pairwise; rw [List.pairwise_map] at this; exact this
  have e2 : l'.Pairwise (fun x y => x.fin ≤ y.off) := by
    have := h'.pairwise; rw [List.pairwise_map] at this; exact this
  unfold pairs
  rw [List.pairwise_flatMap]
  refine ⟨fun c _ => ?_, ?_⟩
  · rw [List.pairwise_map]
    exact e2.imp fun h => Or.inr h
  · refine e1.imp fun h x hx y hy => ?_
    obtain ⟨_, _, rfl⟩ := List.mem_map.1 hx
    obtain ⟨_, _, rfl⟩ := List.mem_map.1 hy
    exact Or.inl h

theorem Shape.children_pairwise (h : Shape m P A) : A.children.Pairwise (fun X Y => X.label.Disj Y.label) := by
  by_cases hh : A.isHier = true
  · obtain ⟨hl, hc⟩ := h.self.split hh
    obtain ⟨t1, t2⟩ := subs_tiles h.self.clT h.self.clS hl
    have := (pairs_pairwise t1 t2).filter (fun x => m.keep x.1 x.2)
    rw [← hc, List.pairwise_map] at this
    refine this.imp fun hXY i j hij => ?_
    obtain ⟨h1, h2⟩ := hij
    unfold FNode.Has at h1 h2
    simp only at hXY
    omega
  · rw [(h.self.leaf (by simpa using hh)).1]; exact List.Pairwise.nil

theorem FNode.Disj.symm {n n' : FNode G R} (h : n.Disj n') : n'.Disj n := fun i j hij => h i j ⟨hij.2, hij.1⟩

theorem Shape.children_disj (h : Shape m P A) {k k' : ℕ} {X Y : FTree G R} (hX : A.children[k]? = some X) (hY : A.children[k']? = some Y)
    (hk : k ≠ k') : X.label.Disj Y.label := by
  have hp := List.pairwise_iff_getElem.1 h.children_pairwise
  obtain ⟨h1, e1⟩ := List.getElem?_eq_some_iff.1 hX
  obtain ⟨h2, e2⟩ := List.getElem?_eq_some_iff.1 hY
  rcases Nat.lt_or_gt_of_ne hk with hlt | hlt
  · have := hp k k' h1 h2 hlt; rw [e1, e2] at this; exact this
  · have := hp k' k h2 h1 hlt; rw [e1, e2] at this; exact this.symm

theorem isBlock_eq {p q : ClusterTree G} {n : FNode G R} (h : n.isBlock p q = true) :
    p.iv = n.t.iv ∧ q.iv = n.s.iv ∧ p.root.label.depth + q.root.label.depth = n.t.root.label.depth + n.s.root.label.depth := by
  unfold FNode.isBlock ClusterTree.ceq at h
  simp only [Bool.and_eq_true, decide_eq_true_eq] at h
  obtain ⟨⟨⟨⟨a, b⟩, c⟩, -⟩, ⟨⟨d, e⟩, f⟩, -⟩ := h
  exact ⟨Prod.ext a b, Prod.ext d e, by omega⟩

theorem isBlock_self (n : FNode G R) : n.isBlock n.t n.s = true := by
  unfold FNode.isBlock ClusterTree.ceq; simp

/-- A block is at one place only. -/
theorem Shape.unique (h : Shape m P A) {p q : ClusterTree G} {π π' : List ℕ} {X Y : FTree G R} (hX : A.at? π = some X) (hY : A.at? π' = some Y)
    (bX : X.label.isBlock p q = true) (bY : Y.label.isBlock p q = true) : π = π' := by
  obtain ⟨a1, a2, a3⟩ := isBlock_eq bX
  obtain ⟨b1, b2, b3⟩ := isBlock_eq bY
  have key : ∀ π : List ℕ, ∀ A : FTree G R, Shape m P A → ∀ k, ∀ Y : FTree G R, A.at? (k :: π) = some Y →
      A.label.t.root.label.depth + A.label.s.root.label.depth < Y.label.t.root.label.depth + Y.label.s.root.label.depth := by
    intro π A hA k Y hY
    rw [Tree.at?] at hY
    cases hc : A.children[k]? with
    | none => rw [hc] at hY; exact absurd hY (by simp)
    | some c =>
      rw [hc] at hY
      have hm := List.mem_of_getElem? hc
      have e1 := (hA.child_desc hm).2.2
      rcases ((hA.child hm).pre_desc (Tree.at_mem_pre hY)).2.2 with rfl | e2 <;> omega
  induction π generalizing A π' with
  | nil =>
    cases π' with
    | nil => rfl
    | cons k π' =>
      have := key π' A h k Y hY
      rw [Tree.at?] at hX
      cases hX
      omega
  | cons k π ih =>
    cases π' with
    | nil =>
      have := key π A h k X hX
      rw [Tree.at?] at hY
      cases hY
      omega
    | cons k' π' =>
      rw [Tree.at?] at hX hY
      cases hc : A.children[k]? with
      | none => rw [hc] at hX; exact absurd hX (by simp)
      | some c =>
        cases hc' : A.children[k']? with
        | none => rw [hc'] at hY; exact absurd hY (by simp)
        | some c' =>
          rw [hc] at hX
          rw [hc'] at hY
          have m1 := List.mem_of_getElem? hc
          have m2 := List.mem_of_getElem? hc'
          by_cases hk : k = k'
          · subst hk
            rw [hc] at hc'
            cases hc'
            rw [ih (h.child m1) hX hY]
          · exfalso
            have hd := h.children_disj hc hc' hk
            have sX := (h.child m1).sub (Tree.at_mem_pre hX)
            have p1 := sX.self.clT.sz_pos
            have p2 := sX.self.clS.sz_pos
            have hasX : X.label.Has X.label.t.off X.label.s.off := by unfold FNode.Has ClusterTree.fin; omega
            have hasY : Y.label.Has X.label.t.off X.label.s.off := by
              have e1 : X.label.t.iv = Y.label.t.iv := a1.symm.trans b1
              have e2 : X.label.s.iv = Y.label.s.iv := a2.symm.trans b2
              simp only [ClusterTree.iv, Prod.mk.injEq] at e1 e2
              unfold FNode.Has ClusterTree.fin; omega
            exact hd _ _ ⟨(h.child m1).pre_has (Tree.at_mem_pre hX) hasX, (h.child m2).pre_has (Tree.at_mem_pre hY) hasY⟩

/-! ## Lookup -/

theorem bfsPathLoop_spec {α : Type*} (p : α → Bool) (q : List (List ℕ × Tree α)) :
    (∀ π, bfsPathLoop p q = some π → ∃ b ∈ q, ∃ π', π = b.1 ++ π' ∧ ∃ X, b.2.at? π' = some X ∧ p X.label = true) ∧
    (bfsPathLoop p q = none → ∀ b ∈ q, ∀ c ∈ b.2.pre, p c.label = false) := by
  induction h : Tree.countL (q.map Prod.snd) using Nat.strong_induction_on generalizing q with
  | _ n ih =>
    match q with
    | [] => simp [bfsPathLoop]
    | b :: q =>
      rw [bfsPathLoop]
      by_cases hp : p b.2.label = true
      · simp only [hp, if_true]
        refine ⟨?_, by simp⟩
        intro π hπ
        cases hπ
        exact ⟨b, by simp, [], by simp, b.2, rfl, hp⟩
      · simp only [hp]
        have e : (b.2.children.zipIdx.map (fun x => (b.1 ++ [x.2], x.1))).map Prod.snd = b.2.children := by
          rw [List.map_map]
          exact List.zipIdx_map_fst 0 b.2.children
        have hlt : Tree.countL ((q ++ b.2.children.zipIdx.map (fun x => (b.1 ++ [x.2], x.1))).map Prod.snd) < n := by
          rw [← h, List.map_append, e, Tree.countL_append, List.map_cons, Tree.countL_cons]
          cases b with
          | mk π b =>
            cases b with
            | node a cs => simp only [Tree.children_node]; rw [Tree.count_node]; omega
        obtain ⟨h1, h2⟩ := ih _ hlt _ rfl
        constructor
        · intro π hπ
          obtain ⟨b', hb', π', e1, X, e2, e3⟩ := h1 π (by simpa using hπ)
          rcases List.mem_append.1 hb' with hb' | hb'
          · exact ⟨b', by simp [hb'], π', e1, X, e2, e3⟩
          · obtain ⟨⟨c, k⟩, hx, rfl⟩ := List.mem_map.1 hb'
            have hc : b.2.children[k]? = some c := by
              have := List.mem_zipIdx_iff_getElem?.1 hx
              simpa using this
            refine ⟨b, by simp, k :: π', by rw [e1]; simp, X, ?_, e3⟩
            rw [Tree.at?]
            simp only [hc]
            exact e2
        · intro hn b' hb' c hc
          have h2 := h2 (by simpa using hn)
          rcases List.mem_cons.1 hb' with rfl | hb'
          · rcases Tree.mem_pre.1 hc with rfl | ⟨d, hd, hc⟩
            · simpa using hp
            · obtain ⟨k, hk, e⟩ := List.mem_iff_getElem.1 hd
              refine h2 (b'.1 ++ [k], d) (List.mem_append_right _ (List.mem_map.2 ⟨(d, k), ?_, rfl⟩)) c hc
              rw [List.mem_zipIdx_iff_getElem?]
              simp [List.getElem?_eq_getElem hk, e]
          · exact h2 b' (List.mem_append_left _ hb') c hc

theorem Shape.getBlock_eq (h : Shape m P A) {π : List ℕ} (hX : A.at? π = some X) :
    getBlock X.label.t X.label.s A = some X ∧ bfsPath (FNode.isBlock X.label.t X.label.s) A = some π := by
  constructor
  · obtain ⟨h1, h2⟩ := bfsLoop_spec (FNode.isBlock X.label.t X.label.s) [A]
    unfold getBlock getSub
    cases hg : bfsLoop (FNode.isBlock X.label.t X.label.s) [A] with
    | none =>
      have := h2 hg A (by simp) X (Tree.at_mem_pre hX)
      rw [isBlock_self] at this; exact absurd this (by simp)
    | some Y =>
      obtain ⟨e, b, hb, hY⟩ := h1 Y hg
      rw [List.mem_singleton.1 hb] at hY
      obtain ⟨π', hπ'⟩ := Tree.mem_pre_at hY
      have := h.unique hX hπ' (isBlock_self _) e
      subst this
      rw [hX] at hπ'; cases hπ'; rfl
  · obtain ⟨h1, h2⟩ := bfsPathLoop_spec (FNode.isBlock X.label.t X.label.s) [([], A)]
    unfold bfsPath
    cases hg : bfsPathLoop (FNode.isBlock X.label.t X.label.s) [([], A)] with
    | none =>
      have := h2 hg ([], A) (by simp) X (Tree.at_mem_pre hX)
      rw [isBlock_self] at this; exact absurd this (by simp)
    | some π' =>
      obtain ⟨b, hb, π'', e1, Y, e2, e3⟩ := h1 π' hg
      rw [List.mem_singleton.1 hb] at e1 e2
      have e1 : π' = π'' := by simpa using e1
      subst e1
      rw [h.unique hX e2 (isBlock_self _) e3]

theorem Shape.child_exists (h : Shape m P A) (hh : A.isHier = true) {p q : ClusterTree G} (hp : p ∈ (subs A.label.t A.label.s).1)
    (hq : q ∈ (subs A.label.t A.label.s).2) (hk : m.keep p q = true) : ∃ X ∈ A.children, X.label.t = p ∧ X.label.s = q := by
  have : (p, q) ∈ A.children.map (fun c => (c.label.t, c.label.s)) := by
    rw [(h.self.split hh).2, List.mem_filter, mem_pairs]
    exact ⟨⟨hp, hq⟩, hk⟩
  obtain ⟨X, hX, e⟩ := List.mem_map.1 this
  exact ⟨X, hX, congrArg Prod.fst e, congrArg Prod.snd e⟩

theorem Shape.front_exists (h : Shape m P A) {p q : ClusterTree G} (hp : p ∈ A.label.t.front) (hq : q ∈ A.label.s.front)
    (hk : m.keep p q = true) : ∃ X ∈ A.pre, X.label.t = p ∧ X.label.s = q := by
  induction A using Tree.ind with
  | h a cs ih =>
    by_cases hb : (Tree.node a cs).label.t.rk < 0 ∨ (Tree.node a cs).label.s.rk < 0
    · have hh : FTree.isHier (Tree.node a cs) = true := by
        by_contra hh
        have := (h.self.leaf (by simpa using hh)).2
        omega
      obtain ⟨⟨d, hd, hpd⟩, e, he, hqe⟩ := subs_front h.self.clT h.self.clS hb hp hq
      have o1 := (subs_desc h.self.clT h.self.clS hd he)
      have k : m.keep d e = true :=
        hk |> fun hk => Mask.keep_mono hk ((h.self.clT.desc o1.1).desc_bounds (ClusterTree.front_desc hpd).1)
          ((h.self.clS.desc o1.2.1).desc_bounds (ClusterTree.front_desc hqe).1)
      obtain ⟨c, hc, e1, e2⟩ := h.child_exists hh hd he k
      obtain ⟨X, hX, e3⟩ := ih c hc (h.child hc) (e1 ▸ hpd) (e2 ▸ hqe)
      exact ⟨X, Tree.mem_pre.2 (Or.inr ⟨c, hc, hX⟩), e3⟩
    · have hb : 0 ≤ (Tree.node a cs).label.t.rk ∧ 0 ≤ (Tree.node a cs).label.s.rk := by omega
      rw [ClusterTree.front_rank hb.1, List.mem_singleton] at hp
      rw [ClusterTree.front_rank hb.2, List.mem_singleton] at hq
      exact ⟨_, Tree.mem_pre_self _, hp.symm, hq.symm⟩

theorem bad_iff : A.bad = true ↔ A.label.t.rk < 0 ∨ A.label.s.rk < 0 := by unfold FTree.bad; simp

/-- The blocks the loops ask for exist. -/
theorem Shape.list_exists (h : Shape m P A) (t1 : A.label.t.Top) (t2 : A.label.s.Top) {bad : Bool} (hb : A.bad = true → bad = true)
    (hf : bad = true ∨ A.isHier = true) {p q : ClusterTree G} (hp : p ∈ clList bad A.label.t) (hq : q ∈ clList bad A.label.s)
    (hk : m.keep p q = true) :
    ∃ π X, A.at? π = some X ∧ X.label.t = p ∧ X.label.s = q ∧ (bad = false ∨ A.bad = true → X.ht < A.ht) ∧ (bad = true ∨ π ≠ []) := by
  cases bad with
  | true =>
    rw [clList_true h.self.clT t1] at hp
    rw [clList_true h.self.clS t2] at hq
    obtain ⟨X, hX, e1, e2⟩ := h.front_exists hp hq hk
    obtain ⟨π, hπ⟩ := Tree.mem_pre_at hX
    refine ⟨π, X, hπ, e1, e2, fun hb => ?_, Or.inl rfl⟩
    rcases Tree.ht_pre hX with e | e
    · exfalso
      subst e
      have hb := bad_iff.1 (hb.resolve_left (by simp))
      have r1 := (ClusterTree.front_desc hp).2
      have r2 := (ClusterTree.front_desc hq).2
      rw [← e1] at r1
      rw [← e2] at r2
      omega
    · exact e
  | false =>
    have hh := hf.resolve_left (by simp)
    have hr : ¬ (A.label.t.rk < 0 ∨ A.label.s.rk < 0) := fun hr => absurd (hb (bad_iff.2 hr)) (by simp)
    rw [not_or, not_lt, not_lt] at hr
    have hs := subs_rank hr.1 hr.2 (h.self.split hh).1
    obtain ⟨X, hX, e1, e2⟩ := h.child_exists hh (by rw [hs]; exact hp) (by rw [hs]; exact hq) hk
    obtain ⟨k, hk, e⟩ := List.mem_iff_getElem.1 hX
    refine ⟨[k], X, ?_, e1, e2, fun _ => Tree.ht_child hX, Or.inr (by simp)⟩
    rw [Tree.at?]
    simp only [List.getElem?_eq_getElem hk, e]
    rfl

/-! ## Modification of a block -/

/-- A block strictly above another one. -/
def FNode.Above (n x : FNode G R) : Prop :=
  n.data = .hier ∧ n.t.Desc x.t ∧ n.s.Desc x.s ∧ n.t.root.label.depth + n.s.root.label.depth < x.t.root.label.depth + x.s.root.label.depth

/-- Replacing the block at the end of a path. -/
theorem Shape.updAt' (h : Shape m P A) {π : List ℕ} (hX : A.at? π = some X) {P' : FNode G R → Prop} {f : FTree G R → Option (FTree G R)}
    {X' : FTree G R} (hf : f X = some X') (hs : Shape m P' X') (ht : X'.label.t = X.label.t) (hS : X'.label.s = X.label.s) (hht : X'.ht ≤ X.ht)
    (hP : ∀ n, P n → (n.Above X.label ∨ n.Disj X.label) → P' n) :
    ∃ A', Tree.updAt f π A = some A' ∧ Shape m P' A' ∧ A'.label.t = A.label.t ∧ A'.label.s = A.label.s ∧ A'.ht ≤ A.ht ∧
      (π ≠ [] → A'.label = A.label) := by
  induction π generalizing A with
  | nil =>
    rw [Tree.at?] at hX
    cases hX
    exact ⟨X', hf, hs, ht, hS, hht, fun h => absurd rfl h⟩
  | cons k π ih =>
    rw [Tree.at?] at hX
    cases hc : A.children[k]? with
    | none => rw [hc] at hX; exact absurd hX (by simp)
    | some c =>
      rw [hc] at hX
      have hm := List.mem_of_getElem? hc
      obtain ⟨c', e1, e2, e3, e4, e5, -⟩ := ih (h.child hm) hX
      have hh := h.hier_of_child hm
      obtain ⟨hk, ek⟩ := List.getElem?_eq_some_iff.1 hc
      refine ⟨.node A.label (A.children.set k c'), ?_, ?_, rfl, rfl, ?_, fun _ => rfl⟩
      · rw [Tree.updAt]; simp only [hc]; rw [e1]; rfl
      · refine shape_iff.2 ⟨⟨?_, h.self.clT, h.self.clS, ?_, ?_⟩, ?_⟩
        · refine hP _ h.self.prop (Or.inl ⟨?_, ?_⟩)
          · unfold FTree.isHier at hh
            split at hh
            · assumption
            · exact absurd hh (by simp)
          · have d1 := h.child_desc hm
            have d2 := (h.child hm).pre_desc (Tree.at_mem_pre hX)
            refine ⟨d1.1.trans d2.1, d1.2.1.trans d2.2.1, ?_⟩
            rcases d2.2.2 with e | e
            · rw [e]; exact d1.2.2
            · exact Nat.lt_trans d1.2.2 e
        · intro hh'
          have : A.isHier = false := hh'
          rw [hh] at this; exact absurd this (by simp)
        · intro _
          refine ⟨(h.self.split hh).1, ?_⟩
          refine Eq.trans ?_ (h.self.split hh).2
          simp only [Tree.children_node]
          rw [List.map_set]
          simp only [e3, e4]
          rw [← ek]
          apply List.ext_getElem?
          intro n
          rw [List.getElem?_set]
          by_cases hn : k = n
          · subst hn; simp [hk]
          · simp [hn]
        · intro Y hY
          obtain ⟨k', hk', eY⟩ := List.mem_iff_getElem.1 (show Y ∈ A.children.set k c' from hY)
          rw [List.getElem_set] at eY
          by_cases hkk : k = k'
          · rw [if_pos hkk] at eY; subst eY; exact e2
          · rw [if_neg hkk] at eY
            have hk'' : k' < A.children.length := by simpa using hk'
            have hYc : A.children[k']? = some Y := by rw [List.getElem?_eq_getElem hk'', eY]
            have hd := h.children_disj hc hYc hkk
            have sY := h.child (List.mem_of_getElem? hYc)
            intro Z hZ
            have bZ := sY Z hZ
            refine ⟨hP _ bZ.prop (Or.inr ?_), bZ.clT, bZ.clS, bZ.leaf, bZ.split⟩
            intro i j hij
            exact hd i j ⟨(h.child hm).pre_has (Tree.at_mem_pre hX) hij.2, sY.pre_has hZ hij.1⟩
      · have : A.ht = Tree.htL A.children + 1 := by cases A; rfl
        rw [Tree.ht, this]
        apply Nat.succ_le_succ
        apply Tree.htL_le
        intro Y hY
        rcases List.mem_or_eq_of_mem_set hY with hY | rfl
        · exact Tree.ht_le_htL hY
        · exact Nat.le_trans e5 (Tree.ht_le_htL hm)

/-- Same, with a weaker hypothesis on the blocks above. -/
theorem Shape.updAt (h : Shape m P A) {π : List ℕ} (hX : A.at? π = some X) {P' : FNode G R → Prop} {f : FTree G R → Option (FTree G R)}
    {X' : FTree G R} (hf : f X = some X') (hs : Shape m P' X') (ht : X'.label.t = X.label.t) (hS : X'.label.s = X.label.s) (hht : X'.ht ≤ X.ht)
    (hP : ∀ n, P n → (n.data = .hier ∨ n.Disj X.label) → P' n) :
    ∃ A', Tree.updAt f π A = some A' ∧ Shape m P' A' ∧ A'.label.t = A.label.t ∧ A'.label.s = A.label.s ∧ A'.ht ≤ A.ht ∧
      (π ≠ [] → A'.label = A.label) :=
  h.updAt' hX hf hs ht hS hht fun n hn hd => hP n hn (hd.imp And.left id)

/-- `get_sub_hmatrix` finds the blocks the loops ask for, and modifying one of them modifies the matrix there and nowhere else. -/
theorem Shape.focus' (h : Shape m P A) (t1 : A.label.t.Top) (t2 : A.label.s.Top) {bad : Bool} (hb : A.bad = true → bad = true)
    (hf : bad = true ∨ A.isHier = true) {p q : ClusterTree G} (hp : p ∈ clList bad A.label.t) (hq : q ∈ clList bad A.label.s)
    (hk : m.keep p q = true) :
    ∃ X, Shape m P X ∧ X.label.t = p ∧ X.label.s = q ∧ X.ht ≤ A.ht ∧ (bad = false ∨ A.bad = true → X.ht < A.ht) ∧ getBlock p q A = some X ∧
      ∀ (f : FTree G R → Option (FTree G R)) (P' : FNode G R → Prop) (X' : FTree G R), f X = some X' → Shape m P' X' →
        X'.label.t = p → X'.label.s = q → X'.ht ≤ X.ht → (∀ n, P n → (n.Above X.label ∨ n.Disj X.label) → P' n) →
        ∃ A', updSub p q f A = some A' ∧ Shape m P' A' ∧ A'.label.t = A.label.t ∧ A'.label.s = A.label.s ∧ A'.ht ≤ A.ht ∧
          (bad = true ∨ A'.isHier = true) := by
  obtain ⟨π, X, hX, e1, e2, hlt, hπ⟩ := h.list_exists t1 t2 hb hf hp hq hk
  obtain ⟨g1, g2⟩ := h.getBlock_eq hX
  rw [e1, e2] at g1 g2
  have hle : X.ht ≤ A.ht := by
    rcases Tree.ht_pre (Tree.at_mem_pre hX) with e | e
    · rw [e]
    · exact Nat.le_of_lt e
  refine ⟨X, h.sub (Tree.at_mem_pre hX), e1, e2, hle, hlt, g1, ?_⟩
  intro f P' X' hfX hs ht hS hht hP
  obtain ⟨A', u1, u2, u3, u4, u5, u6⟩ := h.updAt' hX hfX hs (ht.trans e1.symm) (hS.trans e2.symm) hht hP
  refine ⟨A', ?_, u2, u3, u4, u5, ?_⟩
  · unfold updSub; rw [g2]; exact u1
  · rcases hπ with hπ | hπ
    · exact Or.inl hπ
    · rcases hf with hf | hf
      · exact Or.inl hf
      · right
        unfold FTree.isHier at hf ⊢
        rw [u6 hπ]; exact hf

/-- Same as `focus'`: `get_sub_hmatrix` finds the blocks the loops ask for, and modifying one of them modifies the matrix there and nowhere else. -/
theorem Shape.focus (h : Shape m P A) (t1 : A.label.t.Top) (t2 : A.label.s.Top) {bad : Bool} (hb : A.bad = true → bad = true)
    (hf : bad = true ∨ A.isHier = true) {p q : ClusterTree G} (hp : p ∈ clList bad A.label.t) (hq : q ∈ clList bad A.label.s)
    (hk : m.keep p q = true) :
    ∃ X, Shape m P X ∧ X.label.t = p ∧ X.label.s = q ∧ X.ht ≤ A.ht ∧ (bad = false ∨ A.bad = true → X.ht < A.ht) ∧ getBlock p q A = some X ∧
      ∀ (f : FTree G R → Option (FTree G R)) (P' : FNode G R → Prop) (X' : FTree G R), f X = some X' → Shape m P' X' →
        X'.label.t = p → X'.label.s = q → X'.ht ≤ X.ht → (∀ n, P n → (n.data = .hier ∨ n.Disj X.label) → P' n) →
        ∃ A', updSub p q f A = some A' ∧ Shape m P' A' ∧ A'.label.t = A.label.t ∧ A'.label.s = A.label.s ∧ A'.ht ≤ A.ht ∧
          (bad = true ∨ A'.isHier = true) := by
  obtain ⟨X, x1, x2, x3, x4, x5, x6, x7⟩ := h.focus' t1 t2 hb hf hp hq hk
  exact ⟨X, x1, x2, x3, x4, x5, x6, fun f P' X' a b c d e g => x7 f P' X' a b c d e fun n hn hd => g n hn (hd.imp And.left id)⟩

end geometry

end Htool
