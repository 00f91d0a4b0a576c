import Verif.BlockLemmas

/-! # Symmetric block trees and the target partition -/

namespace Htool
variable {G : Type*}
open Htool.Tree (iv)

/-- All clusters are non-empty. -/
def ClusterTree.Pos (ct : ClusterTree G) : Prop := ∀ x ∈ ct.root.pre, 0 < x.sz

theorem ClusterTree.WF.contained {ct : ClusterTree G} (h : ct.WF) :
    ∀ {t x : CTree G}, t ∈ ct.root.pre → x ∈ t.pre → t.off ≤ x.off ∧ x.fin ≤ t.fin := by
  intro t
  induction t using Tree.ind with
  | h a cs ih =>
    intro x ht hx
    rcases Tree.mem_pre.1 hx with rfl | ⟨c, hc, hx'⟩
    · exact ⟨le_refl _, le_refl _⟩
    · have h1 := ih c hc (Tree.mem_pre_trans ht (child_mem_pre hc)) hx'
      have h2 := (h.hier _ ht (List.ne_nil_of_mem hc)).mem_bounds
        (List.mem_map_of_mem (f := iv) hc)
      have h3 : (Tree.node a cs).off ≤ c.off := h2.1
      have h4 : c.fin ≤ (Tree.node a cs).fin := h2.2
      omega

theorem ClusterTree.WF.part_unique {ct : ClusterTree G} (h : ct.WF) {p : ℕ} {P u : CTree G}
    (hP : ct.parts[p]? = some P) (hu : u ∈ ct.parts) (hr : u.rk = (p : ℤ)) : u = P := by
  obtain ⟨q, hq, hqu⟩ := List.getElem_of_mem hu
  have := h.parts_rank q u (List.getElem?_eq_some_iff.2 ⟨hq, hqu⟩) u (Tree.mem_pre_self _)
  have hpq : p = q := by omega
  subst hpq
  obtain ⟨_, hp2⟩ := List.getElem?_eq_some_iff.1 hP
  rw [← hqu, hp2]

/-- Clusters of different ranks are disjoint. -/
theorem ClusterTree.WF.disjoint_parts {ct : ClusterTree G} (h : ct.WF) {p q : ℕ} {P Q : CTree G}
    (hP : ct.parts[p]? = some P) (hQ : ct.parts[q]? = some Q) (hpq : p ≠ q) :
    P.fin ≤ Q.off ∨ Q.fin ≤ P.off := by
  have hpw := h.parts_tiles.pairwise
  rw [List.pairwise_map, List.pairwise_iff_getElem] at hpw
  obtain ⟨hp1, rfl⟩ := List.getElem?_eq_some_iff.1 hP
  obtain ⟨hq1, rfl⟩ := List.getElem?_eq_some_iff.1 hQ
  rcases lt_or_gt_of_ne hpq with hlt | hlt
  · exact Or.inl (hpw p q hp1 hq1 hlt)
  · exact Or.inr (hpw q p hq1 hp1 hlt)

theorem ind_zero_of {i : ℕ} {t : CTree G} (h : ¬ (t.off ≤ i ∧ i < t.fin)) : ind i t.iv = 0 := if_neg h

theorem ind_eq_one {i : ℕ} {t : CTree G} : ind i t.iv = 1 ↔ t.off ≤ i ∧ i < t.fin := by
  unfold ind InIv
  show (if t.off ≤ i ∧ i < t.fin then 1 else 0) = 1 ↔ _
  split_ifs with h <;> simp [h]

theorem ind_cases (i : ℕ) (x : ℕ × ℕ) : ind i x = 0 ∨ ind i x = 1 := by
  unfold ind; split_ifs <;> simp

theorem buildBlockTree_label {E : BEnv G} {f : ℕ} {t s : CTree G} {b : BTree G}
    (h : buildBlockTree E f t s = some b) : b.label.t = t ∧ b.label.s = s ∧ b.label.sym = E.symFlag t s := by
  obtain ⟨f', -, h⟩ := buildBlockTree_inv h
  rcases h with ⟨-, rfl⟩ | ⟨-, rfl⟩ | ⟨l, cs, -, rfl, -⟩ <;> exact ⟨rfl, rfl, rfl⟩

/-- Every block of the recursion: clusters of the two trees, flag, and why it is admissible or dense. -/
theorem buildBlockTree_nodes {E : BEnv G} (hT : E.tct.WF) (hS : E.sct.WF) :
    ∀ (f : ℕ) (t s : CTree G) (b : BTree G), t ∈ E.tct.root.pre → s ∈ E.sct.root.pre →
      buildBlockTree E f t s = some b → ∀ c ∈ b.pre,
        c.label.t ∈ t.pre ∧ c.label.s ∈ s.pre ∧ c.label.sym = E.symFlag c.label.t c.label.s ∧
        (c.label.kind = .adm → E.isAdmTask c.label.t c.label.s = true ∧ c.children = []) ∧
        (c.label.kind = .dense → c.label.t.isLeaf = true ∧ c.label.s.isLeaf = true ∧ c.children = [] ∧
          E.isAdmTask c.label.t c.label.s = false) := by
  intro f
  induction f with
  | zero => intro t s b _ _ h; simp [buildBlockTree] at h
  | succ f ih =>
    intro t s b ht hs h c hc
    obtain ⟨f', hf, h⟩ := buildBlockTree_inv h
    obtain rfl : f = f' := by omega
    rcases h with ⟨hz, rfl⟩ | ⟨hz, rfl⟩ | ⟨l, cs, hst, rfl, hcs⟩
    · rcases Tree.mem_pre.1 hc with rfl | ⟨d, hd, -⟩
      · refine ⟨Tree.mem_pre_self _, Tree.mem_pre_self _, rfl, fun _ => ⟨?_, rfl⟩, fun h => by simp at h⟩
        unfold BEnv.step at hz
        by_contra hn
        simp only [Tree.label_node] at hn
        rw [if_neg hn] at hz
        repeat' split at hz
        all_goals simp at hz
      · simp at hd
    · rcases Tree.mem_pre.1 hc with rfl | ⟨d, hd, -⟩
      · have hA : E.isAdmTask t s = false := by
          unfold BEnv.step at hz
          by_contra hn
          rw [if_pos (by simpa using hn)] at hz; simp at hz
        refine ⟨Tree.mem_pre_self _, Tree.mem_pre_self _, rfl, fun h => by simp at h, fun _ => ?_⟩
        have : s.isLeaf && t.isLeaf := by
          unfold BEnv.step at hz
          by_contra hn
          rw [hA, if_neg (by simp), if_neg hn] at hz
          repeat' split at hz
          all_goals simp at hz
        simp only [Bool.and_eq_true] at this
        exact ⟨this.2, this.1, rfl, hA⟩
      · simp at hd
    · rcases Tree.mem_pre.1 hc with rfl | ⟨d, hd, hc⟩
      · exact ⟨Tree.mem_pre_self _, Tree.mem_pre_self _, rfl, fun h => by simp at h, fun h => by simp at h⟩
      · obtain ⟨⟨u, v⟩, hx, hxd⟩ := forall₂_mem_right hcs hd
        obtain ⟨ts, ss, g, rfl, hI⟩ := step_split hT hS ht hs hst
        have hm := pair_mem_pairs.1 (List.mem_filter.1 hx).1
        have hu := hI.ts_mem u hm.1
        have hv := hI.ss_mem v hm.2
        obtain ⟨a1, a2, a3, a4, a5⟩ := ih u v d (Tree.mem_pre_trans ht hu) (Tree.mem_pre_trans hs hv) hxd c hc
        exact ⟨Tree.mem_pre_trans hu a1, Tree.mem_pre_trans hv a2, a3, a4, a5⟩

theorem leaves_sub_pre {α : Type*} {b c : Tree α} (h : c ∈ b.leaves) : c ∈ b.pre :=
  ((Tree.mem_leaves_iff b c).1 h).1

theorem symLeaves_true_eq (b : BTree G) (h : ∀ c ∈ b.leaves, c.label.offDiag = true) :
    symLeaves true b = b.leaves := by
  induction b using Tree.ind with
  | h a cs ih =>
    by_cases hc : cs = []
    · subst hc
      rw [symLeaves_leaf]
      have := h (Tree.node a []) (by simp [Tree.leaves])
      simp only [Tree.label_node] at this
      simp [this, Tree.leaves]
    · rw [symLeaves_node _ _ hc, Tree.leaves_node_ne hc, Tree.leavesL_eq, Bool.or_true]
      apply List.flatMap_congr
      intro c hcm
      apply ih c hcm
      intro d hd
      apply h
      rw [Tree.leaves_node_ne hc, Tree.leavesL_eq, List.mem_flatMap]
      exact ⟨c, hcm, hd⟩

theorem symLeaves_false_eq (b : BTree G) (h : ∀ c ∈ b.pre, c.label.sym = false) : symLeaves false b = [] := by
  induction b using Tree.ind with
  | h a cs ih =>
    by_cases hc : cs = []
    · subst hc; rw [symLeaves_leaf]; simp
    · have h0 : a.sym = false := h _ (Tree.mem_pre_self _)
      rw [symLeaves_node _ _ hc, h0, Bool.or_false, List.flatMap_eq_nil_iff]
      intro c hcm
      exact ih c hcm (fun d hd => h d (Tree.mem_pre.2 (Or.inr ⟨c, hcm, hd⟩)))

/-- Sum over a filtered double loop. -/
theorem sum_filter_pairs {α β : Type*} (ts : List α) (ss : List β) (g : α × β → Bool) (f : α × β → ℕ) :
    (((pairs ts ss).filter g).map f).sum =
      (ts.map (fun a => (ss.map (fun b => if g (a, b) then f (a, b) else 0)).sum)).sum := by
  have : ∀ l : List (α × β), ((l.filter g).map f).sum = (l.map (fun x => if g x then f x else 0)).sum := by
    intro l
    induction l with
    | nil => rfl
    | cons x l ih =>
      rw [List.filter_cons]
      by_cases h : g x = true <;> simp [h, ih]
  rw [this, product_sum]

/-- Double sum over an ordered list when each unordered pair contributes once. -/
theorem tri_sum {α : Type*} (R : α → α → Prop) (H : α → α → ℕ) (x y : α → ℕ) (l : List α)
    (hp : l.Pairwise R) (hd : ∀ c ∈ l, H c c = x c * y c)
    (ho : ∀ c ∈ l, ∀ d ∈ l, R c d → H c d + H d c = x c * y d + x d * y c) :
    (l.map (fun a => (l.map (fun b => H a b)).sum)).sum = (l.map x).sum * (l.map y).sum := by
  induction l with
  | nil => rfl
  | cons c l ih =>
    obtain ⟨hc, hl⟩ := List.pairwise_cons.1 hp
    have ih := ih hl (fun a ha => hd a (by simp [ha])) (fun a ha b hb => ho a (by simp [ha]) b (by simp [hb]))
    simp only [List.map_cons, List.sum_cons]
    rw [List.sum_map_add, ih, hd c (by simp)]
    have hcross : (l.map (fun b => H c b)).sum + (l.map (fun a => H a c)).sum =
        x c * (l.map y).sum + (l.map x).sum * y c := by
      rw [← List.sum_map_add, ← List.sum_map_mul_left, ← List.sum_map_mul_right, ← List.sum_map_add]
      congr 1
      apply List.map_congr_left
      intro d hdm
      exact ho c (by simp) d (by simp [hdm]) (hc d hdm)
    linarith [hcross]

/-- What `removed` is inside a symmetric diagonal block. -/
def BEnv.remIn (E : BEnv G) (u v : CTree G) : Prop :=
  (E.uplo = .L ∧ u.fin ≤ v.off) ∨ (E.uplo = .U ∧ v.fin ≤ u.off)

theorem step_diag {E : BEnv G} (hc : E.consistent = true) (a : CTree G) :
    E.step a a = .adm ∨ E.step a a = .dense ∨
    (a.children ≠ [] ∧ E.step a a =
      .split ((pairs a.children a.children).filter (fun x => E.guardT x.1 x.2))) := by
  unfold BEnv.step
  by_cases h1 : E.isAdmTask a a = true
  · left; rw [if_pos h1]
  · by_cases h2 : a.isLeaf = true
    · right; left; rw [if_neg h1, if_pos (by simp [h2])]
    · right; right
      refine ⟨isLeaf_false.1 (by simpa using h2), ?_⟩
      rw [if_neg h1, if_neg (by simp [h2]), if_neg h2, if_neg h2, if_pos hc, if_neg (by omega), if_neg (by omega)]

/-- A diagonal block: leaves and mirrored leaves cover it exactly once. -/
theorem diag_cover {E : BEnv G} (hT : E.tct.WF) (hE : E.sct = E.tct) (hpos : E.tct.Pos)
    (hcons : E.consistent = true) (hsym : E.sym ≠ .N) (huplo : E.uplo ≠ .N) :
    ∀ (f : ℕ) (a : CTree G) (b : BTree G), a ∈ E.tct.root.pre → (∀ u ∈ a.pre, E.inPart u = true) →
      (∀ u ∈ a.pre, ∀ v ∈ a.pre, E.removed u v = true ↔ E.remIn u v) →
      buildBlockTree E f a a = some b → ∀ fl,
      (∀ c ∈ b.leaves, c.label.isData) ∧
      ∀ i j, cover b.leaves i j + cover (symLeaves fl b) j i = ind i a.iv * ind j a.iv := by
  have hS : E.sct.WF := hE ▸ hT
  intro f
  induction f with
  | zero => intro a b _ _ _ h; simp [buildBlockTree] at h
  | succ f ih =>
    intro a b ha hP hR h fl
    obtain ⟨f', hf, h⟩ := buildBlockTree_inv h
    obtain rfl : f = f' := by omega
    rcases h with ⟨-, rfl⟩ | ⟨-, rfl⟩ | ⟨l, cs, hst, rfl, hcs⟩
    · simp [Tree.leaves, BNode.isData, symLeaves_leaf, BNode.offDiag]
    · simp [Tree.leaves, BNode.isData, symLeaves_leaf, BNode.offDiag]
    · rcases step_diag hcons a with h | h | ⟨hne, h⟩
      · rw [h] at hst; simp at hst
      · rw [h] at hst; simp at hst
      · rw [h] at hst
        injection hst with hst
        subst hst
        have hmem : ∀ u ∈ a.children, u ∈ a.pre := fun u hu => child_mem_pre hu
        have hroot : ∀ u ∈ a.children, u ∈ E.tct.root.pre := fun u hu => Tree.mem_pre_trans ha (hmem u hu)
        have htl := hT.hier a ha hne
        have hpw : a.children.Pairwise (fun u v => u.fin ≤ v.off) := by
          have := htl.pairwise; rw [List.pairwise_map] at this; exact this
        have hgt : ∀ u ∈ a.children, ∀ v ∈ a.children, E.guardT u v = true ↔ ¬ E.remIn u v := by
          intro u hu v hv
          rw [← hR u (hmem u hu) v (hmem v hv)]
          simp [BEnv.guardT, hP u (hmem u hu)]
        -- a kept off-diagonal block
        have hoff : ∀ u ∈ a.children, ∀ v ∈ a.children, ¬ E.remIn u v →
            (v.fin ≤ u.off ∧ E.uplo = .L ∨ u.fin ≤ v.off ∧ E.uplo = .U) →
            ∀ c, buildBlockTree E f u v = some c →
            (∀ d ∈ c.leaves, d.label.isData) ∧ symLeaves true c = c.leaves ∧
            ∀ i j, cover c.leaves i j = ind i u.iv * ind j v.iv := by
          intro u hu v hv _ hord c hc
          have hb : ∀ u' ∈ u.pre, ∀ v' ∈ v.pre, ¬ E.remIn u' v' ∧ u'.off ≠ v'.off := by
            intro u' hu' v' hv'
            have b1 := hT.contained (hroot u hu) hu'
            have b2 := hT.contained (hroot v hv) hv'
            have p1 := hpos u' (Tree.mem_pre_trans (hroot u hu) hu')
            have p2 := hpos v' (Tree.mem_pre_trans (hroot v hv) hv')
            unfold Tree.fin at *
            rcases hord with ⟨ho, hL⟩ | ⟨ho, hU⟩
            · refine ⟨?_, by omega⟩
              rintro (⟨-, h⟩ | ⟨h, -⟩)
              · unfold Tree.fin at h; omega
              · rw [hL] at h; simp at h
            · refine ⟨?_, by omega⟩
              rintro (⟨h, -⟩ | ⟨-, h⟩)
              · rw [hU] at h; simp at h
              · unfold Tree.fin at h; omega
          obtain ⟨-, -, a1, a2, a3⟩ := full_cover hT hS f u v c (hroot u hu) (hE ▸ hroot v hv)
            (fun w hw => hP w (Tree.mem_pre_trans (hmem u hu) hw))
            (fun w hw z hz => by
              have := (hb w hw z hz).1
              rw [← hR w (Tree.mem_pre_trans (hmem u hu) hw) z (Tree.mem_pre_trans (hmem v hv) hz)] at this
              simpa using this) hc
          refine ⟨a1, symLeaves_true_eq c ?_, a2⟩
          intro d hd
          have := (hb _ (a3 d hd).1 _ (a3 d hd).2).2
          simpa [BNode.offDiag] using this
        -- order of two children
        have hself : ∀ u ∈ a.children, ¬ E.remIn u u := by
          intro u hu
          have p1 := hpos u (hroot u hu)
          rintro (⟨-, h⟩ | ⟨-, h⟩) <;> (unfold Tree.fin at h; omega)
        have hidx : ∀ u ∈ a.children, ∀ v ∈ a.children, u = v ∨ u.fin ≤ v.off ∨ v.fin ≤ u.off := by
          intro u hu v hv
          obtain ⟨m, hm, rfl⟩ := List.getElem_of_mem hu
          obtain ⟨n, hn, rfl⟩ := List.getElem_of_mem hv
          rw [List.pairwise_iff_getElem] at hpw
          rcases lt_trichotomy m n with hlt | rfl | hlt
          · exact Or.inr (Or.inl (hpw m n hm hn hlt))
          · exact Or.inl rfl
          · exact Or.inr (Or.inr (hpw n m hn hm hlt))
        have hcase : ∀ u ∈ a.children, ∀ v ∈ a.children, ¬ E.remIn u v → u ≠ v →
            (v.fin ≤ u.off ∧ E.uplo = .L ∨ u.fin ≤ v.off ∧ E.uplo = .U) := by
          intro u hu v hv hk hne
          have hlu : E.uplo = .L ∨ E.uplo = .U := by
            cases h : E.uplo with
            | N => exact absurd h huplo
            | L => exact Or.inl rfl
            | U => exact Or.inr rfl
          rcases hidx u hu v hv with h | h | h
          · exact absurd h hne
          · rcases hlu with hl | hl
            · exact absurd (Or.inl ⟨hl, h⟩) hk
            · exact Or.inr ⟨h, hl⟩
          · rcases hlu with hl | hl
            · exact Or.inl ⟨h, hl⟩
            · exact absurd (Or.inr ⟨hl, h⟩) hk
        have hcsne : cs ≠ [] := by
          obtain ⟨u, us, hus⟩ := List.exists_cons_of_ne_nil hne
          intro h0
          subst h0
          have hu : u ∈ a.children := by rw [hus]; simp
          have h1 : (u, u) ∈ (pairs a.children a.children).filter (fun x => E.guardT x.1 x.2) :=
            List.mem_filter.2 ⟨pair_mem_pairs.2 ⟨hu, hu⟩, (hgt u hu u hu).2 (hself u hu)⟩
          have := hcs.length_eq
          simp only [List.length_nil, List.length_eq_zero_iff] at this
          rw [this] at h1; simp at h1
        have hfl : (E.symFlag a a || fl) = true := by simp [BEnv.symFlag, hsym]
        rw [symLeaves_node _ _ hcsne]
        simp only [hfl]
        rw [Tree.leaves_node_ne hcsne, Tree.leavesL_eq]
        refine ⟨?_, ?_⟩
        · intro c hc
          rw [List.mem_flatMap] at hc
          obtain ⟨d, hd, hc⟩ := hc
          obtain ⟨⟨u, v⟩, hx, hxd⟩ := forall₂_mem_right hcs hd
          have hf := List.mem_filter.1 hx
          have hm := pair_mem_pairs.1 hf.1
          have hk := (hgt u hm.1 v hm.2).1 hf.2
          by_cases huv : u = v
          · subst huv
            exact (ih u d (hroot u hm.1) (fun w hw => hP w (Tree.mem_pre_trans (hmem u hm.1) hw))
              (fun w hw z hz => hR w (Tree.mem_pre_trans (hmem u hm.1) hw) z (Tree.mem_pre_trans (hmem u hm.1) hz))
              hxd true).1 c hc
          · exact (hoff u hm.1 v hm.2 hk (hcase u hm.1 v hm.2 hk huv) d hxd).1 c hc
        · intro i j
          classical
          rw [cover_flatMap, cover_flatMap, ← List.sum_map_add]
          rw [forall₂_sum hcs (fun x => if x.1 = x.2 then ind i x.1.iv * ind j x.1.iv
              else ind i x.1.iv * ind j x.2.iv + ind j x.1.iv * ind i x.2.iv) _ (by
            rintro ⟨u, v⟩ hx c hxc
            have hf := List.mem_filter.1 hx
            have hm := pair_mem_pairs.1 hf.1
            have hk := (hgt u hm.1 v hm.2).1 hf.2
            by_cases huv : u = v
            · subst huv
              simp only [if_true]
              exact (ih u c (hroot u hm.1) (fun w hw => hP w (Tree.mem_pre_trans (hmem u hm.1) hw))
                (fun w hw z hz => hR w (Tree.mem_pre_trans (hmem u hm.1) hw) z (Tree.mem_pre_trans (hmem u hm.1) hz))
                hxc true).2 i j
            · obtain ⟨-, q2, q3⟩ := hoff u hm.1 v hm.2 hk (hcase u hm.1 v hm.2 hk huv) c hxc
              simp only [huv, if_false]
              rw [q2, q3, q3])]
          rw [sum_filter_pairs]
          have := tri_sum (fun u v : CTree G => u.fin ≤ v.off)
            (fun u v => if E.guardT u v = true then (if u = v then ind i u.iv * ind j u.iv
              else ind i u.iv * ind j v.iv + ind j u.iv * ind i v.iv) else 0)
            (fun u => ind i u.iv) (fun u => ind j u.iv) a.children hpw ?_ ?_
          · rw [ind_sum_iv htl, ind_sum_iv htl] at this
            rw [← this]
          · intro u hu
            rw [if_pos ((hgt u hu u hu).2 (hself u hu)), if_pos rfl]
          · intro u hu v hv huv
            have p1 := hpos u (hroot u hu)
            have p2 := hpos v (hroot v hv)
            have hne' : u ≠ v := by rintro rfl; unfold Tree.fin at huv; omega
            have hne2 : v ≠ u := fun h => hne' h.symm
            rw [if_neg hne', if_neg hne2]
            rcases (show E.uplo = .L ∨ E.uplo = .U by
              cases h : E.uplo with
              | N => exact absurd h huplo
              | L => exact Or.inl rfl
              | U => exact Or.inr rfl) with hl | hl
            · have k1 : ¬ (E.guardT u v = true) := by
                rw [hgt u hu v hv]; exact fun h => h (Or.inl ⟨hl, huv⟩)
              have k2 : E.guardT v u = true := by
                rw [hgt v hv u hu]
                rintro (⟨-, h⟩ | ⟨h, -⟩)
                · unfold Tree.fin at *; omega
                · rw [hl] at h; simp at h
              rw [if_neg k1, if_pos k2]; ring
            · have k1 : ¬ (E.guardT v u = true) := by
                rw [hgt v hv u hu]; exact fun h => h (Or.inr ⟨hl, huv⟩)
              have k2 : E.guardT u v = true := by
                rw [hgt u hu v hv]
                rintro (⟨h, -⟩ | ⟨-, h⟩)
                · rw [hl] at h; simp at h
                · unfold Tree.fin at *; omega
              rw [if_neg k1, if_pos k2]; ring

/-- `new_root_children`, recursively. -/
def gather (p : ℕ) : BTree G → List (BTree G)
  | .node _ cs => go cs
where
  /-- forest version -/
  go : List (BTree G) → List (BTree G)
  | [] => []
  | c :: cs => (if c.label.t.rk = (p : ℤ) then [c] else gather p c) ++ go cs

theorem gather_node (p : ℕ) (a : BNode G) (cs : List (BTree G)) :
    gather p (.node a cs) = cs.flatMap (fun c => if c.label.t.rk = (p : ℤ) then [c] else gather p c) := by
  rw [gather]
  induction cs with
  | nil => rfl
  | cons c cs ih => simp [gather.go, ih]

theorem gatherLoop_perm (p : ℕ) (st : List (BTree G)) : (gatherLoop p st).Perm (st.flatMap (gather p)) := by
  induction h : Tree.countL st using Nat.strong_induction_on generalizing st with
  | _ n ih =>
    match st with
    | [] => simp [gatherLoop]
    | .node a cs :: rest =>
      rw [gatherLoop, Tree.pushAll_eq]
      simp only [Tree.children_node]
      set q : BTree G → Bool := fun c => decide (c.label.t.rk = (p : ℤ)) with hq
      have hcount : ∀ (l : List (BTree G)) (q : BTree G → Bool), Tree.countL (l.filter q) ≤ Tree.countL l := by
        intro l q
        induction l with
        | nil => simp
        | cons a l ih =>
          rw [List.filter_cons]
          split
          · simp; omega
          · simp; omega
      have hlt : Tree.countL ((cs.filter (fun c => !q c)).reverse ++ rest) < n := by
        subst h
        have := hcount cs (fun c => !q c)
        simp only [Tree.countL_append, Tree.countL_reverse, Tree.countL_cons, Tree.count_node]
        omega
      have h1 := ih _ hlt _ rfl
      rw [List.flatMap_append] at h1
      rw [List.flatMap_cons, gather_node]
      have h2 : (cs.filter q ++ (cs.filter (fun c => !q c)).flatMap (gather p)).Perm
          (cs.flatMap (fun c => if c.label.t.rk = (p : ℤ) then [c] else gather p c)) := by
        clear h1 hlt h ih
        induction cs with
        | nil => simp
        | cons c cs ihc =>
          rw [List.flatMap_cons]
          by_cases hc : c.label.t.rk = (p : ℤ)
          · have hqc : q c = true := by simp [hq, hc]
            rw [List.filter_cons_of_pos hqc, List.filter_cons_of_neg (by simp [hqc]), if_pos hc]
            exact List.Perm.cons _ ihc
          · have hqc : q c = false := by simp [hq, hc]
            rw [List.filter_cons_of_neg (by simp [hqc]), List.filter_cons_of_pos (by simp [hqc]), if_neg hc,
              List.flatMap_cons]
            refine List.Perm.trans ?_ (List.Perm.append_left _ ihc)
            rw [← List.append_assoc, ← List.append_assoc]
            exact List.Perm.append_right _ List.perm_append_comm
      refine (List.Perm.append_left _ h1).trans ?_
      rw [← List.append_assoc]
      refine List.Perm.append_right _ (List.Perm.trans ?_ h2)
      exact List.Perm.append_left _ (flatMap_reverse_perm _ _)

/-- A source cluster not strictly below the partition. -/
def ClusterTree.Upper (ct : ClusterTree G) (s : CTree G) : Prop := s.rk < 0 ∨ s ∈ ct.parts

/-- The blocks gathered by `reset_root_of_block_tree`: all have the partition cluster as target, and for rows of that cluster they
cover each entry exactly once. -/
theorem gather_cover {E : BEnv G} (hT : E.tct.WF) (hS : E.sct.WF) {p : ℕ} {P : CTree G} (htp : E.tp = some p)
    (hP : E.tct.parts[p]? = some P) :
    ∀ (f : ℕ) (t s : CTree G) (b : BTree G), t ∈ E.tct.root.pre → s ∈ E.sct.root.pre → t.rk < 0 →
      (∀ u ∈ t.pre, (u = P ∨ u.rk < 0) → ∀ v ∈ s.pre, E.removed u v = false) →
      buildBlockTree E f t s = some b →
      (∀ g ∈ gather p b, g ∈ b.pre ∧ g.label.t = P ∧ g.label.s ∈ s.pre ∧
        (E.sct.Upper s → E.sct.Upper g.label.s) ∧
        ∃ f', buildBlockTree E f' P g.label.s = some g) ∧
      ∀ i j, ind i P.iv = 1 → cover (gather p b) i j = ind i t.iv * ind j s.iv := by
  intro f
  induction f with
  | zero => intro t s b _ _ _ _ h; simp [buildBlockTree] at h
  | succ f ih =>
    intro t s b ht hs htr hR h
    obtain ⟨f', hf, h⟩ := buildBlockTree_inv h
    obtain rfl : f = f' := by omega
    have hinP : ∀ u : CTree G, E.inPart u = true ↔ u.rk = (p : ℤ) := by intro u; simp [BEnv.inPart, htp]
    rcases h with ⟨hz, rfl⟩ | ⟨hz, rfl⟩ | ⟨l, cs, hst, rfl, hcs⟩
    · exfalso
      unfold BEnv.step at hz
      by_cases hA : E.isAdmTask t s = true
      · have : 0 ≤ t.rk := by
          simp only [BEnv.isAdmTask, Bool.and_eq_true, decide_eq_true_eq] at hA; exact hA.1.2
        omega
      · rw [if_neg hA] at hz
        repeat' split at hz
        all_goals simp at hz
    · exfalso
      have hl : t.isLeaf = false := isLeaf_false.2 (hT.above t ht htr).1
      unfold BEnv.step at hz
      rw [hl, Bool.and_false] at hz
      repeat' split at hz
      all_goals simp_all
    · obtain ⟨ts, ss, g, rfl, hI⟩ := step_split hT hS ht hs hst
      have hab := hI.above htr
      have hPm : P ∈ E.tct.parts := List.mem_of_getElem? hP
      have hPr : P.rk = (p : ℤ) := hT.parts_rank p P hP P (Tree.mem_pre_self _)
      -- a kept target candidate
      have hkeep : ∀ u ∈ ts, ∀ v ∈ ss, g (u, v) = true → u = P ∨ u.rk < 0 := by
        intro u hu v hv hg
        rw [(hab u hu v hv).2.2] at hg
        rcases (guardT_inv hg).2 with h1 | h1
        · left
          have hr := (hinP u).1 h1
          rcases (hab u hu v hv).1 with hc | hc
          · exact hT.part_unique hP ((hT.above t ht htr).2.2.2.2 u hc (by omega)) hr
          · exact hT.part_unique hP hc hr
        · exact Or.inr h1
      have hgood : ∀ x ∈ (pairs ts ss).filter g, ∀ c, buildBlockTree E f x.1 x.2 = some c →
          (∀ d ∈ (if c.label.t.rk = (p : ℤ) then [c] else gather p c), d ∈ c.pre ∧ d.label.t = P ∧
            d.label.s ∈ s.pre ∧ (E.sct.Upper s → E.sct.Upper d.label.s) ∧
            ∃ f', buildBlockTree E f' P d.label.s = some d) ∧
          ∀ i j, ind i P.iv = 1 → cover (if c.label.t.rk = (p : ℤ) then [c] else gather p c) i j =
            ind i x.1.iv * ind j x.2.iv := by
        rintro ⟨u, v⟩ hx c hc
        have hf := List.mem_filter.1 hx
        have hm := pair_mem_pairs.1 hf.1
        have hlab := buildBlockTree_label hc
        have hvs := hI.ss_mem v hm.2
        have hup : E.sct.Upper s → E.sct.Upper v := by
          intro hU
          rcases (hab u hm.1 v hm.2).2.1 with rfl | ⟨hv, hU⟩
          · exact hU
          · by_cases h0 : v.rk < 0
            · exact Or.inl h0
            · exact Or.inr ((hS.above s hs hU).2.2.2.2 v hv (by omega))
        rcases hkeep u hm.1 v hm.2 hf.2 with rfl | hr
        · have e : c.label.t.rk = (p : ℤ) := by rw [hlab.1]; exact hPr
          rw [if_pos e]
          refine ⟨?_, ?_⟩
          · intro d hd
            rw [List.mem_singleton.1 hd]
            exact ⟨Tree.mem_pre_self _, hlab.1, by rw [hlab.2.1]; exact hvs, by rw [hlab.2.1]; exact hup,
              f, by rw [hlab.2.1]; exact hc⟩
          · intro i j _
            simp [hlab.1, hlab.2.1]
        · have e : ¬ c.label.t.rk = (p : ℤ) := by rw [hlab.1]; show ¬ u.rk = _; omega
          rw [if_neg e]
          obtain ⟨q1, q2⟩ := ih u v c (Tree.mem_pre_trans ht (hI.ts_mem u hm.1)) (Tree.mem_pre_trans hs hvs) hr
            (fun w hw hwp z hz => hR w (Tree.mem_pre_trans (hI.ts_mem u hm.1) hw) hwp z (Tree.mem_pre_trans hvs hz)) hc
          exact ⟨fun d hd => ⟨(q1 d hd).1, (q1 d hd).2.1, Tree.mem_pre_trans hvs (q1 d hd).2.2.1,
            fun h => (q1 d hd).2.2.2.1 (hup h), (q1 d hd).2.2.2.2⟩, q2⟩
      refine ⟨?_, ?_⟩
      · intro d hd
        rw [gather_node, List.mem_flatMap] at hd
        obtain ⟨c, hc, hd⟩ := hd
        obtain ⟨x, hx, hxc⟩ := forall₂_mem_right hcs hc
        obtain ⟨r1, r2⟩ := (hgood x hx c hxc).1 d hd
        exact ⟨Tree.mem_pre.2 (Or.inr ⟨c, hc, r1⟩), r2⟩
      · intro i j hi
        rw [gather_node, cover_flatMap,
          forall₂_sum hcs (fun x => ind i x.1.iv * ind j x.2.iv) _ (fun x hx c hxc => (hgood x hx c hxc).2 i j hi),
          sum_filter_pairs]
        have : ts.map (fun u => (ss.map (fun v => if g (u, v) = true then ind i u.iv * ind j v.iv else 0)).sum) =
            ts.map (fun u => (ss.map (fun v => ind i u.iv * ind j v.iv)).sum) := by
          apply List.map_congr_left
          intro u hu
          congr 1
          apply List.map_congr_left
          intro v hv
          split_ifs with hg
          · rfl
          · -- dropped: another partition cluster
            have hu' := hI.ts_mem u hu
            have hut := Tree.mem_pre_trans ht hu'
            have h0 : ind i u.iv = 0 := by
              apply ind_zero_of
              intro hiu
              by_cases hr : u.rk < 0
              · apply hg
                rw [(hab u hu v hv).2.2]
                simp [BEnv.guardT, hr, hR u hu' (Or.inr hr) v (hI.ss_mem v hv)]
              · obtain ⟨Q, hQ, huQ⟩ := hT.ranked u hut (by omega)
                obtain ⟨q, hq, hqQ⟩ := List.getElem_of_mem hQ
                have hqQ : E.tct.parts[q]? = some Q := List.getElem?_eq_some_iff.2 ⟨hq, hqQ⟩
                have hur := hT.parts_rank q Q hqQ u huQ
                by_cases hpq : p = q
                · subst hpq
                  have huP : u = P := by
                    rcases (hab u hu v hv).1 with hc | hc
                    · exact hT.part_unique hP ((hT.above t ht htr).2.2.2.2 u hc (by omega)) hur
                    · exact hT.part_unique hP hc hur
                  apply hg
                  exact hI.pass u hu v hv ((hinP u).2 hur) (hR u hu' (Or.inl huP) v (hI.ss_mem v hv))
                · have hd := hT.disjoint_parts hP hqQ hpq
                  have hb := hT.contained (hT.parts_mem Q hQ) huQ
                  have hi := ind_eq_one.1 hi
                  omega
            rw [h0, Nat.zero_mul]
        rw [this]
        have e : ∀ u : CTree G, (ss.map (fun v => ind i u.iv * ind j v.iv)).sum = ind i u.iv * ind j s.iv := by
          intro u; rw [List.sum_map_mul_left, ind_sum_iv hI.ss_tiles]
        simp only [e]
        rw [List.sum_map_mul_right, ind_sum_iv hI.ts_tiles]

theorem removed_iff_none {E : BEnv G} (hsym : E.sym ≠ .N) (hps : E.psym = none) (u v : CTree G) :
    E.removed u v = true ↔ E.remIn u v := by
  simp [BEnv.removed, BEnv.remIn, hsym, hps, Tree.fin]
  tauto

theorem removed_iff_some {E : BEnv G} (hsym : E.sym ≠ .N) {p : ℕ} {P Q : CTree G} (hps : E.psym = some p)
    (hP : E.tct.parts[p]? = some P) (hQ : E.sct.parts[p]? = some Q) (u v : CTree G) :
    E.removed u v = true ↔
      (E.uplo = .U ∧ v.fin ≤ u.off ∧ Q.off ≤ v.off ∧ P.off ≤ u.off ∧ u.fin ≤ P.fin) ∨
      (E.uplo = .L ∧ u.fin ≤ v.off ∧ v.off < Q.fin ∧ P.off ≤ u.off ∧ u.fin ≤ P.fin) := by
  simp [BEnv.removed, hsym, hps, hP, hQ, Tree.fin, and_assoc]

theorem removed_sym_N {E : BEnv G} (hsym : E.sym = .N) (u v : CTree G) : E.removed u v = false := by
  simp [BEnv.removed, hsym]

/-- Above the partition nothing is removed when the symmetry concerns one partition cluster only. -/
theorem removed_top {E : BEnv G} (hT : E.tct.WF) (hE : E.sct = E.tct) (hpos : E.tct.Pos) (hsym : E.sym ≠ .N)
    {p : ℕ} {P : CTree G} (hps : E.psym = some p) (hP : E.tct.parts[p]? = some P) {u v : CTree G}
    (hu : u ∈ E.tct.root.pre) (hv : v ∈ E.tct.root.pre) (hup : u = P ∨ u.rk < 0) : E.removed u v = false := by
  by_contra h
  have h : E.removed u v = true := by simpa using h
  rw [removed_iff_some hsym hps hP (by rw [hE]; exact hP)] at h
  have hPr := hT.parts_mem P (List.mem_of_getElem? hP)
  have p1 := hpos u hu
  have p2 := hpos v hv
  have heq : P.off ≤ u.off ∧ u.fin ≤ P.fin → P.off = u.off ∧ u.fin = P.fin := by
    rintro ⟨h1, h2⟩
    rcases hup with rfl | hr
    · exact ⟨rfl, rfl⟩
    · obtain ⟨-, hne, -, -, -⟩ := hT.above u hu hr
      obtain ⟨Q, hQm⟩ := List.exists_mem_of_ne_nil _ hne
      obtain ⟨hQ, hQc⟩ := List.mem_filter.1 hQm
      simp only [leftContainsRight, Bool.and_eq_true, decide_eq_true_eq] at hQc
      obtain ⟨q, hq, hqQ⟩ := List.getElem_of_mem hQ
      have hqQ : E.tct.parts[q]? = some Q := List.getElem?_eq_some_iff.2 ⟨hq, hqQ⟩
      have p3 := hpos Q (hT.parts_mem Q hQ)
      by_cases hpq : p = q
      · subst hpq
        rw [hP] at hqQ
        injection hqQ with hqQ
        subst hqQ
        unfold Tree.fin at *; omega
      · have := hT.disjoint_parts hP hqQ hpq
        unfold Tree.fin at *; omega
  rcases h with ⟨-, h1, h2, h3, h4⟩ | ⟨-, h1, h2, h3, h4⟩
  · obtain ⟨e1, e2⟩ := heq ⟨h3, h4⟩
    unfold Tree.fin at *; omega
  · obtain ⟨e1, e2⟩ := heq ⟨h3, h4⟩
    unfold Tree.fin at *; omega

/-- A block row of one partition cluster with the symmetry of that cluster. -/
theorem upper_cover {E : BEnv G} (hT : E.tct.WF) (hE : E.sct = E.tct) (hpos : E.tct.Pos)
    (hcons : E.consistent = true) (hsym : E.sym ≠ .N) (huplo : E.uplo ≠ .N)
    {p : ℕ} {P : CTree G} (hps : E.psym = some p) (htp : E.tp = none ∨ E.tp = some p)
    (hP : E.tct.parts[p]? = some P) :
    ∀ (f : ℕ) (s : CTree G) (b : BTree G), s ∈ E.tct.root.pre → E.tct.Upper s →
      buildBlockTree E f P s = some b → ∀ fl : Bool, (fl = true → P.off ≤ s.off ∧ s.fin ≤ P.fin) →
      (∀ c ∈ b.leaves, c.label.isData) ∧
      ∀ i j, cover b.leaves i j + cover (symLeaves fl b) j i = ind i P.iv * ind j s.iv := by
  have hS : E.sct.WF := hE ▸ hT
  have hPm : P ∈ E.tct.parts := List.mem_of_getElem? hP
  have hPr : P ∈ E.tct.root.pre := hT.parts_mem P hPm
  have hPrk : P.rk = (p : ℤ) := hT.parts_rank p P hP P (Tree.mem_pre_self _)
  have hPS : E.sct.parts[p]? = some P := by rw [hE]; exact hP
  have hin : ∀ u ∈ P.pre, E.inPart u = true := by
    intro u hu
    rcases htp with h | h
    · simp [BEnv.inPart, h]
    · simp [BEnv.inPart, h, hT.parts_rank p P hP u hu]
  intro f
  induction f with
  | zero => intro s b _ _ h; simp [buildBlockTree] at h
  | succ f ih =>
    intro s b hs hU h fl hfl
    by_cases hr : s.rk < 0
    · -- above the partition
      obtain ⟨f', hf, h⟩ := buildBlockTree_inv h
      obtain rfl : f = f' := by omega
      have hsl : s.isLeaf = false := isLeaf_false.2 (hT.above s hs hr).1
      have hnadm : E.isAdmTask P s = false := by
        by_contra h0
        have h0 : E.isAdmTask P s = true := by simpa using h0
        simp only [BEnv.isAdmTask, hcons, Bool.and_eq_true, Bool.not_true, Bool.false_or, decide_eq_true_eq] at h0
        omega
      rcases h with ⟨hz, rfl⟩ | ⟨hz, rfl⟩ | ⟨l, cs, hst, rfl, hcs⟩
      · exfalso
        unfold BEnv.step at hz
        rw [hnadm] at hz
        repeat' split at hz
        all_goals simp_all
      · exfalso
        unfold BEnv.step at hz
        rw [hnadm, hsl, Bool.false_and] at hz
        repeat' split at hz
        all_goals simp_all
      · obtain ⟨ts, ss, g, rfl, hI⟩ := step_split hT hS hPr (hE ▸ hs) hst
        obtain ⟨rfl, hss⟩ := hI.across hcons hr (by omega)
        have hsroot : ∀ v ∈ ss, v ∈ E.tct.root.pre := fun v hv => Tree.mem_pre_trans hs (hI.ss_mem v hv)
        have hall : (pairs [P] ss).filter g = pairs [P] ss := by
          rw [List.filter_eq_self]
          rintro ⟨u, v⟩ hx
          have hm := pair_mem_pairs.1 hx
          have huP := List.mem_singleton.1 hm.1
          exact hI.pass u hm.1 v hm.2 (by rw [huP]; exact hin P (Tree.mem_pre_self _))
            (by rw [huP]; exact removed_top hT hE hpos hsym hps hP hPr (hsroot v hm.2) (Or.inl rfl))
        rw [hall] at hcs
        have hne : cs ≠ [] := by
          obtain ⟨v, vs, rfl⟩ := List.exists_cons_of_ne_nil hI.ss_ne
          intro h0; subst h0
          have := hcs.length_eq
          simp [pairs] at this
        have hfl' : (E.symFlag P s || fl) = true → P.off ≤ s.off ∧ s.fin ≤ P.fin := by
          intro h0
          rcases Bool.or_eq_true _ _ ▸ h0 with h1 | h1
          · simp only [BEnv.symFlag, Bool.and_eq_true, decide_eq_true_eq] at h1
            unfold Tree.fin; omega
          · exact hfl h1
        have key : ∀ x ∈ pairs [P] ss, ∀ c, buildBlockTree E f x.1 x.2 = some c →
            (∀ d ∈ c.leaves, d.label.isData) ∧
            ∀ i j, cover c.leaves i j + cover (symLeaves (E.symFlag P s || fl) c) j i =
              ind i x.1.iv * ind j x.2.iv := by
          rintro ⟨u, v⟩ hx c hc
          have hm := pair_mem_pairs.1 hx
          obtain rfl := List.mem_singleton.1 hm.1
          have hvU : E.tct.Upper v := by
            rcases hss v hm.2 with h1 | h1
            · by_cases h0 : v.rk < 0
              · exact Or.inl h0
              · exact Or.inr ((hT.above s hs hr).2.2.2.2 v h1 (by omega))
            · exact Or.inr (hE ▸ h1)
          refine ih v c (hsroot v hm.2) hvU hc _ ?_
          intro h0
          have := hfl' h0
          have hb := hT.contained hs (hI.ss_mem v hm.2)
          omega
        rw [symLeaves_node _ _ hne, Tree.leaves_node_ne hne, Tree.leavesL_eq]
        refine ⟨?_, ?_⟩
        · intro c hc
          rw [List.mem_flatMap] at hc
          obtain ⟨d, hd, hc⟩ := hc
          obtain ⟨x, hx, hxd⟩ := forall₂_mem_right hcs hd
          exact (key x hx d hxd).1 c hc
        · intro i j
          rw [cover_flatMap, cover_flatMap, ← List.sum_map_add,
            forall₂_sum hcs (fun x => ind i x.1.iv * ind j x.2.iv) _ (fun x hx c hxc => (key x hx c hxc).2 i j),
            sum_product [P] ss (fun u => ind i u.iv) (fun v => ind j v.iv), ind_sum_iv hI.ss_tiles]
          simp
    · have hsp : s ∈ E.tct.parts := by
        rcases hU with h0 | h0
        · exact absurd h0 hr
        · exact h0
      obtain ⟨q, hq, hqs⟩ := List.getElem_of_mem hsp
      have hqs : E.tct.parts[q]? = some s := List.getElem?_eq_some_iff.2 ⟨hq, hqs⟩
      by_cases hpq : p = q
      · subst hpq
        rw [hP] at hqs
        injection hqs with hqs
        subst hqs
        refine diag_cover hT hE hpos hcons hsym huplo (f + 1) P b hPr hin ?_ h fl
        intro u hu v hv
        rw [removed_iff_some hsym hps hP hPS]
        have b1 := hT.contained hPr hu
        have b2 := hT.contained hPr hv
        have p2 := hpos v (Tree.mem_pre_trans hPr hv)
        unfold BEnv.remIn
        constructor
        · rintro (⟨h1, h2, -⟩ | ⟨h1, h2, -⟩)
          · exact Or.inr ⟨h1, h2⟩
          · exact Or.inl ⟨h1, h2⟩
        · rintro (⟨h1, h2⟩ | ⟨h1, h2⟩)
          · exact Or.inr ⟨h1, h2, by unfold Tree.fin at *; omega, b1.1, b1.2⟩
          · exact Or.inl ⟨h1, h2, b2.1, b1.1, b1.2⟩
      · have hdis := hT.disjoint_parts hP hqs hpq
        have hb : ∀ u ∈ P.pre, ∀ v ∈ s.pre, E.removed u v = false ∧ u.off ≠ v.off := by
          intro u hu v hv
          have b1 := hT.contained hPr hu
          have b2 := hT.contained hs hv
          have p1 := hpos u (Tree.mem_pre_trans hPr hu)
          have p2 := hpos v (Tree.mem_pre_trans hs hv)
          refine ⟨?_, by unfold Tree.fin at *; omega⟩
          by_contra h0
          have h0 : E.removed u v = true := by simpa using h0
          rw [removed_iff_some hsym hps hP hPS] at h0
          unfold Tree.fin at *
          rcases h0 with ⟨-, h1, h2, -⟩ | ⟨-, h1, h2, -⟩ <;> omega
        obtain ⟨-, -, a1, a2, -⟩ := full_cover hT hS (f + 1) P s b hPr (hE ▸ hs) hin
          (fun u hu v hv => (hb u hu v hv).1) h
        have hflf : fl = false := by
          by_contra h0
          have := hfl (by simpa using h0)
          have p1 := hpos s hs
          have p2 := hpos P hPr
          unfold Tree.fin at *; omega
        have hnil : symLeaves fl b = [] := by
          rw [hflf]
          apply symLeaves_false_eq
          intro c hc
          obtain ⟨c1, c2, c3, -⟩ := buildBlockTree_nodes hT hS (f + 1) P s b hPr (hE ▸ hs) h c hc
          rw [c3]
          simp [BEnv.symFlag, (hb _ c1 _ c2).2]
        refine ⟨a1, ?_⟩
        intro i j
        rw [hnil, a2]; simp

end Htool
