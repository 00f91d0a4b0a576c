import Verif.HLinProd4

/-! # Product of two hierarchical matrices into a hierarchical matrix: correctness -/

namespace Htool
variable {G R : Type*}
open Finset

section leafs
variable {m : Mask} {P P' : FNode G R → Prop} {C : FTree G R}

theorem setData_label (C : FTree G R) (d : FData R) : (C.setData d).label = { C.label with data := d } := by
  cases C with
  | node a cs => rfl

theorem setData_children (C : FTree G R) (d : FData R) : Tree.children (C.setData d) = C.children := by
  cases C with
  | node a cs => rfl

theorem setData_ht (C : FTree G R) (d : FData R) : Tree.ht (C.setData d) = C.ht := by
  cases C with
  | node a cs =>
    show Tree.ht (Tree.node _ cs) = _
    rw [Tree.ht, Tree.ht]

theorem pre_leaf {C : FTree G R} (h : C.children = []) : C.pre = [C] := by
  cases C with
  | node a cs =>
    have : cs = [] := h
    subst this
    rfl

/-- New data in a leaf. -/
theorem Shape.setLeaf (h : Shape m P C) (hC : C.isHier = false) {d : FData R} (hd : d ≠ .hier) (hP : P' { C.label with data := d }) :
    Shape m P' (C.setData d) := by
  have b := h.self
  have l := b.leaf hC
  have hh : (C.setData d).isHier = false := by
    unfold FTree.isHier
    rw [setData_label]
    cases d with
    | hier => exact absurd rfl hd
    | dense D p => rfl
    | lowRank L => rfl
  intro X hX
  rw [pre_leaf (by rw [setData_children]; exact l.1), List.mem_singleton] at hX
  subst hX
  refine ⟨by rw [setData_label]; exact hP, by rw [setData_label]; exact b.clT, by rw [setData_label]; exact b.clS, fun _ => ?_, fun hx => ?_⟩
  · rw [setData_children, setData_label]; exact l
  · rw [hh] at hx; exact absurd hx (by simp)

end leafs

section childOp
variable {P : FNode G R → Prop} {A : FTree G R}

theorem isHier_iff : A.isHier = true ↔ A.label.data = .hier := by
  unfold FTree.isHier
  cases A.label.data <;> simp

theorem Shape.getChildOp_spec (h : Shape .full P A) (t1 : A.label.t.Flat) (t2 : A.label.s.Flat) {bad : Bool}
    (hb : A.bad = true → bad = true) (hf : bad = true ∨ A.isHier = true) (tr : Trans) {p q : ClusterTree G} (hp : p ∈ clList bad (A.outC tr))
    (hq : q ∈ clList bad (A.inC tr)) :
    ∃ X, getChildOp tr p q A = some X ∧ Shape .full P X ∧ X.outC tr = p ∧ X.inC tr = q ∧ X.ht ≤ A.ht ∧ (bad = false ∨ A.bad = true → X.ht < A.ht) ∧
      0 ≤ X.label.t.rk ∧ 0 ≤ X.label.s.rk := by
  have r : ∀ p q, p ∈ clList bad A.label.t → q ∈ clList bad A.label.s → 0 ≤ p.rk ∧ 0 ≤ q.rk := by
    intro p q hp hq
    exact ⟨clList_rank h.self.clT t1.top (fun hr => hb (bad_iff.2 (Or.inl hr))) hp, clList_rank h.self.clS t2.top (fun hr => hb (bad_iff.2 (Or.inr hr))) hq⟩
  unfold getChildOp
  by_cases e : tr = .N
  · subst e
    obtain ⟨X, x1, x2, x3, x4, x5, x6, -⟩ := h.focusC t1 t2 hb hf (p := p) (q := q) hp hq rfl
    refine ⟨X, by rw [if_pos rfl]; exact x6, x1, x2, x3, x4, x5, ?_⟩
    rw [x2, x3]; exact r p q hp hq
  · have e1 : A.outC tr = A.label.s := by unfold FTree.outC; rw [if_neg e]
    have e2 : A.inC tr = A.label.t := by unfold FTree.inC; rw [if_neg e]
    rw [e1] at hp
    rw [e2] at hq
    obtain ⟨X, x1, x2, x3, x4, x5, x6, -⟩ := h.focusC t1 t2 hb hf (p := q) (q := p) hq hp rfl
    refine ⟨X, by rw [if_neg e]; exact x6, x1, ?_, ?_, x4, x5, ?_⟩
    · unfold FTree.outC; rw [if_neg e]; exact x3
    · unfold FTree.inC; rw [if_neg e]; exact x2
    · rw [x2, x3]; exact r q p hq hp

end childOp

section spec
variable [CommRing R] [StarRing R] [DecidableEq R] {E : LinOps R}

theorem flat_outC {A : FTree G R} (t1 : A.label.t.Flat) (t2 : A.label.s.Flat) (tr : Trans) : (A.outC tr).Flat ∧ (A.inC tr).Flat := by
  cases tr
  · exact ⟨t1, t2⟩
  · exact ⟨t2, t1⟩
  · exact ⟨t2, t1⟩

theorem nilRank_zero {m : Mask} {ad : ClusterTree G → ClusterTree G → Prop} {M : ℕ → ℕ → R} {A : FTree G R} (h : Rep .full ad M A) (hn : A.nilRank) :
    ∀ i j, A.label.Has i j → M i j = 0 := by
  obtain ⟨L, hL, hr⟩ := hn
  intro i j hi
  have hp := (Shape.self h).prop.2
  rw [hL] at hp
  rw [← hp.2.2.2.2 i j hi trivial]
  exact entry_rank_zero hr _ _

theorem mem_triples {os is ms : List (ClusterTree G)} {x : ClusterTree G × ClusterTree G × ClusterTree G} :
    x ∈ triples os is ms ↔ x.1 ∈ os ∧ x.2.1 ∈ is ∧ x.2.2 ∈ ms := by
  unfold triples
  rw [List.mem_flatMap]
  constructor
  · rintro ⟨o, ho, hx⟩
    rw [List.mem_flatMap] at hx
    obtain ⟨i, hi, hx⟩ := hx
    rw [List.mem_map] at hx
    obtain ⟨c, hc, rfl⟩ := hx
    exact ⟨ho, hi, hc⟩
  · rintro ⟨ho, hi, hc⟩
    exact ⟨x.1, ho, List.mem_flatMap.2 ⟨x.2.1, hi, List.mem_map.2 ⟨x.2.2, hc, rfl⟩⟩⟩

/-- Sum over the three nested loops. -/
theorem sum_triples {a b a' b' : ℕ} {l l' ms : List (ClusterTree G)} (h : Tiles a b (l.map ClusterTree.iv)) (h' : Tiles a' b' (l'.map ClusterTree.iv))
    (i j : ℕ) (hi : a ≤ i ∧ i < b) (hj : a' ≤ j ∧ j < b') (v : ClusterTree G → R) :
    ((triples l l' ms).map (fun x => if (x.1.off ≤ i ∧ i < x.1.fin) ∧ x.2.1.off ≤ j ∧ j < x.2.1.fin then v x.2.2 else 0)).sum = (ms.map v).sum := by
  have e : ∀ l : List (ClusterTree G),
      ((triples l l' ms).map (fun x => if (x.1.off ≤ i ∧ i < x.1.fin) ∧ x.2.1.off ≤ j ∧ j < x.2.1.fin then v x.2.2 else 0)).sum =
      ((pairs l l').map (fun x => if (x.1.off ≤ i ∧ i < x.1.fin) ∧ x.2.off ≤ j ∧ j < x.2.fin then (ms.map v).sum else 0)).sum := by
    intro l
    induction l with
    | nil => rfl
    | cons c l ih =>
      unfold triples pairs at ih ⊢
      rw [List.flatMap_cons, List.map_append, List.sum_append, ih, List.flatMap_cons, List.map_append, List.sum_append]
      congr 1
      clear ih h h'
      induction l' with
      | nil => rfl
      | cons d l' ih =>
        rw [List.flatMap_cons, List.map_append, List.sum_append, ih, List.map_cons, List.map_cons, List.sum_cons]
        congr 1
        rw [List.map_map]
        by_cases hc : (c.off ≤ i ∧ i < c.fin) ∧ d.off ≤ j ∧ j < d.fin
        · rw [if_pos hc]
          congr 1
          apply List.map_congr_left
          intro x _
          exact if_pos hc
        · rw [if_neg hc]
          apply List.sum_eq_zero
          intro x hx
          rw [List.mem_map] at hx
          obtain ⟨y, -, rfl⟩ := hx
          exact if_neg hc
  rw [e l, sum_pairs_tiles h h' i j hi hj]

/-- The temporary of a product with a leaf. -/
theorem hhTemp_on (hE : E.Exact) {adA adB : ClusterTree G → ClusterTree G → Prop} {MA MB : ℕ → ℕ → R} {A B : FTree G R}
    (hA : Rep .full adA MA A) (hB : Rep .full adB MB B) (hh : (A.isHier && B.isHier) = false) (ta tb : Trans) (α β : R) (hin : A.inC ta = B.outC tb) :
    (hhTemp E ta tb α A B β).On (A.outC ta) (B.inC tb) (fun i j => α * mprod ta tb MA MB (A.inC ta) i j) := by
  rw [hhTemp_eq]
  have hsz : opCols ta A.label.t.sz A.label.s.sz = opRows tb B.label.t.sz B.label.s.sz := by rw [opCols_inC, opRows_outC, hin]
  have zero : ∀ (i j : ℕ), ((A.outC ta).off ≤ i ∧ i < (A.outC ta).fin) → ((B.inC tb).off ≤ j ∧ j < (B.inC tb).fin) →
      (A.nilRank ∨ B.nilRank) → α * mprod ta tb MA MB (A.inC ta) i j = 0 := by
    intro i j hi hj hn
    have : mprod ta tb MA MB (A.inC ta) i j = 0 := by
      unfold mprod
      refine sum_eq_zero fun l hl => ?_
      rw [mem_Ico] at hl
      rcases hn with hn | hn
      · have : opE ta MA i l = 0 := by
          have hz := nilRank_zero (m := .full) hA hn
          cases ta with
          | N => exact hz i l ⟨hi, hl⟩
          | T => exact hz l i ⟨hl, hi⟩
          | C => show star (MA l i) = 0; rw [hz l i ⟨hl, hi⟩, star_zero]
        rw [this, zero_mul]
      · rw [hin] at hl
        have : opE tb MB l j = 0 := by
          have hz := nilRank_zero (m := .full) hB hn
          cases tb with
          | N => exact hz l j ⟨hl, hj⟩
          | T => exact hz j l ⟨hj, hl⟩
          | C => show star (MB j l) = 0; rw [hz j l ⟨hj, hl⟩, star_zero]
        rw [this, mul_zero]
    rw [this, mul_zero]
  by_cases hn : A.nilRank ∨ B.nilRank
  · right
    refine ⟨⟨0, 0, ?_⟩, fun i j hi hj => zero i j hi hj hn⟩
    show leafLR E ta tb α A B β (nilLR R 0 0) = nilLR R 0 0
    unfold leafLR
    rcases hn with ⟨L, hd, hr⟩ | ⟨L, hd, hr⟩
    · rw [hd]
      cases B.label.data with
      | dense D p => simp only [LR.mulMatLR, if_neg (not_not.2 hr)]
      | lowRank L' => simp only [LR.mulLRLR, if_neg (fun h : L.rank ≠ 0 ∧ L'.rank ≠ 0 => h.1 hr)]
      | hier => simp only [lrHmLR, if_neg (not_not.2 hr)]
    · rw [hd]
      cases A.label.data with
      | dense D p => simp only [LR.matMulLR, if_neg (not_not.2 hr)]
      | lowRank L' => simp only [LR.mulLRLR, if_neg (fun h : L'.rank ≠ 0 ∧ L.rank ≠ 0 => h.2 hr)]
      | hier => simp only [hmLrLR, if_neg (not_not.2 hr)]
  · left
    have hn1 : ¬ A.nilRank := fun h => hn (Or.inl h)
    have hn2 : ¬ B.nilRank := fun h => hn (Or.inr h)
    have := leafLR_is hE hA hB hh ta tb α β (C := nilLR R 0 0) (FC := fun _ _ => 0) hsz (Or.inr ⟨hn1, hn2, rfl, fun _ _ => rfl⟩)
    rw [opRows_outC, opCols_inC] at this
    refine IsMat.congr' this fun i _ j _ => ?_
    rw [prodE_abs hin, mul_zero, add_zero]
    rfl

/-- Product of two H-matrices into an H-matrix: every block structure, every transposition, with the partition of the clusters at most one level below
their root. With a hierarchical result and an operand which is a leaf the factor `β` is not applied, so that it must be 1. -/
theorem hhH_spec (hE : E.Exact) {adA adB ad : ClusterTree G → ClusterTree G → Prop} {MA MB : ℕ → ℕ → R} {m : Mask} (ta tb : Trans) (α : R) :
    ∀ (n : ℕ) (A B C : FTree G R) (MC : ℕ → ℕ → R) (β : R), A.ht + B.ht ≤ n → Rep .full adA MA A → Rep .full adB MB B → Rep m ad MC C →
      A.label.t.Flat → A.label.s.Flat → B.label.t.Flat → B.label.s.Flat → A.inC ta = B.outC tb → C.label.t = A.outC ta → C.label.s = B.inC tb →
      m.keep C.label.t C.label.s = true → (β = 1 ∨ C.isHier = false ∨ (A.isHier = true ∧ B.isHier = true)) →
      ∃ C', hhH E n ta tb α A B β C = some C' ∧ Rep m ad (fun i j => α * mprod ta tb MA MB (A.inC ta) i j + β * MC i j) C' ∧
        C'.label.t = C.label.t ∧ C'.label.s = C.label.s ∧ C'.ht ≤ C.ht := by
  intro n
  induction n with
  | zero => intro A B C MC β h; have := Tree.ht_pos A; omega
  | succ n ih =>
    intro A B C MC β hn hA hB hC a1 a2 b1 b2 hin c1 c2 hk hβ
    have hsz : opCols ta A.label.t.sz A.label.s.sz = opRows tb B.label.t.sz B.label.s.sz := by rw [opCols_inC, opRows_outC, hin]
    have hCp := (Shape.self hC).prop
    unfold hhH
    cases hd : C.label.data with
    | dense D piv =>
      have hCp2 := hCp.2
      rw [hd] at hCp2
      obtain ⟨d1, d2, d3⟩ := hCp2
      have g := hhMat_is hE.real hA hB ta tb α β (C := D) (FC := D.get) hsz
        ⟨by rw [opRows_outC, d1, c1], by rw [opCols_inC, d2, c2], fun _ _ _ _ => rfl⟩
      rw [opRows_outC, opCols_inC, ← c1, ← c2] at g
      refine ⟨_, rfl, Shape.setLeaf hC (by unfold FTree.isHier; rw [hd]) (by simp) ⟨hCp.1, g.1, g.2.1, fun i j hi hm => ?_⟩, by rw [setData_label],
        by rw [setData_label], by rw [setData_ht]⟩
      have hi' : C.label.Has i j := hi
      have hs := hi'.sub
      refine (g.2.2 _ hs.1 _ hs.2).trans ?_
      rw [prodE_abs hin, d3 i j hi' hm, ← c1, ← c2]
      congr 3 <;> (unfold FNode.Has at hi'; omega)
    | lowRank L =>
      have hCp2 := hCp.2
      rw [hd] at hCp2
      obtain ⟨d0, d1, d2, d3, d4⟩ := hCp2
      obtain ⟨L', l1, l2⟩ := hhLR_spec hE ta tb α (n + 1) A B hn hA hB a1.top a2.top b1.top b2.top hin β L
        (fun i j => L.entry (i - (A.outC ta).off) (j - (B.inC tb).off)) ⟨d1, by rw [d2, c1], by rw [d3, c2], fun i _ j _ => by
          unfold rel; beta_reduce; rw [Nat.add_sub_cancel_left, Nat.add_sub_cancel_left]⟩
      rw [← c1, ← c2] at l2
      refine ⟨C.setData (.lowRank L'), by simp only [l1, Option.map_some], Shape.setLeaf hC (by unfold FTree.isHier; rw [hd]) (by simp)
        ⟨hCp.1, d0, l2.1, l2.2.1, l2.2.2.1, fun i j hi hm => ?_⟩, by rw [setData_label], by rw [setData_label], by rw [setData_ht]⟩
      have hi' : C.label.Has i j := hi
      have hs := hi'.sub
      refine (l2.2.2.2 _ hs.1 _ hs.2).trans ?_
      unfold rel
      beta_reduce
      rw [Nat.add_sub_cancel_left, Nat.add_sub_cancel_left, d4 i j hi' hm]
      congr 3 <;> (unfold FNode.Has at hi'; omega)
    | hier =>
      have hCh : C.isHier = true := isHier_iff.2 hd
      by_cases hh : (A.isHier && B.isHier) = false
      · -- one of the operands is a leaf
        have hβ1 : β = 1 := by
          rcases hβ with h | h | h
          · exact h
          · rw [hCh] at h; exact absurd h (by simp)
          · rw [h.1, h.2] at hh; exact absurd hh (by simp)
        simp only [hh, Bool.false_eq_true, if_false]
        have g := hhTemp_on hE hA hB hh ta tb α β hin
        rw [← c1, ← c2] at g
        have s := addLRH_same (E := E) (hhTemp E ta tb α A B β) C
        refine ⟨_, rfl, Rep.congr (Rep.addLRH hE hC g) fun i j _ _ => by rw [hβ1, one_mul], s.1, s.2.1, Nat.le_of_eq s.2.2.1⟩
      · have hh : A.isHier = true ∧ B.isHier = true := by simpa using hh
        have okA := clList_outC hA ta
        have okB := clList_outC hB tb
        have tA := flat_outC a1 a2 ta
        have tB := flat_outC b1 b2 tb
        simp only [hh.1, hh.2, Bool.and_self, if_true]
        set bad := A.bad || B.bad with hbad
        have bA : A.bad = true → bad = true := fun h => by rw [hbad, h]; rfl
        have bB : B.bad = true → bad = true := fun h => by rw [hbad, h]; simp
        have bC : ∀ D : FTree G R, D.label.t = A.outC ta → D.label.s = B.inC tb → D.bad = true → bad = true := by
          intro D e1 e2 hb
          rw [bad_iff, e1, e2] at hb
          rcases hb with hb | hb
          · refine bA (bad_iff.2 ?_)
            unfold FTree.outC at hb
            by_cases e : ta = .N
            · rw [if_pos e] at hb; exact Or.inl hb
            · rw [if_neg e] at hb; exact Or.inr hb
          · refine bB (bad_iff.2 ?_)
            unfold FTree.inC at hb
            by_cases e : tb = .N
            · rw [if_pos e] at hb; exact Or.inr hb
            · rw [if_neg e] at hb; exact Or.inl hb
        have tilesM := clList_tiles (bad := bad) okA.2 tA.2.top
        have tilesO := clList_tiles (bad := bad) okA.1 tA.1.top
        have tilesI := clList_tiles (bad := bad) okB.2 tB.2.top
        -- the three loops
        have loop : ∀ l : List (ClusterTree G × ClusterTree G × ClusterTree G),
            (∀ x ∈ l, x ∈ triples (clList bad (A.outC ta)) (clList bad (B.inC tb)) (clList bad (A.inC ta))) → ∀ (D : FTree G R) (H : ℕ → ℕ → R),
            Rep m ad H D → D.label.t = A.outC ta → D.label.s = B.inC tb → (bad = true ∨ D.isHier = true) →
            ∃ D', l.foldlM (fun C x =>
              match getChildOp ta x.1 x.2.2 A, getChildOp tb x.2.2 x.2.1 B, getChild x.1 x.2.1 C with
              | some Ac, some Bc, some _ => updChild x.1 x.2.1 (hhH E n ta tb α Ac Bc 1) C
              | _, _, _ => some C) D = some D' ∧
              Rep m ad (fun i j => H i j + (l.map (fun x => if (x.1.off ≤ i ∧ i < x.1.fin) ∧ x.2.1.off ≤ j ∧ j < x.2.1.fin then
                α * mprod ta tb MA MB x.2.2 i j else 0)).sum) D' ∧ D'.label.t = A.outC ta ∧ D'.label.s = B.inC tb ∧ D'.ht ≤ D.ht := by
          intro l
          induction l with
          | nil =>
            intro _ D H hD e1 e2 _
            exact ⟨D, rfl, Rep.congr hD fun i j _ _ => by simp, e1, e2, Nat.le_refl _⟩
          | cons x l ihl =>
            obtain ⟨p, q, c⟩ := x
            intro hm D H hD e1 e2 hDh
            have hx := hm (p, q, c) (by simp)
            rw [mem_triples] at hx
            obtain ⟨hp, hq, hc⟩ := hx
            simp only at hp hq hc
            obtain ⟨X, x1, x2, x3, x4, x5, x6, x7, x8⟩ := Shape.getChildOp_spec hA a1 a2 bA (Or.inr hh.1) ta hp hc
            obtain ⟨Y, y1, y2, y3, y4, y5, y6, y7, y8⟩ := Shape.getChildOp_spec hB b1 b2 bB (Or.inr hh.2) tb (p := c) (q := q) (by rw [← hin]; exact hc) hq
            have hlt : X.ht + Y.ht ≤ n := by
              cases hb : bad with
              | false => have := x6 (Or.inl hb); omega
              | true =>
                rw [hbad, Bool.or_eq_true] at hb
                rcases hb with hb | hb
                · have := x6 (Or.inr hb); omega
                · have := y6 (Or.inr hb); omega
            have hkD : m.keep D.label.t D.label.s = true := by rw [e1, e2, ← c1, ← c2]; exact hk
            -- one step
            have step : ∃ D1, (match getChildOp ta p c A, getChildOp tb c q B, getChild p q D with
                | some Ac, some Bc, some _ => updChild p q (hhH E n ta tb α Ac Bc 1) D
                | _, _, _ => some D) = some D1 ∧
                Rep m ad (fun i j => H i j + if (p.off ≤ i ∧ i < p.fin) ∧ q.off ≤ j ∧ j < q.fin then α * mprod ta tb MA MB c i j else 0) D1 ∧
                D1.label.t = A.outC ta ∧ D1.label.s = B.inC tb ∧ D1.ht ≤ D.ht ∧ (bad = true ∨ D1.isHier = true) := by
              cases hkk : m.keep p q with
              | false =>
                have hg := Shape.getChild_none hD hkD hkk
                refine ⟨D, by simp only [x1, y1, hg], Rep.congr hD fun i j _ hok => ?_, e1, e2, Nat.le_refl _, hDh⟩
                rw [if_neg, add_zero]
                intro hi
                revert hkk hok
                unfold Mask.keep Mask.ok
                cases m with
                | full => simp
                | lower => simp only [decide_eq_false_iff_not]; intro h1 h2; omega
                | upper => simp only [decide_eq_false_iff_not]; intro h1 h2; omega
              | true =>
                obtain ⟨Z, z1, z2, z3, z4, z5, z6, z7⟩ := Shape.focusC hD (e1 ▸ tA.1) (e2 ▸ tB.2) (bC D e1 e2) hDh (p := p) (q := q)
                  (by rw [e1]; exact hp) (by rw [e2]; exact hq) hkk
                obtain ⟨Z', w1, w2, w3, w4, w5⟩ := ih X Y Z H 1 hlt x2 y2 z1 (Or.inl x7) (Or.inl x8) (Or.inl y7) (Or.inl y8) (by rw [x4, y3])
                  (by rw [z2, x3]) (by rw [z3, y4]) (by rw [z2, z3]; exact hkk) (Or.inl rfl)
                rw [x4] at w2
                obtain ⟨D1, u1, u2, u3, u4, u5, u6⟩ := z7 (hhH E n ta tb α X Y 1)
                  (RepP m ad (fun i j => H i j + if (p.off ≤ i ∧ i < p.fin) ∧ q.off ≤ j ∧ j < q.fin then α * mprod ta tb MA MB c i j else 0)) Z' w1
                  (Rep.congr w2 fun i j hi _ => by
                    rw [if_pos (show (p.off ≤ i ∧ i < p.fin) ∧ q.off ≤ j ∧ j < q.fin by
                      unfold FNode.Has at hi; rw [w3, w4, z2, z3] at hi; exact hi), one_mul, add_comm])
                  (w3.trans z2) (w4.trans z3) w5
                  (fun nd hnd hdj => RepP.outside (fun i j hni _ => by
                    rw [if_neg (show ¬ ((p.off ≤ i ∧ i < p.fin) ∧ q.off ≤ j ∧ j < q.fin) by
                      intro hi; apply hni; unfold FNode.Has; rw [z2, z3]; exact hi), add_zero]) hnd hdj)
                exact ⟨D1, by simp only [x1, y1, z6]; exact u1, u2, u3.trans e1, u4.trans e2, u5, u6⟩
            obtain ⟨D1, s1, s2, s3, s4, s5, s6⟩ := step
            obtain ⟨D2, t1, t2, t3, t4, t5⟩ := ihl (fun z hz => hm z (by simp [hz])) D1 _ s2 s3 s4 s6
            refine ⟨D2, ?_, Rep.congr t2 fun i j _ _ => ?_, t3, t4, Nat.le_trans t5 s5⟩
            · rw [List.foldlM_cons]
              exact (congrArg (fun o => o >>= _) s1).trans t1
            · beta_reduce
              rw [List.map_cons, List.sum_cons, add_assoc]
        have start : ∃ D, (if β = 1 then C else fscale β C) = D ∧ Rep m ad (fun i j => β * MC i j) D ∧ D.label.t = A.outC ta ∧ D.label.s = B.inC tb ∧
            D.isHier = true ∧ D.ht ≤ C.ht := by
          by_cases e : β = 1
          · exact ⟨C, if_pos e, Rep.congr hC fun i j _ _ => by rw [e, one_mul], c1, c2, hCh, Nat.le_refl _⟩
          · have s := fscale_same β C
            exact ⟨fscale β C, if_neg e, hC.fscale β, s.1.trans c1, s.2.1.trans c2, s.2.2.2.trans hCh, Nat.le_of_eq s.2.2.1⟩
        obtain ⟨D, d0, d1, d2, d3, d4, d5⟩ := start
        rw [d0]
        obtain ⟨D', l1, l2, l3, l4, l5⟩ := loop _ (fun _ h => h) D _ d1 d2 d3 (Or.inr d4)
        refine ⟨D', l1, Rep.congr l2 fun i j hi _ => ?_, l3.trans c1.symm, l4.trans c2.symm, Nat.le_trans l5 d5⟩
        beta_reduce
        unfold FNode.Has at hi
        rw [l3, l4] at hi
        rw [sum_triples tilesO tilesI i j hi.1 hi.2 (fun c => α * mprod ta tb MA MB c i j), mprod_tiles tilesM, List.sum_map_mul_left, add_comm]

end spec
end Htool
