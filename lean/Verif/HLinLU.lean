import Verif.HLinNum

/-! # `lu_factorization` of a hierarchical matrix -/

namespace Htool
variable {G R : Type*}
open Finset

section lu
variable [CommRing R] [StarRing R] [DecidableEq R] {E : LinOps R} {ad : ClusterTree G → ClusterTree G → Prop}

/-- Contract of LAPACK `getrf` on a nonsingular matrix: `L U = P A`, where `P` makes the row interchanges given by the pivots (one-based, row `k` with
row `ipiv[k] ≥ k`), and the diagonal of `U` can be inverted. -/
def GetrfOK (E : LinOps R) : Prop := ∀ (D : Mat R) (n : ℕ), D.nr = n → D.nc = n → Nonsing D.get 0 n →
  (E.getrf D).1.nr = n ∧ (E.getrf D).1.nc = n ∧ (E.getrf D).2.length = n ∧
  (∀ k < n, k + 1 ≤ (E.getrf D).2.getD k 0 ∧ (E.getrf D).2.getD k 0 ≤ n) ∧ (∀ i < n, IsUnit ((E.getrf D).1.get i i)) ∧
  ∀ i < n, ∀ j < n, (laswp (List.range n) (E.getrf D).2 D).get i j =
    ∑ l ∈ range n, tri .L true (E.getrf D).1.get i l * tri .U false (E.getrf D).1.get l j

/-- A block which contains both factors. -/
def LUP (ad : ClusterTree G → ClusterTree G → Prop) (L U : ℕ → ℕ → R) (n : FNode G R) : Prop := TriP .L true ad L n ∧ TriP .U false ad U n

omit [StarRing R] [DecidableEq R] in
/-- A factored dense block. -/
theorem getrf_factors (hE : GetrfOK E) {D : Mat R} {n : ℕ} (hn : 0 < n) (h1 : D.nr = n) (h2 : D.nc = n) (hs : Nonsing D.get 0 n) :
    (E.getrf D).1.nr = n ∧ (E.getrf D).1.nc = n ∧ PivOK n (E.getrf D).2 ∧ (∀ i < n, IsUnit ((E.getrf D).1.get i i)) ∧
    ∀ i < n, ∀ j < n, ∑ l ∈ range n, ptri .L true (E.getrf D).1.get (E.getrf D).2 i l * ptri .U false (E.getrf D).1.get (E.getrf D).2 l j = D.get i j := by
  obtain ⟨e1, e2, e3, e4, e5, e6⟩ := hE D n h1 h2 hs
  generalize (E.getrf D).1 = F at *
  generalize (E.getrf D).2 = piv at *
  have ok : PivOK n piv := Or.inr ⟨e3, fun k hk => ⟨by have := (e4 k hk).1; omega, (e4 k hk).2⟩⟩
  have pv : isPivoted piv = true := by
    unfold isPivoted
    rw [List.any_eq_true]
    refine ⟨n - 1, List.mem_range.2 (by omega), ?_⟩
    have := e4 (n - 1) (by omega)
    exact decide_eq_true (by omega)
  refine ⟨e1, e2, ok, e5, fun i hi j hj => ?_⟩
  have rg := (ok.range pv).2
  have hσ : pivPerm piv = swaps piv (List.range n) := by unfold pivPerm swaps; rw [e3]
  have hinv : (pivPerm piv)⁻¹ = swaps piv (List.range n).reverse := by rw [hσ, swaps_reverse]
  have hi' : (pivPerm piv)⁻¹ i < n := by
    rw [hinv]
    exact swaps_lt (fun k hk => rg k (List.mem_reverse.1 hk)) hi
  have key := e6 _ hi' j hj
  rw [(laswp_spec piv n n (List.range n) D rg h1 h2).2.2 _ hi' j hj, ← hσ] at key
  rw [show pivPerm piv ((pivPerm piv)⁻¹ i) = i by simp] at key
  rw [key]
  refine sum_congr rfl fun l _ => ?_
  unfold ptri
  rw [if_pos ⟨rfl, pv⟩, if_neg (by simp)]

/-- A dense diagonal block. -/
theorem lu_leaf (hE : GetrfOK E) {A : FTree G R} {M : ℕ → ℕ → R} (hA : Rep .full ad M A) (hsq : A.label.t = A.label.s) (hs : Nonsing M A.label.t.off A.label.t.fin)
    {D : Mat R} {piv : List ℕ} (hd : A.label.data = .dense D piv) :
    ∃ L U : ℕ → ℕ → R, Shape .full (fun n => Flag .full n ∧ LUP ad L U n) (A.setData (.dense (E.getrf D).1 (E.getrf D).2)) ∧
      ∀ i ∈ Ico A.label.t.off A.label.t.fin, ∀ j ∈ Ico A.label.t.off A.label.t.fin, ∑ l ∈ Ico A.label.t.off A.label.t.fin, L i l * U l j = M i j := by
  have b := Shape.self hA
  have hpos := b.clT.sz_pos
  have I := hA.dense_is hd
  rw [← hsq] at I
  have hl : A.isHier = false := by unfold FTree.isHier; rw [hd]
  have hs' : Nonsing D.get 0 A.label.t.sz := by
    unfold Nonsing at hs ⊢
    have e : A.label.t.fin - A.label.t.off = A.label.t.sz := by unfold ClusterTree.fin; omega
    rw [e] at hs
    have : subM D.get 0 (A.label.t.sz - 0) = subM M A.label.t.off A.label.t.sz := by
      ext i j
      show D.get (0 + i) (0 + j) = M (A.label.t.off + i) (A.label.t.off + j)
      rw [Nat.zero_add, Nat.zero_add]
      exact I.2.2 i i.2 j j.2
    rw [this]; exact hs
  obtain ⟨f1, f2, f3, f4, f5⟩ := getrf_factors hE hpos I.1 I.2.1 hs'
  have ins : ∀ i, (A.label.t.off ≤ i ∧ i < A.label.t.fin) ↔ i ∈ Ico A.label.t.off A.label.t.fin := fun i => mem_Ico.symm
  refine ⟨fun i j => if (A.label.t.off ≤ i ∧ i < A.label.t.fin) ∧ (A.label.t.off ≤ j ∧ j < A.label.t.fin) then
      ptri .L true (E.getrf D).1.get (E.getrf D).2 (i - A.label.t.off) (j - A.label.t.off) else 0,
    fun i j => if (A.label.t.off ≤ i ∧ i < A.label.t.fin) ∧ (A.label.t.off ≤ j ∧ j < A.label.t.fin) then
      ptri .U false (E.getrf D).1.get (E.getrf D).2 (i - A.label.t.off) (j - A.label.t.off) else 0, ?_, ?_⟩
  · refine Shape.setLeaf hA hl (by simp) ⟨b.prop.1, ?_, ?_⟩
    · refine ⟨fun _ => ⟨fun i j hi => ⟨fun _ hj => if_neg (by have : A.label.t.fin ≤ j := hj; omega), fun hU => by cases hU⟩, f1, f2, f3, fun h => (by cases h), ?_⟩, ?_⟩
      · intro i j hij
        have hij' : A.label.Has i j := hij
        unfold FNode.Has at hij'
        rw [← hsq] at hij'
        exact if_pos hij'
      · intro hh
        exfalso
        have hh' : (UploType.L = .L ∧ A.label.s.fin ≤ A.label.t.off) ∨ (UploType.L = .U ∧ A.label.t.fin ≤ A.label.s.off) := hh
        rw [← hsq] at hh'
        unfold ClusterTree.fin at hh'
        omega
    · refine ⟨fun _ => ⟨fun i j hi => ⟨fun hU => (by cases hU), fun _ hj => if_neg (by have : j < A.label.t.off := hj; omega)⟩, f1, f2, f3, fun _ => f4, ?_⟩, ?_⟩
      · intro i j hij
        have hij' : A.label.Has i j := hij
        unfold FNode.Has at hij'
        rw [← hsq] at hij'
        exact if_pos hij'
      · intro hh
        exfalso
        have hh' : (UploType.U = .L ∧ A.label.s.fin ≤ A.label.t.off) ∨ (UploType.U = .U ∧ A.label.t.fin ≤ A.label.s.off) := hh
        rw [← hsq] at hh'
        unfold ClusterTree.fin at hh'
        omega
  · intro i hi j hj
    have hi' := mem_Ico.1 hi
    have hj' := mem_Ico.1 hj
    have e : ∀ l ∈ Ico A.label.t.off A.label.t.fin, _ := fun l hl => congrArg₂ (· * ·) (if_pos ⟨hi', mem_Ico.1 hl⟩ : (if (A.label.t.off ≤ i ∧ i < A.label.t.fin) ∧
      (A.label.t.off ≤ l ∧ l < A.label.t.fin) then ptri .L true (E.getrf D).1.get (E.getrf D).2 (i - A.label.t.off) (l - A.label.t.off) else 0) = _)
      (if_pos ⟨mem_Ico.1 hl, hj'⟩ : (if (A.label.t.off ≤ l ∧ l < A.label.t.fin) ∧
      (A.label.t.off ≤ j ∧ j < A.label.t.fin) then ptri .U false (E.getrf D).1.get (E.getrf D).2 (l - A.label.t.off) (j - A.label.t.off) else 0) = _)
    rw [sum_congr rfl e]
    have f6 := f5 (i - A.label.t.off) (by unfold ClusterTree.fin at *; omega) (j - A.label.t.off) (by unfold ClusterTree.fin at *; omega)
    have hM := I.2.2 (i - A.label.t.off) (by unfold ClusterTree.fin at *; omega) (j - A.label.t.off) (by unfold ClusterTree.fin at *; omega)
    have hM' : D.get (i - A.label.t.off) (j - A.label.t.off) = M (A.label.t.off + (i - A.label.t.off)) (A.label.t.off + (j - A.label.t.off)) := hM
    rw [show A.label.t.off + (i - A.label.t.off) = i by omega, show A.label.t.off + (j - A.label.t.off) = j by omega] at hM'
    rw [← hM', ← f6]
    show ∑ l ∈ Ico A.label.t.off (A.label.t.off + A.label.t.sz), _ = _
    rw [sum_Ico_range]
    refine sum_congr rfl fun l _ => ?_
    rw [Nat.add_sub_cancel_left]

/-! ## The loops -/

/-- What the block `p`, `q` contains: factors if `dn p q`, otherwise the current Schur complement. -/
def QL (ad : ClusterTree G → ClusterTree G → Prop) (dn : ClusterTree G → ClusterTree G → Prop) (S L U : ℕ → ℕ → R) (p q : ClusterTree G) (n : FNode G R) : Prop :=
  (dn p q → LUP ad L U n) ∧ (¬ dn p q → RepP .full ad S n)

variable {bad : Bool} {c : ClusterTree G} {N f : ℕ} {dn : ClusterTree G → ClusterTree G → Prop} {S L U : ℕ → ℕ → R} {A : FTree G R}

/-- Two different clusters of the list. -/
theorem clL_apart (hc : ClOK c) (ht : c.Top) {p q : ClusterTree G} (hp : p ∈ clList bad c) (hq : q ∈ clList bad c) (h : p.off < q.off) : p.fin ≤ q.off ∧ p ≠ q := by
  have T := clL_of hc ht bad
  have hne : p ≠ q := by rintro rfl; omega
  refine ⟨?_, hne⟩
  have : ¬ (p.off < q.fin ∧ q.off < p.fin) := fun h => hne (tiling_inj T.tiles T.pos hp hq h)
  have := T.pos q hq
  unfold ClusterTree.fin at *
  omega

/-- "Apply pivot block to row and column" for one block. -/
theorem lu_apply_one (hEx : E.Exact) (hE : TrsmOK E) (hc : ClOK c) (ht : c.Top) (hrk : ∀ p ∈ clList bad c, 0 ≤ p.rk) (hf : 2 * N ≤ f + 2)
    (h : FState .full bad c N (QL ad dn S L U) A) {p o : ClusterTree G} (hp : p ∈ clList bad c) (ho : o ∈ clList bad c) (hpo : p.off < o.off)
    (d1 : dn p p) (d2 : ¬ dn p o) (d3 : ¬ dn o p) :
    ∃ A' Y Z, luApply E f p A o = some A' ∧
      FState .full bad c N (QL ad (fun x y => dn x y ∨ (x = p ∧ y = o) ∨ (x = o ∧ y = p)) S (setB o p Z L) (setB p o Y U)) A' ∧
      (∀ i ∈ Ico p.off p.fin, ∀ k ∈ Ico o.off o.fin, ∑ l ∈ Ico p.off p.fin, L i l * Y l k = S i k) ∧
      (∀ k ∈ Ico o.off o.fin, ∀ j ∈ Ico p.off p.fin, ∑ l ∈ Ico p.off p.fin, Z k l * U l j = S k j) := by
  obtain ⟨ap, hne⟩ := clL_apart hc ht hp ho hpo
  have op := hc.desc (clList_desc hc ht hp)
  have oo := hc.desc (clList_desc hc ht ho)
  obtain ⟨P, g1, g2, g3, g4, g5, -, -⟩ := h.focus hc ht hp hp rfl
  have TL : TriRep .L true .full ad L P := ⟨by simp, Or.inl rfl, g3.trans g4.symm, Shape.imp g2 fun X _ hX => (hX.2.1 d1).1⟩
  have TU : TriRep .U false .full ad U P := ⟨by simp, Or.inl rfl, g3.trans g4.symm, Shape.imp g2 fun X _ hX => (hX.2.1 d1).2⟩
  -- the row
  obtain ⟨X, x1, x2, x3, x4, x5, -, x6⟩ := h.focus hc ht hp ho rfl
  have rX : Rep .full ad S X := Shape.imp x2 fun Y _ hY => hY.2.2 d2
  obtain ⟨X', Y, y1, y2, y3, y4, y5, y6, y7⟩ := triHH_spec hEx hE .L .N f P X S 1 (by omega) TL rX (by rw [g3]; exact Or.inl (hrk p hp))
    (by show X.label.s.Top; rw [x4]; exact Or.inl (hrk o ho)) (by show X.label.t = _; rw [x3, g3]) (Or.inr (by show 0 ≤ X.label.s.rk; rw [x4]; exact hrk o ho))
  have desc : ∀ {x y : ClusterTree G} {W V : FTree G R} {P0 : FNode G R → Prop}, Shape .full P0 W → W.label.t = x → W.label.s = y → V ∈ W.pre →
      x.Desc V.label.t ∧ y.Desc V.label.s := by
    intro x y W V P0 hW e1 e2 hV
    have := Shape.pre_desc hW hV
    rw [e1, e2] at this
    exact ⟨this.1, this.2.1⟩
  obtain ⟨A1, a1, a2⟩ := x6 (triHH E f .L .L .N true 1 P) (QL ad (fun x y => dn x y ∨ (x = p ∧ y = o)) S L (setB p o Y U)) X' y1
    (by
      refine Shape.imp y2 fun V hV hV' => ⟨hV'.1, ⟨fun _ => ?_, fun hn => absurd (Or.inr ⟨rfl, rfl⟩) hn⟩⟩
      obtain ⟨e1, e2⟩ := desc y2 (y3.trans x3) (y4.trans x4) hV
      have b1 := op.desc_bounds e1
      have b2 := oo.desc_bounds e2
      have s1 := (op.desc e1).sz_pos
      have s2 := (oo.desc e2).sz_pos
      have nts : V.label.t ≠ V.label.s := by
        intro e; rw [e] at b1 s1; unfold ClusterTree.fin at *; omega
      refine ⟨⟨fun e => absurd e nts, fun hh => ?_⟩, ⟨fun e => absurd e nts, fun _ => hV'.full_congr fun i j hij => ?_⟩⟩
      · rcases hh with ⟨-, hh⟩ | ⟨hh, -⟩
        · unfold ClusterTree.fin at *; omega
        · cases hh
      · unfold FNode.Has at hij
        exact (setB_in (by omega) (by omega)).symm)
    (y3.trans x3) (y4.trans x4) y5 (by
      intro p' hp' q' hq' hne' n e1 e2 hn
      refine ⟨fun hd => ?_, fun hd => hn.2 fun hd' => hd (Or.inl hd')⟩
      obtain ⟨t1, t2⟩ := hn.1 (hd.resolve_right hne')
      exact ⟨t1, t2.set_upper hc ht hp ho hp' hq' hne' (by omega) e1 e2⟩)
  -- the column
  obtain ⟨W, w1, w2, w3, w4, w5, -, w6⟩ := a2.focus hc ht ho hp rfl
  have rW : Rep .full ad S W := Shape.imp w2 fun V _ hV => hV.2.2 (by
    rintro (hd | ⟨hd, -⟩)
    · exact d3 hd
    · exact hne hd.symm)
  obtain ⟨W', Z, z1, z2, z3, z4, z5, z6, z7⟩ := triHH_spec hEx hE .R .N f P W S 1 (by omega) TU rW (by rw [g3]; exact Or.inl (hrk p hp))
    (by show W.label.t.Top; rw [w3]; exact Or.inl (hrk o ho)) (by show W.label.s = _; rw [w4, g3]) (Or.inr (by show 0 ≤ W.label.t.rk; rw [w3]; exact hrk o ho))
  obtain ⟨A2, b1, b2⟩ := w6 (triHH E f .R .U .N false 1 P) (QL ad (fun x y => dn x y ∨ (x = p ∧ y = o) ∨ (x = o ∧ y = p)) S (setB o p Z L) (setB p o Y U)) W' z1
    (by
      refine Shape.imp z2 fun V hV hV' => ⟨hV'.1, ⟨fun _ => ?_, fun hn => absurd (Or.inr (Or.inr ⟨rfl, rfl⟩)) hn⟩⟩
      obtain ⟨e1, e2⟩ := desc z2 (z3.trans w3) (z4.trans w4) hV
      have b1 := oo.desc_bounds e1
      have b2 := op.desc_bounds e2
      have s1 := (oo.desc e1).sz_pos
      have s2 := (op.desc e2).sz_pos
      have nts : V.label.t ≠ V.label.s := by
        intro e; rw [e] at b1 s1; unfold ClusterTree.fin at *; omega
      refine ⟨⟨fun e => absurd e nts, fun _ => hV'.full_congr fun i j hij => ?_⟩, ⟨fun e => absurd e nts, fun hh => ?_⟩⟩
      · unfold FNode.Has at hij
        exact (setB_in (by omega) (by omega)).symm
      · rcases hh with ⟨hh, -⟩ | ⟨-, hh⟩
        · cases hh
        · unfold ClusterTree.fin at *; omega)
    (z3.trans w3) (z4.trans w4) z5 (by
      intro p' hp' q' hq' hne' n e1 e2 hn
      refine ⟨fun hd => ?_, fun hd => hn.2 fun hd' => hd (hd'.elim Or.inl fun h => Or.inr (Or.inl h))⟩
      obtain ⟨t1, t2⟩ := hn.1 (by
        rcases hd with hd | hd | hd
        · exact Or.inl hd
        · exact Or.inr hd
        · exact absurd hd hne')
      exact ⟨t1.set_lower hc ht ho hp hp' hq' hne' (by omega) e1 e2, t2⟩)
  refine ⟨A2, Y, Z, ?_, b2, fun i hi k hk => ?_, fun k hk j hj => ?_⟩
  · unfold luApply
    rw [if_pos hpo]
    simp only [g1]
    rw [a1]
    exact b1
  · have := y7 i (by rw [g3]; exact hi) k (by show k ∈ Ico X.label.s.off X.label.s.fin; rw [x4]; exact hk)
    rw [g3, one_mul] at this
    exact this
  · have := z7 j (by rw [g3]; exact hj) k (by show k ∈ Ico W.label.t.off W.label.t.fin; rw [w3]; exact hk)
    rw [g3, one_mul] at this
    rw [show S k j = sv .R S j k from rfl, ← this]
    exact sum_congr rfl fun l _ => mul_comm _ _

/-- "Update Schur complement" for one block. -/
theorem lu_update_one (hEx : E.Exact) (hc : ClOK c) (ht : c.Top) (hrk : ∀ p ∈ clList bad c, 0 ≤ p.rk) (hf : 2 * N ≤ f + 2)
    (h : FState .full bad c N (QL ad dn S L U) A) {p x y : ClusterTree G} (hp : p ∈ clList bad c) (hx : x ∈ clList bad c) (hy : y ∈ clList bad c)
    (hpx : p.off < x.off) (hpy : p.off < y.off) (d1 : dn p y) (d2 : dn x p) (d3 : ¬ dn x y) :
    ∃ A', luUpdate E f p A (x, y) = some A' ∧
      FState .full bad c N (QL ad dn (fun i j => S i j - if (x.off ≤ i ∧ i < x.fin) ∧ y.off ≤ j ∧ j < y.fin then ∑ l ∈ Ico p.off p.fin, L i l * U l j else 0) L U) A' := by
  obtain ⟨ax, nx⟩ := clL_apart hc ht hp hx hpx
  obtain ⟨ay, ny⟩ := clL_apart hc ht hp hy hpy
  have op := hc.desc (clList_desc hc ht hp)
  have ox := hc.desc (clList_desc hc ht hx)
  have oy := hc.desc (clList_desc hc ht hy)
  obtain ⟨UB, u1, u2, u3, u4, u5, -, -⟩ := h.focus hc ht hp hy rfl
  obtain ⟨LB, l1, l2, l3, l4, l5, -, -⟩ := h.focus hc ht hx hp rfl
  obtain ⟨C, c1, c2, c3, c4, c5, -, c6⟩ := h.focus hc ht hx hy rfl
  have rU : Rep .full ad U UB := Shape.imp u2 fun V hV hV' => (hV'.2.1 d1).2.2 (Or.inr ⟨rfl, by
    have d := Shape.pre_desc u2 hV
    rw [u3, u4] at d
    have b1 := op.desc_bounds d.1
    have b2 := oy.desc_bounds d.2.1
    omega⟩)
  have rL : Rep .full ad L LB := Shape.imp l2 fun V hV hV' => (hV'.2.1 d2).1.2 (Or.inl ⟨rfl, by
    have d := Shape.pre_desc l2 hV
    rw [l3, l4] at d
    have b1 := ox.desc_bounds d.1
    have b2 := op.desc_bounds d.2.1
    omega⟩)
  have rC : Rep .full ad S C := Shape.imp c2 fun V _ hV => hV.2.2 d3
  have flat : ∀ z ∈ clList bad c, z.Flat := fun z hz => Or.inl (hrk z hz)
  obtain ⟨C', e1, e2, e3, e4, e5⟩ := hhH_spec (m := .full) hEx .N .N (-1) f LB UB C S 1 (by omega) rL rU rC (by rw [l3]; exact flat x hx) (by rw [l4]; exact flat p hp)
    (by rw [u3]; exact flat p hp) (by rw [u4]; exact flat y hy) (by show LB.label.s = UB.label.t; rw [l4, u3]) (by show C.label.t = LB.label.t; rw [c3, l3])
    (by show C.label.s = UB.label.s; rw [c4, u4]) rfl (Or.inl rfl)
  obtain ⟨A', a1, a2⟩ := c6 (hhH E f .N .N (-1) LB UB 1)
    (QL ad dn (fun i j => S i j - if (x.off ≤ i ∧ i < x.fin) ∧ y.off ≤ j ∧ j < y.fin then ∑ l ∈ Ico p.off p.fin, L i l * U l j else 0) L U) C' e1 (by
      refine Shape.imp e2 fun V hV hV' => ⟨hV'.1, ⟨fun hd => absurd hd d3, fun _ => hV'.full_congr fun i j hij => ?_⟩⟩
      have hh := Shape.pre_has e2 hV hij
      unfold FNode.Has at hh
      rw [e3, e4, c3, c4] at hh
      rw [if_pos hh]
      unfold mprod
      show (-1) * ∑ l ∈ Ico LB.label.s.off LB.label.s.fin, L i l * U l j + 1 * S i j = _
      rw [l4]
      ring) (e3.trans c3) (e4.trans c4) e5 (by
      intro p' hp' q' hq' hne' n d1' d2' hn
      refine ⟨hn.1, fun hd => (hn.2 hd).full_congr fun i j hij => ?_⟩
      rw [if_neg (block_disj hc ht hx hy hp' hq' hne' d1' d2' hij), sub_zero])
  refine ⟨A', ?_, a2⟩
  unfold luUpdate
  rw [if_pos ⟨hpx, hpy⟩]
  simp only [u1, l1]
  exact a1

end lu
end Htool
