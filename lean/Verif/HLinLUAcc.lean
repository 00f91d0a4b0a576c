import Verif.HLinLU3
import Verif.HLinTriAcc3

/-! # Accuracy of `lu_factorization` of a hierarchical matrix: one block, the loops -/

namespace Htool
open Finset

section lu
variable {G 𝕜 : Type*} [RCLike 𝕜] [DecidableEq 𝕜] {E : LinOps 𝕜} {ε : ℝ} {a hm : ℕ}
variable {ad : ClusterTree G → ClusterTree G → Prop}

/-- What the block `p`, `q` contains: factors if `dn p q`, otherwise the current Schur complement, about which `F` is known. -/
def QA (ad : ClusterTree G → ClusterTree G → Prop) (dn : ClusterTree G → ClusterTree G → Prop) (S L U : ℕ → ℕ → 𝕜)
    (F : ClusterTree G → ClusterTree G → FNode G 𝕜 → Prop) (p q : ClusterTree G) (n : FNode G 𝕜) : Prop :=
  (dn p q → LUP ad L U n) ∧ (¬ dn p q → RepP .full ad S n ∧ F p q n)

/-- `W` bounds `|H| + |L| |U|` in the block `x`, `y`, the product being over `lo ≤ l < hi`. -/
def LUDom (lo hi : ℕ) (L U H : ℕ → ℕ → 𝕜) (W : ℕ → ℕ → ℝ) (x y : ClusterTree G) : Prop :=
  ∀ i ∈ Ico x.off x.fin, ∀ j ∈ Ico y.off y.fin, ‖H i j‖ + ∑ l ∈ Ico lo hi, ‖L i l‖ * ‖U l j‖ ≤ W i j

/-- Residual of the block `x`, `y` after the cluster `p`, relative to the Schur complement described by `F`. -/
def Res2 (ε : ℝ) (K : ℕ) (ad : ClusterTree G → ClusterTree G → Prop) (F : ClusterTree G → ClusterTree G → FNode G 𝕜 → Prop) (L U : ℕ → ℕ → 𝕜)
    (p x y : ClusterTree G) : Prop :=
  ∀ (W : ℕ → ℕ → ℝ) (Bd : ℝ) (k : ℕ) (H : ℕ → ℕ → 𝕜), Maj W Bd → (∀ n, F x y n → NearP .full (accErr ε Bd k) ad H n) → LUDom p.off p.fin L U H W x y →
    ∀ i ∈ Ico x.off x.fin, ∀ j ∈ Ico y.off y.fin, ‖∑ l ∈ Ico p.off p.fin, L i l * U l j - H i j‖ ≤ accErr ε Bd (k + K)

/-- The block `x`, `y` after its update by the cluster `p`. -/
def Upd2 (ε : ℝ) (K : ℕ) (ad : ClusterTree G → ClusterTree G → Prop) (F : ClusterTree G → ClusterTree G → FNode G 𝕜 → Prop) (L U : ℕ → ℕ → 𝕜)
    (p x y : ClusterTree G) (n : FNode G 𝕜) : Prop :=
  ∀ (W : ℕ → ℕ → ℝ) (Bd : ℝ) (k : ℕ) (H : ℕ → ℕ → 𝕜), Maj W Bd → (∀ n, F x y n → NearP .full (accErr ε Bd k) ad H n) → LUDom p.off p.fin L U H W x y →
    NearP .full (accErr ε Bd (k + K)) ad (fun i j => H i j - ∑ l ∈ Ico p.off p.fin, L i l * U l j) n

variable {bad : Bool} {c : ClusterTree G} {N f : ℕ} {dn : ClusterTree G → ClusterTree G → Prop} {S L U : ℕ → ℕ → 𝕜} {A : FTree G 𝕜}
variable {F : ClusterTree G → ClusterTree G → FNode G 𝕜 → Prop}

omit [DecidableEq 𝕜] in
theorem Res2.congr {K : ℕ} {L' U' : ℕ → ℕ → 𝕜} {p x y : ClusterTree G} (h : Res2 ε K ad F L U p x y)
    (hL : ∀ i ∈ Ico x.off x.fin, ∀ l ∈ Ico p.off p.fin, L' i l = L i l) (hU : ∀ l ∈ Ico p.off p.fin, ∀ j ∈ Ico y.off y.fin, U' l j = U l j) :
    Res2 ε K ad F L' U' p x y := by
  intro W Bd k H h1 h2 h3 i hi j hj
  rw [sum_congr rfl fun l hl => by rw [hL i hi l hl, hU l hl j hj]]
  refine h W Bd k H h1 h2 (fun i hi j hj => ?_) i hi j hj
  have := h3 i hi j hj
  rw [sum_congr rfl fun l hl => by rw [hL i hi l hl, hU l hl j hj]] at this
  exact this

/-- "Apply pivot block to row and column" for one block. -/
theorem luA_apply_one (hE : E.Acc ε) (hε : 0 ≤ ε) (hT : TrsmOK E) (hc : ClOK c) (ht : c.Top) (hrk : ∀ p ∈ clList bad c, 0 ≤ p.rk) (har : c.Arity a)
    (hf : 2 * N ≤ f + 2) (hN : N ≤ hm)
    (h : FState .full bad c N (QA ad dn S L U F) A) {p o : ClusterTree G} (hp : p ∈ clList bad c) (ho : o ∈ clList bad c) (hpo : p.off < o.off)
    (d1 : dn p p) (d2 : ¬ dn p o) (d3 : ¬ dn o p) :
    ∃ A' Y Z, luApply E f p A o = some A' ∧
      FState .full bad c N (QA ad (fun x y => dn x y ∨ (x = p ∧ y = o) ∨ (x = o ∧ y = p)) S (setB o p Z L) (setB p o Y U) F) A' ∧
      Res2 ε (2 * hm * (a * truncs a hm)) ad F L Y p p o ∧ Res2 ε (2 * hm * (a * truncs a hm)) ad F Z U p o p := by
  obtain ⟨ap, hne⟩ := clL_apart hc ht hp ho hpo
  have op := hc.desc (clList_desc hc ht hp)
  have oo := hc.desc (clList_desc hc ht ho)
  have aro := har.desc (clList_desc hc ht ho)
  have arp := har.desc (clList_desc hc ht hp)
  obtain ⟨P, g1, g2, g3, g4, g5, -, -⟩ := h.focus hc ht hp hp rfl
  have TL : TriRep .L true .full ad L P := ⟨by simp, Or.inl rfl, g3.trans g4.symm, Shape.imp g2 fun X _ hX => (hX.2.1 d1).1⟩
  have TU : TriRep .U false .full ad U P := ⟨by simp, Or.inl rfl, g3.trans g4.symm, Shape.imp g2 fun X _ hX => (hX.2.1 d1).2⟩
  -- the row
  obtain ⟨X, x1, x2, x3, x4, x5, -, x6⟩ := h.focus hc ht hp ho rfl
  have rX : Rep .full ad S X := Shape.imp x2 fun Y _ hY => (hY.2.2 d2).1
  have nX : Shape .full (fun n => RepP .full ad S n ∧ (n.data ≠ .hier → F p o n)) X := Shape.imp x2 fun Y _ hY => ⟨(hY.2.2 d2).1, fun _ => (hY.2.2 d2).2⟩
  have ok1 := triHH_near (a := a) (hm := hm) (adB := ad) (m := .full) (ad := ad) (u := .L) (unit := true) (T := L) hE hε hT .L .N f (2 * N - 2) (by omega)
  obtain ⟨X', Y, y1, y2, y3, y4, y5, y6⟩ := ok1 P X S (by omega) (by omega) (by omega) (by rw [g3]; exact arp)
    (by show X.label.s.Arity a; rw [x4]; exact aro) TL rX (by rw [g3]; exact Or.inl (hrk p hp))
    (by show X.label.s.Top; rw [x4]; exact Or.inl (hrk o ho)) (by show X.label.t = _; rw [x3, g3]) (Or.inr (by show 0 ≤ X.label.s.rk; rw [x4]; exact hrk o ho))
  have y2 : Rep .full ad Y X' := y2
  have desc : ∀ {x y : ClusterTree G} {W V : FTree G 𝕜} {P0 : FNode G 𝕜 → Prop}, Shape .full P0 W → W.label.t = x → W.label.s = y → V ∈ W.pre →
      x.Desc V.label.t ∧ y.Desc V.label.s := by
    intro x y W V P0 hW e1 e2 hV
    have := Shape.pre_desc hW hV
    rw [e1, e2] at this
    exact ⟨this.1, this.2.1⟩
  obtain ⟨A1, a1, a2⟩ := x6 (triHH E f .L .L .N true 1 P) (QA ad (fun x y => dn x y ∨ (x = p ∧ y = o)) S L (setB p o Y U) F) X' y1
    (by
      refine Shape.imp y2 fun V hV hV' => ⟨hV'.1, ⟨fun _ => ?_, fun hn => absurd (Or.inr ⟨rfl, rfl⟩) hn⟩⟩
      obtain ⟨e1, e2⟩ := desc y2 (y3.trans x3) (y4.trans x4) hV
      have b1 := op.desc_bounds e1
      have b2 := oo.desc_bounds e2
      have s1 := (op.desc e1).sz_pos
      have s2 := (oo.desc e2).sz_pos
      have nts : V.label.t ≠ V.label.s := by
        intro e; rw [e] at b1 s1; unfold ClusterTree.fin at *; omega
      refine ⟨⟨fun e => absurd e nts, fun hh => ?_⟩, ⟨fun e => absurd e nts, fun _ => hV'.full_congr fun i j hij => ?_⟩⟩
      · rcases hh with ⟨-, hh⟩ | ⟨hh, -⟩
        · unfold ClusterTree.fin at *; omega
        · cases hh
      · unfold FNode.Has at hij
        exact (setB_in (by omega) (by omega)).symm)
    (y3.trans x3) (y4.trans x4) y5 (by
      intro p' hp' q' hq' hne' n e1 e2 hn
      refine ⟨fun hd => ?_, fun hd => hn.2 fun hd' => hd (Or.inl hd')⟩
      obtain ⟨t1, t2⟩ := hn.1 (hd.resolve_right hne')
      exact ⟨t1, t2.set_upper hc ht hp ho hp' hq' hne' (by omega) e1 e2⟩)
  -- the column
  obtain ⟨W, w1, w2, w3, w4, w5, -, w6⟩ := a2.focus hc ht ho hp rfl
  have ndW : ¬ (dn o p ∨ (o = p ∧ p = o)) := by
    rintro (hd | ⟨hd, -⟩)
    · exact d3 hd
    · exact hne hd.symm
  have rW : Rep .full ad S W := Shape.imp w2 fun V _ hV => (hV.2.2 ndW).1
  have nW : Shape .full (fun n => RepP .full ad S n ∧ (n.data ≠ .hier → F o p n)) W := Shape.imp w2 fun Y _ hY => ⟨(hY.2.2 ndW).1, fun _ => (hY.2.2 ndW).2⟩
  have ok2 := triHH_near (a := a) (hm := hm) (adB := ad) (m := .full) (ad := ad) (u := .U) (unit := false) (T := U) hE hε hT .R .N f (2 * N - 2) (by omega)
  obtain ⟨W', Z, z1, z2, z3, z4, z5, z6⟩ := ok2 P W S (by omega) (by omega) (by omega) (by rw [g3]; exact arp)
    (by show W.label.t.Arity a; rw [w3]; exact aro) TU rW (by rw [g3]; exact Or.inl (hrk p hp))
    (by show W.label.t.Top; rw [w3]; exact Or.inl (hrk o ho)) (by show W.label.s = _; rw [w4, g3]) (Or.inr (by show 0 ≤ W.label.t.rk; rw [w3]; exact hrk o ho))
  have z2 : Rep .full ad (fun i j => Z j i) W' := z2
  obtain ⟨A2, b1, b2⟩ := w6 (triHH E f .R .U .N false 1 P) (QA ad (fun x y => dn x y ∨ (x = p ∧ y = o) ∨ (x = o ∧ y = p)) S (setB o p (fun i j => Z j i) L) (setB p o Y U) F) W' z1
    (by
      refine Shape.imp z2 fun V hV hV' => ⟨hV'.1, ⟨fun _ => ?_, fun hn => absurd (Or.inr (Or.inr ⟨rfl, rfl⟩)) hn⟩⟩
      obtain ⟨e1, e2⟩ := desc z2 (z3.trans w3) (z4.trans w4) hV
      have b1 := oo.desc_bounds e1
      have b2 := op.desc_bounds e2
      have s1 := (oo.desc e1).sz_pos
      have s2 := (op.desc e2).sz_pos
      have nts : V.label.t ≠ V.label.s := by
        intro e; rw [e] at b1 s1; unfold ClusterTree.fin at *; omega
      refine ⟨⟨fun e => absurd e nts, fun _ => hV'.full_congr fun i j hij => ?_⟩, ⟨fun e => absurd e nts, fun hh => ?_⟩⟩
      · unfold FNode.Has at hij
        exact (setB_in (X := fun i j => Z j i) (by omega) (by omega)).symm
      · rcases hh with ⟨hh, -⟩ | ⟨-, hh⟩
        · cases hh
        · unfold ClusterTree.fin at *; omega)
    (z3.trans w3) (z4.trans w4) z5 (by
      intro p' hp' q' hq' hne' n e1 e2 hn
      refine ⟨fun hd => ?_, fun hd => hn.2 fun hd' => hd (hd'.elim Or.inl fun h => Or.inr (Or.inl h))⟩
      obtain ⟨t1, t2⟩ := hn.1 (by
        rcases hd with hd | hd | hd
        · exact Or.inl hd
        · exact Or.inr hd
        · exact absurd hd hne')
      exact ⟨t1.set_lower hc ht ho hp hp' hq' hne' (by omega) e1 e2, t2⟩)
  have hK : (2 * N - 2) * (a * truncs a hm) ≤ 2 * hm * (a * truncs a hm) := Nat.mul_le_mul_right _ (by omega)
  refine ⟨A2, Y, fun i j => Z j i, ?_, b2, fun W0 Bd k H h1 h2 h3 i hi j hj => ?_, fun W0 Bd k H h1 h2 h3 i hi j hj => ?_⟩
  · unfold luApply
    rw [if_pos hpo]
    simp only [g1]
    rw [a1]
    exact b1
  · have v := y6 W0 Bd k H h1 (nearT_of nX fun n hn => h2 n hn) (by
      rw [g3]
      show ∀ i ∈ _, ∀ j ∈ Ico X.label.s.off X.label.s.fin, _
      rw [x4]
      exact h3) i (by rw [g3]; exact hi) j (by show j ∈ Ico X.label.s.off X.label.s.fin; rw [x4]; exact hj)
    rw [g3] at v
    exact v.trans (accErr_mono hε h1.nonneg (by omega))
  · have v := z6 W0 Bd k (fun i j => H j i) h1 (nearT_of nW fun n hn => h2 n hn) (by
      rw [g3]
      show ∀ i ∈ _, ∀ j ∈ Ico W.label.t.off W.label.t.fin, _
      rw [w3]
      intro i hi j hj
      refine le_trans (le_of_eq ?_) (h3 j hj i hi)
      congr 1
      exact sum_congr rfl fun l _ => mul_comm _ _) j (by rw [g3]; exact hj) i (by show i ∈ Ico W.label.t.off W.label.t.fin; rw [w3]; exact hi)
    rw [g3] at v
    refine le_trans (le_of_eq ?_) (v.trans (accErr_mono hε h1.nonneg (by omega)))
    congr 2
    exact sum_congr rfl fun l _ => mul_comm _ _

/-- "Update Schur complement" for one block. -/
theorem luA_update_one (hE : E.Acc ε) (hε : 0 ≤ ε) (hc : ClOK c) (ht : c.Top) (hrk : ∀ p ∈ clList bad c, 0 ≤ p.rk) (har : c.Arity a) (hf : 2 * N ≤ f + 2) (hN : N ≤ hm)
    (h : FState .full bad c N (QA ad dn S L U F) A) {p x y : ClusterTree G} (hp : p ∈ clList bad c) (hx : x ∈ clList bad c) (hy : y ∈ clList bad c)
    (hpx : p.off < x.off) (hpy : p.off < y.off) (d1 : dn p y) (d2 : dn x p) (d3 : ¬ dn x y) :
    ∃ A' S', luUpdate E f p A (x, y) = some A' ∧
      FState .full bad c N (QA ad dn S' L U (fun x' y' n => (x' = x ∧ y' = y → Upd2 ε (truncs a hm) ad F L U p x y n) ∧ (¬ (x' = x ∧ y' = y) → F x' y' n))) A' := by
  obtain ⟨ax, nx⟩ := clL_apart hc ht hp hx hpx
  obtain ⟨ay, ny⟩ := clL_apart hc ht hp hy hpy
  have op := hc.desc (clList_desc hc ht hp)
  have ox := hc.desc (clList_desc hc ht hx)
  have oy := hc.desc (clList_desc hc ht hy)
  have arx := har.desc (clList_desc hc ht hx)
  have ary := har.desc (clList_desc hc ht hy)
  have arp := har.desc (clList_desc hc ht hp)
  obtain ⟨UB, u1, u2, u3, u4, u5, -, -⟩ := h.focus hc ht hp hy rfl
  obtain ⟨LB, l1, l2, l3, l4, l5, -, -⟩ := h.focus hc ht hx hp rfl
  obtain ⟨C, c1, c2, c3, c4, c5, -, c6⟩ := h.focus hc ht hx hy rfl
  have rU : Rep .full ad U UB := Shape.imp u2 fun V hV hV' => (hV'.2.1 d1).2.2 (Or.inr ⟨rfl, by
    have d := Shape.pre_desc u2 hV
    rw [u3, u4] at d
    have b1 := op.desc_bounds d.1
    have b2 := oy.desc_bounds d.2.1
    omega⟩)
  have rL : Rep .full ad L LB := Shape.imp l2 fun V hV hV' => (hV'.2.1 d2).1.2 (Or.inl ⟨rfl, by
    have d := Shape.pre_desc l2 hV
    rw [l3, l4] at d
    have b1 := ox.desc_bounds d.1
    have b2 := op.desc_bounds d.2.1
    omega⟩)
  have rC : Rep .full ad S C := Shape.imp c2 fun V _ hV => (hV.2.2 d3).1
  have nC : Shape .full (fun n => RepP .full ad S n ∧ (n.data ≠ .hier → F x y n)) C := Shape.imp c2 fun Y _ hY => ⟨(hY.2.2 d3).1, fun _ => (hY.2.2 d3).2⟩
  have flat : ∀ z ∈ clList bad c, z.Flat := fun z hz => Or.inl (hrk z hz)
  obtain ⟨C', S1, e1, e2, e3, e4, e5, e6⟩ := hhH_upd (a := a) (hm := hm) (adA := ad) (adB := ad) (adC := ad) hE hε .N .N (show LB.ht + UB.ht ≤ f by omega) (by omega)
    (rL.opnd (by rw [l3]; exact arx) (by rw [l4]; exact arp)) (rU.opnd (by rw [u3]; exact arp) (by rw [u4]; exact ary)) rC (by rw [l3]; exact flat x hx) (by rw [l4]; exact flat p hp)
    (by rw [u3]; exact flat p hp) (by rw [u4]; exact flat y hy) (by show LB.label.s = UB.label.t; rw [l4, u3]) (by show C.label.t = LB.label.t; rw [c3, l3])
    (by show C.label.s = UB.label.s; rw [c4, u4])
  have hin : LB.inC .N = p := l4
  obtain ⟨A', a1, a2⟩ := c6 (hhH E f .N .N (-1) LB UB 1)
    (QA ad dn (setB x y S1 S) L U (fun x' y' n => (x' = x ∧ y' = y → Upd2 ε (truncs a hm) ad F L U p x y n) ∧ (¬ (x' = x ∧ y' = y) → F x' y' n))) C' e1 (by
      intro V hV
      have bV := e2 V hV
      have hV' := bV.prop
      refine ⟨⟨hV'.1, fun hd => absurd hd d3, fun _ => ⟨hV'.full_congr fun i j hij => ?_, fun _ => ?_, fun hn => absurd ⟨rfl, rfl⟩ hn⟩⟩, bV.clT, bV.clS, bV.leaf, bV.split⟩
      · have hh := Shape.pre_has e2 hV hij
        unfold FNode.Has at hh
        rw [e3, e4, c3, c4] at hh
        exact (setB_in hh.1 hh.2).symm
      · intro W Bd k H h1 h2 h3
        have v := e6 W Bd k H h1 (nearT_of nC fun n hn => h2 n hn) (by
          intro i j hij
          unfold FNode.Has at hij
          rw [c3, c4] at hij
          have := h3 i (mem_Ico.2 hij.1) j (mem_Ico.2 hij.2)
          rw [hin]
          exact this)
        have := (v V hV).prop
        refine this.congr fun i j _ => ?_
        rw [hin]
        rfl) (e3.trans c3) (e4.trans c4) e5 (by
      intro p' hp' q' hq' hne' n d1' d2' hn
      refine ⟨hn.1, fun hd => ⟨(hn.2 hd).1.full_congr fun i j hij => ?_, fun hc' => absurd hc' hne', fun _ => (hn.2 hd).2⟩⟩
      exact (setB_out (block_disj hc ht hx hy hp' hq' hne' d1' d2' hij)).symm)
  refine ⟨A', setB x y S1 S, ?_, a2⟩
  unfold luUpdate
  rw [if_pos ⟨hpx, hpy⟩]
  simp only [u1, l1]
  exact a1

/-- "Apply pivot block to row and column". -/
theorem luA_apply_loop (hE : E.Acc ε) (hε : 0 ≤ ε) (hT : TrsmOK E) (hc : ClOK c) (ht : c.Top) (hrk : ∀ p ∈ clList bad c, 0 ≤ p.rk) (har : c.Arity a)
    (hf : 2 * N ≤ f + 2) (hN : N ≤ hm) {p : ClusterTree G} (hp : p ∈ clList bad c)
    (h : FState .full bad c N (QA ad (fun x y => x.off < p.off ∨ y.off < p.off ∨ (x = p ∧ y = p)) S L U F) A)
    (zL : ZL (clList bad c) L) (zU : ZU (clList bad c) U) :
    ∃ A' L' U', (clList bad c).foldlM (luApply E f p) A = some A' ∧
      FState .full bad c N (QA ad (fun x y => x.off < p.fin ∨ y.off < p.fin) S L' U' F) A' ∧ ZL (clList bad c) L' ∧ ZU (clList bad c) U' ∧
      (∀ i l, (¬ (p.off ≤ l ∧ l < p.fin) ∨ i < p.fin) → L' i l = L i l) ∧ (∀ l j, (¬ (p.off ≤ l ∧ l < p.fin) ∨ j < p.fin) → U' l j = U l j) ∧
      ∀ o ∈ clList bad c, p.off < o.off →
        Res2 ε (2 * hm * (a * truncs a hm)) ad F L' U' p p o ∧ Res2 ε (2 * hm * (a * truncs a hm)) ad F L' U' p o p := by
  have T := clL_of hc ht bad
  have key := foldlM_inv (f := luApply E f p) (fun l1 A => ∃ L' U',
      FState .full bad c N (QA ad (fun x y => (x.off < p.off ∨ y.off < p.off ∨ (x = p ∧ y = p)) ∨ (x = p ∧ y ∈ l1 ∧ p.off < y.off) ∨ (y = p ∧ x ∈ l1 ∧ p.off < x.off)) S L' U' F) A ∧
      ZL (clList bad c) L' ∧ ZU (clList bad c) U' ∧
      (∀ i l, (¬ (p.off ≤ l ∧ l < p.fin) ∨ i < p.fin) → L' i l = L i l) ∧ (∀ l j, (¬ (p.off ≤ l ∧ l < p.fin) ∨ j < p.fin) → U' l j = U l j) ∧
      ∀ o ∈ l1, p.off < o.off →
        Res2 ε (2 * hm * (a * truncs a hm)) ad F L' U' p p o ∧ Res2 ε (2 * hm * (a * truncs a hm)) ad F L' U' p o p) (clList bad c) [] A
    ⟨L, U, h.congr fun x _ y _ n _ _ hn => ⟨fun hd => hn.1 (by simpa using hd), fun hd => hn.2 fun hd' => hd (Or.inl hd')⟩, zL, zU, fun _ _ _ => rfl, fun _ _ _ => rfl, by simp⟩
    (by
      intro l1 o l2 B hl _ hI
      obtain ⟨L1, U1, i1, i2, i3, i4, i5, i6⟩ := hI
      rw [List.nil_append] at hl
      have ho : o ∈ clList bad c := by rw [hl]; simp
      have hsub : ∀ x ∈ l1, x ∈ clList bad c := fun x hx => by rw [hl]; exact List.mem_append_left _ hx
      have hno : o ∉ l1 := by
        have := T.nodup
        rw [hl, List.nodup_append] at this
        exact fun hx => this.2.2 o hx o List.mem_cons_self rfl
      by_cases hpo : p.off < o.off
      · obtain ⟨ap, hne⟩ := clL_apart hc ht hp ho hpo
        have hps := T.pos p hp
        have hos := T.pos o ho
        obtain ⟨A', Y, Z, a1, a2, a3, a4⟩ := luA_apply_one hE hε hT hc ht hrk har hf hN i1 hp ho hpo (Or.inl (Or.inr (Or.inr ⟨rfl, rfl⟩)))
          (by
            rintro ((h1 | h1 | h1) | h1 | h1)
            · omega
            · omega
            · exact hne h1.2.symm
            · exact hno h1.2.1
            · exact hne h1.1.symm)
          (by
            rintro ((h1 | h1 | h1) | h1 | h1)
            · omega
            · omega
            · exact hne h1.1.symm
            · exact hne h1.1.symm
            · exact hno h1.2.1)
        refine ⟨A', a1, setB o p Z L1, setB p o Y U1, a2.congr ?_, ?_, ?_, ?_, ?_, ?_⟩
        · intro x _ y _ n _ _ hn
          refine ⟨fun hd => hn.1 ?_, fun hd => hn.2 fun hd' => hd ?_⟩
          · rcases hd with hd | hd | hd
            · exact Or.inl (Or.inl hd)
            · rcases List.mem_append.1 hd.2.1 with h1 | h1
              · exact Or.inl (Or.inr (Or.inl ⟨hd.1, h1, hd.2.2⟩))
              · exact Or.inr (Or.inl ⟨hd.1, List.mem_singleton.1 h1⟩)
            · rcases List.mem_append.1 hd.2.1 with h1 | h1
              · exact Or.inl (Or.inr (Or.inr ⟨hd.1, h1, hd.2.2⟩))
              · exact Or.inr (Or.inr ⟨List.mem_singleton.1 h1, hd.1⟩)
          · rcases hd' with (hd' | hd' | hd') | hd' | hd'
            · exact Or.inl hd'
            · exact Or.inr (Or.inl ⟨hd'.1, List.mem_append_left _ hd'.2.1, hd'.2.2⟩)
            · exact Or.inr (Or.inr ⟨hd'.1, List.mem_append_left _ hd'.2.1, hd'.2.2⟩)
            · exact Or.inr (Or.inl ⟨hd'.1, by rw [hd'.2]; simp, by rw [hd'.2]; exact hpo⟩)
            · exact Or.inr (Or.inr ⟨hd'.2, by rw [hd'.1]; simp, by rw [hd'.1]; exact hpo⟩)
        · intro x hx i j hi hj
          rw [setB_out]
          · exact i2 x hx i j hi hj
          · rintro ⟨h1, h2⟩
            have := tiling_inj T.tiles T.pos hx ho (by omega)
            rw [this] at hj
            unfold ClusterTree.fin at *
            omega
        · intro x hx i j hi hj
          rw [setB_out]
          · exact i3 x hx i j hi hj
          · rintro ⟨h1, h2⟩
            have := tiling_inj T.tiles T.pos hx hp (by omega)
            rw [this] at hj
            unfold ClusterTree.fin at *
            omega
        · intro i l hil
          rw [setB_out (by rintro ⟨h1, h2⟩; omega)]
          exact i4 i l hil
        · intro l j hil
          rw [setB_out (by rintro ⟨h1, h2⟩; omega)]
          exact i5 l j hil
        · intro o' ho' hpo'
          rcases List.mem_append.1 ho' with h1 | h1
          · have hne' : o' ≠ o := fun e => hno (e ▸ h1)
            have dj : ∀ k ∈ Ico o'.off o'.fin, ¬ (o.off ≤ k ∧ k < o.fin) := fun k hk h2 => by
              have hk := mem_Ico.1 hk
              exact hne' (tiling_inj T.tiles T.pos (hsub o' h1) ho (by omega))
            obtain ⟨e1, e2⟩ := i6 o' h1 hpo'
            refine ⟨e1.congr (fun i hi l _ => ?_) (fun l _ k hk => ?_), e2.congr (fun k hk l _ => ?_) (fun l _ j hj => ?_)⟩
            · have hi := mem_Ico.1 hi
              rw [setB_out (by rintro ⟨h1, h2⟩; omega)]
            · rw [setB_out (fun h2 => dj k hk h2.2)]
            · rw [setB_out (fun h2 => dj k hk h2.1)]
            · have hj := mem_Ico.1 hj
              rw [setB_out (by rintro ⟨h1, h2⟩; omega)]
          · rw [List.mem_singleton.1 h1]
            refine ⟨a3.congr (fun i hi l _ => ?_) (fun l hl k hk => ?_), a4.congr (fun k hk l hl => ?_) (fun l _ j hj => ?_)⟩
            · have hi := mem_Ico.1 hi
              rw [setB_out (by rintro ⟨h1, h2⟩; omega)]
            · rw [setB_in (mem_Ico.1 hl) (mem_Ico.1 hk)]
            · rw [setB_in (mem_Ico.1 hk) (mem_Ico.1 hl)]
            · have hj := mem_Ico.1 hj
              rw [setB_out (by rintro ⟨h1, h2⟩; omega)]
      · refine ⟨B, by unfold luApply; rw [if_neg hpo], L1, U1, i1.congr ?_, i2, i3, i4, i5, ?_⟩
        · intro x _ y _ n _ _ hn
          refine ⟨fun hd => hn.1 ?_, fun hd => hn.2 fun hd' => hd ?_⟩
          · rcases hd with hd | hd | hd
            · exact Or.inl hd
            · rcases List.mem_append.1 hd.2.1 with h1 | h1
              · exact Or.inr (Or.inl ⟨hd.1, h1, hd.2.2⟩)
              · rw [List.mem_singleton.1 h1] at hd; exact absurd hd.2.2 hpo
            · rcases List.mem_append.1 hd.2.1 with h1 | h1
              · exact Or.inr (Or.inr ⟨hd.1, h1, hd.2.2⟩)
              · rw [List.mem_singleton.1 h1] at hd; exact absurd hd.2.2 hpo
          · rcases hd' with hd' | hd' | hd'
            · exact Or.inl hd'
            · exact Or.inr (Or.inl ⟨hd'.1, List.mem_append_left _ hd'.2.1, hd'.2.2⟩)
            · exact Or.inr (Or.inr ⟨hd'.1, List.mem_append_left _ hd'.2.1, hd'.2.2⟩)
        · intro o' ho' hpo'
          rcases List.mem_append.1 ho' with h1 | h1
          · exact i6 o' h1 hpo'
          · rw [List.mem_singleton.1 h1] at hpo'; exact absurd hpo' hpo)
  obtain ⟨A', e1, L', U', e2, e3⟩ := key
  rw [List.nil_append] at e2 e3
  refine ⟨A', L', U', e1, e2.congr ?_, e3⟩
  intro x hx y hy n _ _ hn
  have hps := T.pos p hp
  have cmp : ∀ x ∈ clList bad c, x.off < p.fin ↔ x.off < p.off ∨ x = p := by
    intro x hx
    have hxs := T.pos x hx
    constructor
    · intro h1
      by_cases he : x = p
      · exact Or.inr he
      · refine Or.inl ?_
        by_contra h2
        exact he (tiling_inj T.tiles T.pos hx hp (by unfold ClusterTree.fin at *; omega))
    · rintro (h1 | rfl)
      · unfold ClusterTree.fin; omega
      · unfold ClusterTree.fin; omega
  have tri : ∀ x ∈ clList bad c, x.off < p.off ∨ x = p ∨ p.off < x.off := by
    intro x hx
    by_cases he : x = p
    · exact Or.inr (Or.inl he)
    · have hxs := T.pos x hx
      have : ¬ (x.off < p.fin ∧ p.off < x.fin) := fun h1 => he (tiling_inj T.tiles T.pos hx hp h1)
      unfold ClusterTree.fin at *
      omega
  refine ⟨fun hd => hn.1 ?_, fun hd => hn.2 fun hd' => hd ?_⟩
  · rcases hd with hd | hd
    · rcases (cmp x hx).1 hd with h1 | h1
      · exact Or.inl (Or.inl h1)
      · rcases tri y hy with h2 | h2 | h2
        · exact Or.inl (Or.inr (Or.inl h2))
        · exact Or.inl (Or.inr (Or.inr ⟨h1, h2⟩))
        · exact Or.inr (Or.inl ⟨h1, hy, h2⟩)
    · rcases (cmp y hy).1 hd with h1 | h1
      · exact Or.inl (Or.inr (Or.inl h1))
      · rcases tri x hx with h2 | h2 | h2
        · exact Or.inl (Or.inl h2)
        · exact Or.inl (Or.inr (Or.inr ⟨h2, h1⟩))
        · exact Or.inr (Or.inr ⟨h1, hx, h2⟩)
  · rcases hd' with (h1 | h1 | h1) | h1 | h1
    · exact Or.inl ((cmp x hx).2 (Or.inl h1))
    · exact Or.inr ((cmp y hy).2 (Or.inl h1))
    · exact Or.inl ((cmp x hx).2 (Or.inr h1.1))
    · exact Or.inl ((cmp x hx).2 (Or.inr h1.1))
    · exact Or.inr ((cmp y hy).2 (Or.inr h1.1))

/-- "Update Schur complement". -/
theorem luA_update_loop (hE : E.Acc ε) (hε : 0 ≤ ε) (hc : ClOK c) (ht : c.Top) (hrk : ∀ p ∈ clList bad c, 0 ≤ p.rk) (har : c.Arity a) (hf : 2 * N ≤ f + 2) (hN : N ≤ hm)
    {p : ClusterTree G} (hp : p ∈ clList bad c)
    (h : FState .full bad c N (QA ad (fun x y => x.off < p.fin ∨ y.off < p.fin) S L U F) A) :
    ∃ A' S', (pairs (clList bad c) (clList bad c)).foldlM (luUpdate E f p) A = some A' ∧
      FState .full bad c N (QA ad (fun x y => x.off < p.fin ∨ y.off < p.fin) S' L U (Upd2 ε (truncs a hm) ad F L U p)) A' := by
  have T := clL_of hc ht bad
  have hps := T.pos p hp
  have nd : (pairs (clList bad c) (clList bad c)).Nodup := List.Nodup.product T.nodup T.nodup
  have key := foldlM_inv (f := luUpdate E f p) (fun l1 A => ∃ S',
      FState .full bad c N (QA ad (fun x y => x.off < p.fin ∨ y.off < p.fin) S' L U (fun x y n =>
        ((x, y) ∈ l1 ∧ p.off < x.off ∧ p.off < y.off → Upd2 ε (truncs a hm) ad F L U p x y n) ∧ (¬ ((x, y) ∈ l1 ∧ p.off < x.off ∧ p.off < y.off) → F x y n))) A)
    (pairs (clList bad c) (clList bad c)) [] A
    ⟨S, h.congr fun x _ y _ n _ _ hn => ⟨hn.1, fun hd => ⟨(hn.2 hd).1, fun hh => by simp at hh, fun _ => (hn.2 hd).2⟩⟩⟩
    (by
      rintro l1 ⟨x, y⟩ l2 B hl _ ⟨S1, hI⟩
      rw [List.nil_append] at hl
      have hm' : (x, y) ∈ pairs (clList bad c) (clList bad c) := by rw [hl]; simp
      obtain ⟨hx, hy⟩ := pair_mem_pairs.1 hm'
      have hno : (x, y) ∉ l1 := by
        rw [hl, List.nodup_append] at nd
        exact fun hh => nd.2.2 _ hh _ List.mem_cons_self rfl
      by_cases hxy : p.off < x.off ∧ p.off < y.off
      · obtain ⟨B', S2, b1, b2⟩ := luA_update_one hE hε hc ht hrk har hf hN hI hp hx hy hxy.1 hxy.2 (Or.inl (by unfold ClusterTree.fin; omega))
          (Or.inr (by unfold ClusterTree.fin; omega)) (by
            have a1 := (clL_apart hc ht hp hx hxy.1).1
            have a2 := (clL_apart hc ht hp hy hxy.2).1
            omega)
        refine ⟨B', b1, S2, b2.congr fun x' _ y' _ n _ _ hn => ⟨hn.1, fun hd => ⟨(hn.2 hd).1, fun hh => ?_, fun hh => ?_⟩⟩⟩
        · rcases List.mem_append.1 hh.1 with h1 | h1
          · have hne : ¬ (x' = x ∧ y' = y) := by rintro ⟨rfl, rfl⟩; exact hno h1
            exact ((hn.2 hd).2.2 hne).1 ⟨h1, hh.2⟩
          · have e : x' = x ∧ y' = y := by simpa using h1
            obtain ⟨rfl, rfl⟩ := e
            have v := (hn.2 hd).2.1 ⟨rfl, rfl⟩
            intro W Bd k H h1 h2 h3
            exact v W Bd k H h1 (fun n hn => h2 n (hn.2 fun hc => hno hc.1)) h3
        · have hne : ¬ (x' = x ∧ y' = y) := by
            rintro ⟨rfl, rfl⟩
            exact hh ⟨by simp, hxy⟩
          exact ((hn.2 hd).2.2 hne).2 fun hc => hh ⟨List.mem_append_left _ hc.1, hc.2⟩
      · refine ⟨B, by unfold luUpdate; rw [if_neg hxy], S1, hI.congr fun x' _ y' _ n _ _ hn => ⟨hn.1, fun hd => ⟨(hn.2 hd).1, fun hh => ?_, fun hh => ?_⟩⟩⟩
        · rcases List.mem_append.1 hh.1 with h1 | h1
          · exact (hn.2 hd).2.1 ⟨h1, hh.2⟩
          · have e : x' = x ∧ y' = y := by simpa using h1
            obtain ⟨rfl, rfl⟩ := e
            exact absurd hh.2 hxy
        · exact (hn.2 hd).2.2 fun hc => hh ⟨List.mem_append_left _ hc.1, hc.2⟩)
  obtain ⟨A', e1, S', e2⟩ := key
  rw [List.nil_append] at e2
  refine ⟨A', S', e1, e2.congr fun x hx y hy n _ _ hn => ⟨hn.1, fun hd => ⟨(hn.2 hd).1, (hn.2 hd).2.1 ⟨pair_mem_pairs.2 ⟨hx, hy⟩, ?_⟩⟩⟩⟩
  unfold ClusterTree.fin at hd
  omega

omit [DecidableEq 𝕜] in
/-- A block of the diagonal of `L U`. -/
theorem QA_set_diag (hc : ClOK c) (ht : c.Top) {dn : ClusterTree G → ClusterTree G → Prop} {p x y : ClusterTree G} (hp : p ∈ clList bad c) (hx : x ∈ clList bad c)
    (hy : y ∈ clList bad c) (hne : ¬ (x = p ∧ y = p)) {n : FNode G 𝕜} (d1 : x.Desc n.t) (d2 : y.Desc n.s) {L1 U1 : ℕ → ℕ → 𝕜} (h : QA ad dn S L U F x y n) :
    QA ad (fun x y => dn x y ∨ (x = p ∧ y = p)) S (setB p p L1 L) (setB p p U1 U) F x y n := by
  refine ⟨fun hd => ?_, fun hd => h.2 fun hd' => hd (Or.inl hd')⟩
  obtain ⟨t1, t2⟩ := h.1 (hd.resolve_right hne)
  exact ⟨t1.set_lower hc ht hp hp hx hy hne (le_refl _) d1 d2, t2.set_upper hc ht hp hp hx hy hne (le_refl _) d1 d2⟩

/-- Residual of factors found for the matrix `X`. -/
def LUNear (ε : ℝ) (K : ℕ) (ad : ClusterTree G → ClusterTree G → Prop) (c : ClusterTree G) (L U : ℕ → ℕ → 𝕜) (X : FTree G 𝕜) : Prop :=
  ∀ (W : ℕ → ℕ → ℝ) (Bd : ℝ) (k : ℕ) (H : ℕ → ℕ → 𝕜), Maj W Bd → NearT .full (accErr ε Bd k) ad H X → LUDom c.off c.fin L U H W c c →
    ∀ i ∈ Ico c.off c.fin, ∀ j ∈ Ico c.off c.fin, ‖∑ l ∈ Ico c.off c.fin, L i l * U l j - H i j‖ ≤ accErr ε Bd (k + K)

/-- One iteration of the loop of the factorization. -/
theorem luA_step (hE : E.Acc ε) (hε : 0 ≤ ε) (hT : TrsmOK E) (hc : ClOK c) (ht : c.Top) (hrk : ∀ p ∈ clList bad c, 0 ≤ p.rk) (har : c.Arity a)
    (hf : 2 * N ≤ f + 2) (hN : N ≤ hm) {p : ClusterTree G} (hp : p ∈ clList bad c) (g : FTree G 𝕜 → Option (FTree G 𝕜)) {Kd : ℕ}
    (hg : ∀ X : FTree G 𝕜, getBlock p p A = some X → Rep .full ad S X → X.label.t = p → X.label.s = p → X.ht < N →
      ∃ X' L U, g X = some X' ∧ X'.label.t = p ∧ X'.label.s = p ∧ X'.ht ≤ X.ht ∧ Shape .full (fun n => Flag .full n ∧ LUP ad L U n) X' ∧ LUNear ε Kd ad p L U X)
    (h : FState .full bad c N (QA ad (fun x y => x.off < p.off ∨ y.off < p.off) S L U F) A)
    (zL : ZL (clList bad c) L) (zU : ZU (clList bad c) U) :
    ∃ A' S' L' U', ((updSub p p g A).bind (fun A1 => (clList bad c).foldlM (luApply E f p) A1)).bind
        (fun A2 => (pairs (clList bad c) (clList bad c)).foldlM (luUpdate E f p) A2) = some A' ∧
      FState .full bad c N (QA ad (fun x y => x.off < p.fin ∨ y.off < p.fin) S' L' U' (Upd2 ε (truncs a hm) ad F L' U' p)) A' ∧
      ZL (clList bad c) L' ∧ ZU (clList bad c) U' ∧
      (∀ i l, l < p.off → L' i l = L i l) ∧ (∀ l j, l < p.off → U' l j = U l j) ∧ Res2 ε Kd ad F L' U' p p p ∧
      ∀ o ∈ clList bad c, p.off < o.off →
        Res2 ε (2 * hm * (a * truncs a hm)) ad F L' U' p p o ∧ Res2 ε (2 * hm * (a * truncs a hm)) ad F L' U' p o p := by
  have T := clL_of hc ht bad
  have hps := T.pos p hp
  have op := hc.desc (clList_desc hc ht hp)
  -- the diagonal block
  obtain ⟨X, x1, x2, x3, x4, x5, -, x6⟩ := h.focus hc ht hp hp rfl
  have nd : ¬ (p.off < p.off ∨ p.off < p.off) := by omega
  have nX : Shape .full (fun n => RepP .full ad S n ∧ (n.data ≠ .hier → F p p n)) X := Shape.imp x2 fun Y _ hY => ⟨(hY.2.2 nd).1, fun _ => (hY.2.2 nd).2⟩
  obtain ⟨X', L1, U1, y1, y2, y3, y4, y5, y6⟩ := hg X x1 (Shape.imp x2 fun Y _ hY => (hY.2.2 nd).1) x3 x4 x5
  obtain ⟨A1, a1, a2⟩ := x6 g (QA ad (fun x y => (x.off < p.off ∨ y.off < p.off) ∨ (x = p ∧ y = p)) S (setB p p L1 L) (setB p p U1 U) F) X' y1 (by
      refine Shape.imp y5 fun V hV hV' => ⟨hV'.1, fun _ => ?_, fun hd => absurd (Or.inr ⟨rfl, rfl⟩) hd⟩
      have d := Shape.pre_desc y5 hV
      rw [y2, y3] at d
      have b1 := op.desc_bounds d.1
      have b2 := op.desc_bounds d.2.1
      refine ⟨hV'.2.1.congr (fun i j hij => ?_) fun hts i j hi => ⟨fun _ hj => ?_, fun hu => by cases hu⟩,
        hV'.2.2.congr (fun i j hij => ?_) fun hts i j hi => ⟨fun hu => by (cases hu), fun _ hj => ?_⟩⟩
      · unfold FNode.Has at hij
        exact (setB_in (by omega) (by omega)).symm
      · by_cases hj' : p.off ≤ j ∧ j < p.fin
        · rw [setB_in (by omega) hj']
          exact ((hV'.2.1.1 hts).1 i j hi).1 rfl hj
        · rw [setB_out (fun h => hj' h.2)]
          exact zL p hp i j (by omega) (by omega)
      · unfold FNode.Has at hij
        exact (setB_in (by omega) (by omega)).symm
      · by_cases hj' : p.off ≤ j ∧ j < p.fin
        · rw [setB_in (by omega) hj']
          exact ((hV'.2.2.1 hts).1 i j hi).2 rfl hj
        · rw [setB_out (fun h => hj' h.2)]
          exact zU p hp i j (by omega) (by omega)) y2 y3 y4
    (fun p' hp' q' hq' hne n d1 d2 hn => QA_set_diag hc ht hp hp' hq' hne d1 d2 hn)
  have zL1 : ZL (clList bad c) (setB p p L1 L) := by
    intro x hx i j hi hj
    rw [setB_out]
    · exact zL x hx i j hi hj
    · rintro ⟨h1, h2⟩
      rw [tiling_inj T.tiles T.pos hx hp (by omega)] at hj
      omega
  have zU1 : ZU (clList bad c) (setB p p U1 U) := by
    intro x hx i j hi hj
    rw [setB_out]
    · exact zU x hx i j hi hj
    · rintro ⟨h1, h2⟩
      rw [tiling_inj T.tiles T.pos hx hp (by omega)] at hj
      omega
  have rd : Res2 ε Kd ad F L1 U1 p p p := fun W Bd k H h1 h2 h3 => y6 W Bd k H h1 (nearT_of nX fun n hn => h2 n hn) h3
  -- the row and the column
  obtain ⟨A2, L2, U2, b1, b2, b3, b4, b5, b6, b7⟩ := luA_apply_loop hE hε hT hc ht hrk har hf hN hp (A := A1) (S := S) (F := F) (a2.congr fun x _ y _ n _ _ hn => by
    refine ⟨fun hd => hn.1 ?_, fun hd => hn.2 fun hd' => hd ?_⟩
    · rcases hd with hd | hd | hd
      · exact Or.inl (Or.inl hd)
      · exact Or.inl (Or.inr hd)
      · exact Or.inr hd
    · rcases hd' with (hd | hd) | hd
      · exact Or.inl hd
      · exact Or.inr (Or.inl hd)
      · exact Or.inr (Or.inr hd)) zL1 zU1
  -- the Schur complement
  obtain ⟨A3, S', c1, c2⟩ := luA_update_loop hE hε hc ht hrk har hf hN hp b2
  refine ⟨A3, S', L2, U2, ?_, c2, b3, b4, fun i l hl => ?_, fun l j hl => ?_, ?_, b7⟩
  · rw [a1]
    show Option.bind ((clList bad c).foldlM (luApply E f p) A1) _ = _
    rw [b1]
    exact c1
  · rw [b5 i l (Or.inl (by omega)), setB_out (by omega)]
  · rw [b6 l j (Or.inl (by omega)), setB_out (by omega)]
  · refine rd.congr (fun i hi l hl => ?_) (fun l hl j hj => ?_)
    · rw [b5 i l (Or.inr (mem_Ico.1 hi).2), setB_in (mem_Ico.1 hi) (mem_Ico.1 hl)]
    · rw [b6 l j (Or.inr (mem_Ico.1 hj).2), setB_in (mem_Ico.1 hl) (mem_Ico.1 hj)]

end lu
end Htool
