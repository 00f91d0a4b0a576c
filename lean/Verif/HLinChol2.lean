import Verif.HLinChol

/-! # `cholesky_factorization` of a hierarchical matrix -/

namespace Htool
variable {G R : Type*}
open Finset

section chol
variable [CommRing R] [StarRing R] [DecidableEq R] {E : LinOps R} {ad : ClusterTree G → ClusterTree G → Prop} {u : UploType} {m : Mask}

/-- `F` is the Cholesky factor of a part of `M`. -/
def CholF (F M : ℕ → ℕ → R) (a b : ℕ) : Prop := (∀ i ∈ Ico a b, ∀ j ∈ Ico a b, i < j → F i j = 0) ∧ (∀ i ∈ Ico a b, IsUnit (F i i)) ∧
  ∀ i ∈ Ico a b, ∀ j ∈ Ico a b, ∑ l ∈ Ico a b, F i l * star (F j l) = M i j

omit [DecidableEq R] in
theorem tv_R (hE : E.cplx = false → RealType R) (T : ℕ → ℕ → R) (i l : ℕ) : tv .R E.tr T i l = star (T i l) := by
  unfold LinOps.tr
  cases h : E.cplx with
  | true => rfl
  | false => exact (hE h (T i l)).symm

omit [DecidableEq R] in
theorem tv_L (hE : E.cplx = false → RealType R) (T : ℕ → ℕ → R) (i l : ℕ) : tv .L E.tr T i l = star (T l i) := by
  unfold LinOps.tr
  cases h : E.cplx with
  | true => rfl
  | false => exact (hE h (T l i)).symm

omit [DecidableEq R] in
theorem opE_tr (hE : E.cplx = false → RealType R) (T : ℕ → ℕ → R) (i l : ℕ) : opE E.tr T i l = star (T l i) := tv_L hE T i l

omit [CommRing R] [StarRing R] [DecidableEq R] in
theorem tr_outC (E : LinOps R) (A : FTree G R) : A.outC E.tr = A.label.s ∧ A.inC E.tr = A.label.t := by
  unfold LinOps.tr FTree.outC FTree.inC
  cases E.cplx <;> exact ⟨rfl, rfl⟩

omit [StarRing R] in
theorem ptri_nil (u : UploType) (unit : Bool) (D : ℕ → ℕ → R) (i j : ℕ) : ptri u unit D [] i j = tri u unit D i j := by
  unfold ptri
  rw [if_neg (by simp [isPivoted])]

omit [DecidableEq R] in
theorem lowF_tri (hu : u ≠ .N) (D : ℕ → ℕ → R) {i j : ℕ} (hij : i < j) : lowF u (tri u false D) i j = 0 := by
  unfold lowF tri
  cases u with
  | N => exact absurd rfl hu
  | L => rw [if_pos rfl, if_neg (by omega), if_neg (by simp; omega)]
  | U => rw [if_neg (by simp), if_neg (by omega), if_neg (by simp; omega), star_zero]

omit [DecidableEq R] in
theorem lowF_diag (D : ℕ → ℕ → R) {i : ℕ} (h : IsUnit (D i i)) : IsUnit (lowF u (tri u false D) i i) := by
  unfold lowF tri
  rw [if_pos rfl]
  simp only [Bool.false_eq_true, if_false]
  by_cases hu : u = .L
  · rw [if_pos hu]; exact h
  · rw [if_neg hu]; exact h.star

/-- A dense diagonal block. -/
theorem chol_leaf (hE : PotrfOK E) (hu : u ≠ .N) (hm : MaskOK u m) {A : FTree G R} {M : ℕ → ℕ → R} (hA : Rep m ad M A) (hsq : A.label.t = A.label.s)
    (hs : HasChol M A.label.t.off A.label.t.fin) {D : Mat R} {piv : List ℕ} (hd : A.label.data = .dense D piv) (hp : piv = []) :
    ∃ T : ℕ → ℕ → R, Shape m (fun n => Flag m n ∧ TriP u false ad T n) (A.setData (.dense (E.potrf u D) piv)) ∧
      CholF (lowF u T) M A.label.t.off A.label.t.fin := by
  subst hp
  have b := Shape.self hA
  have hpos := b.clT.sz_pos
  have I := b.prop.2
  rw [hd] at I
  simp only at I
  have hl : A.isHier = false := by unfold FTree.isHier; rw [hd]
  have fin : A.label.t.fin = A.label.t.off + A.label.t.sz := rfl
  have has : ∀ i j, A.label.Has i j ↔ (A.label.t.off ≤ i ∧ i < A.label.t.fin) ∧ (A.label.t.off ≤ j ∧ j < A.label.t.fin) := by
    intro i j
    unfold FNode.Has
    rw [← hsq]
  have ok : ∀ i j, (u = .L ∧ j ≤ i) ∨ (u = .U ∧ i ≤ j) → m.ok i j := by
    intro i j h
    rcases hm with rfl | ⟨rfl, rfl⟩ | ⟨rfl, rfl⟩
    · trivial
    · rcases h with h | h
      · exact h.2
      · cases h.1
    · rcases h with h | h
      · cases h.1
      · exact h.2
  have hD : ∀ i < A.label.t.sz, ∀ j < A.label.t.sz, (u = .L ∧ j ≤ i) ∨ (u = .U ∧ i ≤ j) → D.get i j = M (A.label.t.off + i) (A.label.t.off + j) := by
    intro i hi j hj hij
    have := I.2.2 (A.label.t.off + i) (A.label.t.off + j) ((has _ _).2 (by omega)) (ok _ _ (hij.imp (fun h => ⟨h.1, by omega⟩) fun h => ⟨h.1, by omega⟩))
    rw [← hsq, Nat.add_sub_cancel_left, Nat.add_sub_cancel_left] at this
    exact this
  obtain ⟨F, F1, F2, F3⟩ := hs
  -- the factor which exists
  have sumI : ∀ f : ℕ → R, ∑ l ∈ Ico A.label.t.off A.label.t.fin, f l = ∑ l ∈ range A.label.t.sz, f (A.label.t.off + l) := fun f => by
    rw [fin, sum_Ico_range]
  obtain ⟨e1, e2, e3, e4⟩ := hE u D A.label.t.sz hu I.1 (by rw [I.2.1, ← hsq]) ⟨fun i j => lowF u (fun a b => F (A.label.t.off + a) (A.label.t.off + b)) i j,
    fun i hi => by
      have := F2 (A.label.t.off + i) (mem_Ico.2 (by omega))
      unfold lowF
      beta_reduce
      by_cases h : u = .L
      · rw [if_pos h]; exact this
      · rw [if_neg h]; exact this.star,
    fun i hi j hj hij => by
      rw [hD i hi j hj hij, ← F3 _ (mem_Ico.2 (by omega)) _ (mem_Ico.2 (by omega)), sumI]
      have key : ∀ a < A.label.t.sz, ∀ l < A.label.t.sz, lowF u (tri u false (fun i j => lowF u (fun a b => F (A.label.t.off + a) (A.label.t.off + b)) i j)) a l =
          F (A.label.t.off + a) (A.label.t.off + l) := by
        intro a ha l hl
        by_cases hal : a < l
        · rw [lowF_tri hu _ hal, F1 _ (mem_Ico.2 (by omega)) _ (mem_Ico.2 (by omega)) (by omega)]
        · cases u with
          | N => exact absurd rfl hu
          | L =>
            rw [lowF_L]
            unfold tri
            by_cases h : a = l
            · rw [if_pos h]; rfl
            · rw [if_neg h, if_pos (Or.inl ⟨rfl, by omega⟩)]; rfl
          | U =>
            rw [lowF_U]
            unfold tri
            by_cases h : l = a
            · rw [if_pos h]
              simp only [Bool.false_eq_true, if_false, lowF_U, star_star]
            · rw [if_neg h, if_pos (Or.inr ⟨rfl, by omega⟩)]
              simp only [lowF_U, star_star]
      refine sum_congr rfl fun l hl => ?_
      have hl := mem_range.1 hl
      rw [key i hi l hl, key j hj l hl]⟩
  set T : ℕ → ℕ → R := fun i j => if (A.label.t.off ≤ i ∧ i < A.label.t.fin) ∧ (A.label.t.off ≤ j ∧ j < A.label.t.fin) then
      tri u false (E.potrf u D).get (i - A.label.t.off) (j - A.label.t.off) else 0 with hT
  have lowT : ∀ i < A.label.t.sz, ∀ j < A.label.t.sz, lowF u T (A.label.t.off + i) (A.label.t.off + j) = lowF u (tri u false (E.potrf u D).get) i j := by
    intro i hi j hj
    have t : ∀ i < A.label.t.sz, ∀ j < A.label.t.sz, T (A.label.t.off + i) (A.label.t.off + j) = tri u false (E.potrf u D).get i j := by
      intro i hi j hj
      have : T (A.label.t.off + i) (A.label.t.off + j) = tri u false (E.potrf u D).get (A.label.t.off + i - A.label.t.off) (A.label.t.off + j - A.label.t.off) := if_pos (by omega)
      rw [this, Nat.add_sub_cancel_left, Nat.add_sub_cancel_left]
    unfold lowF
    rw [t i hi j hj, t j hj i hi]
  have rel : ∀ i ∈ Ico A.label.t.off A.label.t.fin, ∃ k < A.label.t.sz, i = A.label.t.off + k := fun i hi =>
    ⟨i - A.label.t.off, by have := mem_Ico.1 hi; omega, by have := mem_Ico.1 hi; omega⟩
  refine ⟨T, Shape.setLeaf hA hl (by simp) ⟨b.prop.1, fun _ => ⟨fun i j hi => ⟨fun _ hj => if_neg ?_, fun _ hj => if_neg ?_⟩, e1, e2, Or.inl rfl, fun _ => e3, ?_⟩, ?_⟩, ?_, ?_, ?_⟩
  · have : A.label.t.fin ≤ j := hj
    omega
  · have : j < A.label.t.off := hj
    omega
  · intro i j hij
    have hij' := (has i j).1 hij
    rw [ptri_nil]
    exact if_pos hij'
  · intro hh
    exfalso
    have hh' : (u = .L ∧ A.label.s.fin ≤ A.label.t.off) ∨ (u = .U ∧ A.label.t.fin ≤ A.label.s.off) := hh
    rw [← hsq] at hh'
    omega
  · intro i hi j hj hij
    obtain ⟨i, hi', rfl⟩ := rel i hi
    obtain ⟨j, hj', rfl⟩ := rel j hj
    rw [lowT i hi' j hj']
    exact lowF_tri hu _ (by omega)
  · intro i hi
    obtain ⟨i, hi', rfl⟩ := rel i hi
    rw [lowT i hi' i hi']
    exact lowF_diag _ (e3 i hi')
  · have half : ∀ i < A.label.t.sz, ∀ j < A.label.t.sz, (u = .L ∧ j ≤ i) ∨ (u = .U ∧ i ≤ j) → ∑ l ∈ Ico A.label.t.off A.label.t.fin,
        lowF u T (A.label.t.off + i) l * star (lowF u T (A.label.t.off + j) l) = M (A.label.t.off + i) (A.label.t.off + j) := by
      intro i hi j hj hij
      rw [← hD i hi j hj hij, ← e4 i hi j hj hij, sumI]
      refine sum_congr rfl fun l hl => ?_
      rw [lowT i hi l (mem_range.1 hl), lowT j hj l (mem_range.1 hl)]
    intro i hi j hj
    have herm := HasChol.herm ⟨F, F1, F2, F3⟩ hj hi
    obtain ⟨i, hi', rfl⟩ := rel i hi
    obtain ⟨j, hj', rfl⟩ := rel j hj
    by_cases hij : (u = .L ∧ j ≤ i) ∨ (u = .U ∧ i ≤ j)
    · exact half i hi' j hj' hij
    · have hji : (u = .L ∧ i ≤ j) ∨ (u = .U ∧ j ≤ i) := by
        cases u with
        | N => exact absurd rfl hu
        | L => left; refine ⟨rfl, ?_⟩; by_contra hc; exact hij (Or.inl ⟨rfl, by omega⟩)
        | U => right; refine ⟨rfl, ?_⟩; by_contra hc; exact hij (Or.inr ⟨rfl, by omega⟩)
      rw [← lowF_star_comm, half j hj' i hi' hji]
      exact herm

/-! ## One step -/

/-- What the block `x`, `y` contains, if it belongs to the half which is used: factors if `dn x y`, otherwise the current Schur complement. -/
def QC (u : UploType) (m : Mask) (ad dn : ClusterTree G → ClusterTree G → Prop) (S T : ℕ → ℕ → R) (x y : ClusterTree G) (n : FNode G R) : Prop :=
  (x = y ∨ (u = .L ∧ y.off < x.off) ∨ (u = .U ∧ x.off < y.off)) → (dn x y → TriP u false ad T n) ∧ (¬ dn x y → RepP m ad S n ∧ n.NoPiv)

variable {bad : Bool} {c : ClusterTree G} {N f : ℕ} {dn : ClusterTree G → ClusterTree G → Prop} {S T : ℕ → ℕ → R} {A : FTree G R}

/-- Factorization of a diagonal block. -/
theorem chol_diag (hu : u ≠ .N) (hc : ClOK c) (ht : c.Top) (h : FState m bad c N (QC u m ad dn S T) A) {p : ClusterTree G} (hp : p ∈ clList bad c)
    (nd : ¬ dn p p) (zT : ∀ i j, (p.off ≤ i ∧ i < p.fin) → (u = .L → p.fin ≤ j → T i j = 0) ∧ (u = .U → j < p.off → T i j = 0))
    (g : FTree G R → Option (FTree G R))
    (hg : ∀ X : FTree G R, Rep m ad S X → X.NP → X.label.t = p → X.label.s = p → X.ht < N → ∃ X' T1, g X = some X' ∧ X'.label.t = p ∧ X'.label.s = p ∧
      X'.ht ≤ X.ht ∧ Shape m (fun n => Flag m n ∧ TriP u false ad T1 n) X' ∧ CholF (lowF u T1) S p.off p.fin) :
    ∃ A' T1, updSub p p g A = some A' ∧ FState m bad c N (QC u m ad (fun x y => dn x y ∨ (x = p ∧ y = p)) S (setB p p T1 T)) A' ∧ CholF (lowF u T1) S p.off p.fin := by
  have L : ClL c (clList bad c) := clL_of hc ht bad
  have hps := L.pos p hp
  have op := hc.desc (clList_desc hc ht hp)
  obtain ⟨X, x1, x2, x3, x4, x5, -, x6⟩ := h.focus hc ht hp hp (keep_diag m hps)
  obtain ⟨X', T1, y1, y2, y3, y4, y5, y6⟩ := hg X (Shape.imp x2 fun Y _ hY => ((hY.2 (Or.inl rfl)).2 nd).1)
    (fun Y hY => ((x2 Y hY).prop.2 (Or.inl rfl)).2 nd |>.2) x3 x4 x5
  obtain ⟨A1, a1, a2⟩ := x6 g (QC u m ad (fun x y => dn x y ∨ (x = p ∧ y = p)) S (setB p p T1 T)) X' y1 (by
      refine Shape.imp y5 fun V hV hV' => ⟨hV'.1, fun _ => ⟨fun _ => ?_, fun hd => absurd (Or.inr ⟨rfl, rfl⟩) hd⟩⟩
      have d := Shape.pre_desc y5 hV
      rw [y2, y3] at d
      have b1 := op.desc_bounds d.1
      have b2 := op.desc_bounds d.2.1
      refine hV'.2.congr (fun i j hij => ?_) fun hts i j hi => ⟨fun hL hj => ?_, fun hU hj => ?_⟩
      · unfold FNode.Has at hij
        exact (setB_in (by omega) (by omega)).symm
      · by_cases hj' : p.off ≤ j ∧ j < p.fin
        · rw [setB_in (by omega) hj']
          exact ((hV'.2.1 hts).1 i j hi).1 hL hj
        · rw [setB_out (fun h => hj' h.2)]
          exact (zT i j (by omega)).1 hL (by omega)
      · by_cases hj' : p.off ≤ j ∧ j < p.fin
        · rw [setB_in (by omega) hj']
          exact ((hV'.2.1 hts).1 i j hi).2 hU hj
        · rw [setB_out (fun h => hj' h.2)]
          exact (zT i j (by omega)).2 hU (by omega)) y2 y3 y4
    (by
      intro p' hp' q' hq' hne n d1 d2 hn hk
      refine ⟨fun hd => ?_, fun hd => (hn hk).2 fun hd' => hd (Or.inl hd')⟩
      have t := (hn hk).1 (hd.resolve_right hne)
      cases u with
      | N => exact absurd rfl hu
      | L => exact t.set_lower hc ht hp hp hp' hq' hne (Nat.le_refl _) d1 d2
      | U => exact t.set_upper hc ht hp hp hp' hq' hne (Nat.le_refl _) d1 d2)
  exact ⟨A1, T1, a1, a2, y6⟩

/-- The block used for the cluster `o` when `p` is eliminated. -/
def cblk (u : UploType) (o p : ClusterTree G) : ClusterTree G × ClusterTree G := if u = .L then (o, p) else (p, o)

omit [CommRing R] [StarRing R] [DecidableEq R] in
theorem Shape.ofFull {P P' : FNode G R → Prop} {A : FTree G R} (h : Shape .full P A) (hk : ∀ p q, A.label.t.Desc p → A.label.s.Desc q → m.keep p q = true)
    (hP : ∀ X ∈ A.pre, P X.label → P' X.label) : Shape m P' A := by
  intro X hX
  have b := h X hX
  have hb := Shape.pre_desc h hX
  refine ⟨hP X hX b.prop, b.clT, b.clS, b.leaf, fun hh => ⟨(b.split hh).1, ?_⟩⟩
  rw [(b.split hh).2]
  apply List.filter_congr
  intro x hx
  rw [mem_pairs] at hx
  have := subs_desc b.clT b.clS hx.1 hx.2
  rw [hk _ _ (hb.1.trans this.1) (hb.2.1.trans this.2.1)]; rfl

/-- "Apply pivot block" for one block. -/
theorem chol_apply_one (hEx : E.Exact) (hE : TrsmOK E) (hu : u ≠ .N) (hm : MaskOK u m) (hc : ClOK c) (ht : c.Top) (hrk : ∀ p ∈ clList bad c, 0 ≤ p.rk)
    (hf : 2 * N ≤ f + 2) (h : FState m bad c N (QC u m ad dn S T) A) {p o : ClusterTree G} (hp : p ∈ clList bad c) (ho : o ∈ clList bad c) (hpo : p.off < o.off)
    (d1 : dn p p) (d2 : ¬ dn (cblk u o p).1 (cblk u o p).2) (hS : ∀ i ∈ Ico p.off p.fin, ∀ j ∈ Ico o.off o.fin, star (S i j) = S j i) :
    ∃ A' Y, cholApply E f u p A o = some A' ∧
      FState m bad c N (QC u m ad (fun x y => dn x y ∨ (x = (cblk u o p).1 ∧ y = (cblk u o p).2)) S (setB (cblk u o p).1 (cblk u o p).2 Y T)) A' ∧
      ∀ k ∈ Ico o.off o.fin, ∀ j ∈ Ico p.off p.fin, ∑ l ∈ Ico p.off p.fin, lowF u Y k l * star (lowF u T j l) = S k j := by
  obtain ⟨ap, hne⟩ := clL_apart hc ht hp ho hpo
  have op := hc.desc (clList_desc hc ht hp)
  have oo := hc.desc (clList_desc hc ht ho)
  have L : ClL c (clList bad c) := clL_of hc ht bad
  have hps := L.pos p hp
  have hos := L.pos o ho
  obtain ⟨P, g1, g2, g3, g4, g5, -, -⟩ := h.focus hc ht hp hp (keep_diag m hps)
  have TP : TriRep u false m ad T P := ⟨hu, hm, g3.trans g4.symm, Shape.imp g2 fun X _ hX => (hX.2 (Or.inl rfl)).1 d1⟩
  set x := (cblk u o p).1 with hx0
  set y := (cblk u o p).2 with hy0
  have hx : x ∈ clList bad c := by rw [hx0]; unfold cblk; split <;> assumption
  have hy : y ∈ clList bad c := by rw [hy0]; unfold cblk; split <;> assumption
  have hxy : (u = .L ∧ x = o ∧ y = p) ∨ (u = .U ∧ x = p ∧ y = o) := by
    cases u with
    | N => exact absurd rfl hu
    | L => exact Or.inl ⟨rfl, rfl, rfl⟩
    | U => exact Or.inr ⟨rfl, rfl, rfl⟩
  have hkept : x = y ∨ (u = .L ∧ y.off < x.off) ∨ (u = .U ∧ x.off < y.off) := by
    rcases hxy with ⟨e, e1, e2⟩ | ⟨e, e1, e2⟩
    · rw [e1, e2]; exact Or.inr (Or.inl ⟨e, hpo⟩)
    · rw [e1, e2]; exact Or.inr (Or.inr ⟨e, hpo⟩)
  -- all blocks below are kept
  have keepxy : ∀ a b, x.Desc a → y.Desc b → m.keep a b = true := by
    intro a b ha hb
    have s1 := ((hc.desc (clList_desc hc ht hx)).desc ha).sz_pos
    have s2 := ((hc.desc (clList_desc hc ht hy)).desc hb).sz_pos
    have b1 := (hc.desc (clList_desc hc ht hx)).desc_bounds ha
    have b2 := (hc.desc (clList_desc hc ht hy)).desc_bounds hb
    rcases hm with rfl | ⟨rfl, hu'⟩ | ⟨rfl, hu'⟩
    · rfl
    · rcases hxy with ⟨e, e1, e2⟩ | ⟨e, e1, e2⟩
      · rw [e1] at b1; rw [e2] at b2
        simp only [Mask.keep, decide_eq_true_eq]
        unfold ClusterTree.fin at *
        omega
      · rw [hu'] at e; cases e
    · rcases hxy with ⟨e, e1, e2⟩ | ⟨e, e1, e2⟩
      · rw [hu'] at e; cases e
      · rw [e1] at b1; rw [e2] at b2
        simp only [Mask.keep, decide_eq_true_eq]
        unfold ClusterTree.fin at *
        omega
  have okxy : ∀ i j, (x.off ≤ i ∧ i < x.fin) → (y.off ≤ j ∧ j < y.fin) → m.ok i j := by
    intro i j hi hj
    rcases hm with rfl | ⟨rfl, hu'⟩ | ⟨rfl, hu'⟩
    · trivial
    · rcases hxy with ⟨e, e1, e2⟩ | ⟨e, e1, e2⟩
      · rw [e1] at hi; rw [e2] at hj
        show j ≤ i
        omega
      · rw [hu'] at e; cases e
    · rcases hxy with ⟨e, e1, e2⟩ | ⟨e, e1, e2⟩
      · rw [hu'] at e; cases e
      · rw [e1] at hi; rw [e2] at hj
        show i ≤ j
        omega
  obtain ⟨X, x1, x2, x3, x4, x5, -, x6⟩ := h.focus hc ht hx hy (keepxy x y (.refl _) (.refl _))
  have offd : X.label.t.fin ≤ X.label.s.off ∨ X.label.s.fin ≤ X.label.t.off := by
    rw [x3, x4]
    rcases hxy with ⟨e, e1, e2⟩ | ⟨e, e1, e2⟩
    · rw [e1, e2]; exact Or.inr ap
    · rw [e1, e2]; exact Or.inl ap
  have rX : Rep .full ad S X := Rep.full (m := m) (Shape.imp x2 fun Y _ hY => ((hY.2 hkept).2 d2).1) (fun i j hij => by
    unfold FNode.Has at hij
    rw [x3, x4] at hij
    exact okxy i j hij.1 hij.2) offd
  set side : Side := if u = .L then .R else .L with hside
  have own : ∀ B : FTree G R, B.label.t = x → B.label.s = y → B.own side = p ∧ B.oth side = o := by
    intro B hB1 hB2
    rcases hxy with ⟨e, e1, e2⟩ | ⟨e, e1, e2⟩
    · have hs : side = .R := by rw [hside, if_pos e]
      rw [hs]
      exact ⟨hB2.trans e2, hB1.trans e1⟩
    · have hs : side = .L := by rw [hside, if_neg (by rw [e]; simp)]
      rw [hs]
      exact ⟨hB1.trans e1, hB2.trans e2⟩
  obtain ⟨w1, w2⟩ := own X x3 x4
  obtain ⟨X', Y, y1, y2, y3, y4, y5, y6, y7⟩ := triHH_spec hEx hE side E.tr f P X S 1 (by omega) TP rX (by rw [g3]; exact Or.inl (hrk p hp))
    (by rw [w2]; exact Or.inl (hrk o ho)) (by rw [w1, g3]) (Or.inr (by rw [w2]; exact hrk o ho))
  obtain ⟨A1, a1, a2⟩ := x6 (triHH E f side u E.tr false 1 P) (QC u m ad (fun a b => dn a b ∨ (a = x ∧ b = y)) S (setB x y Y T)) X' y1
    (by
      refine Shape.ofFull y2 (by rw [y3, y4, x3, x4]; exact keepxy) fun V hV hV' => ⟨hV'.1.elim Or.inl fun h => absurd rfl h.1, fun _ => ⟨fun _ => ?_, fun hn => absurd (Or.inr ⟨rfl, rfl⟩) hn⟩⟩
      have e := Shape.pre_desc y2 hV
      rw [y3, y4, x3, x4] at e
      have b1 := (hc.desc (clList_desc hc ht hx)).desc_bounds e.1
      have b2 := (hc.desc (clList_desc hc ht hy)).desc_bounds e.2.1
      have s1 := ((hc.desc (clList_desc hc ht hx)).desc e.1).sz_pos
      have nts : V.label.t ≠ V.label.s := by
        intro e'
        rw [e'] at b1 s1
        rcases hxy with ⟨e, e1, e2⟩ | ⟨e, e1, e2⟩
        · rw [e1] at b1; rw [e2] at b2; unfold ClusterTree.fin at *; omega
        · rw [e1] at b1; rw [e2] at b2; unfold ClusterTree.fin at *; omega
      refine ⟨fun e => absurd e nts, fun _ => hV'.full_congr fun i j hij => ?_⟩
      unfold FNode.Has at hij
      exact (setB_in (by omega) (by omega)).symm)
    (y3.trans x3) (y4.trans x4) y5 (by
      intro p' hp' q' hq' hne' n e1 e2 hn hk
      refine ⟨fun hd => ?_, fun hd => (hn hk).2 fun hd' => hd (Or.inl hd')⟩
      have t := (hn hk).1 (hd.resolve_right hne')
      rcases hxy with ⟨rfl, ex, ey⟩ | ⟨rfl, ex, ey⟩
      · refine t.set_lower hc ht hx hy hp' hq' hne' ?_ e1 e2
        rw [ex, ey]; omega
      · refine t.set_upper hc ht hx hy hp' hq' hne' ?_ e1 e2
        rw [ex, ey]; omega)
  refine ⟨A1, Y, ?_, a2, fun k hk j hj => ?_⟩
  · unfold cholApply
    rw [if_pos hpo]
    simp only [g1]
    rcases hxy with ⟨e, e1, e2⟩ | ⟨e, e1, e2⟩
    · rw [if_pos e]
      rw [hside, if_pos e, e1, e2] at a1
      exact a1
    · rw [if_neg (by rw [e]; simp)]
      rw [hside, if_neg (by rw [e]; simp), e1, e2] at a1
      exact a1
  · have := y7 j (by rw [g3]; exact hj) k (by rw [w2]; exact hk)
    rw [g3, one_mul] at this
    rcases hxy with ⟨rfl, e1, e2⟩ | ⟨rfl, e1, e2⟩
    · have hs : side = .R := rfl
      rw [hs] at this
      rw [show S k j = sv .R S j k from rfl, ← this]
      refine sum_congr rfl fun l _ => ?_
      rw [tv_R hEx.real, lowF_L, lowF_L, mul_comm]
      rfl
    · have hs : side = .L := rfl
      rw [hs] at this
      rw [← hS j hj k hk, show S j k = sv .L S j k from rfl, ← this, star_sum]
      refine sum_congr rfl fun l _ => ?_
      rw [tv_L hEx.real, lowF_U, lowF_U, star_mul', star_star, mul_comm]
      rfl

/-- "Update Schur complement" for the block of the cluster `o`. -/
theorem chol_update_one (hEx : E.Exact) (hu : u ≠ .N) (hm : MaskOK u m) (hc : ClOK c) (ht : c.Top) (hrk : ∀ p ∈ clList bad c, 0 ≤ p.rk)
    (hf : 2 * N ≤ f + 2) (h : FState m bad c N (QC u m ad dn S T) A) {p o : ClusterTree G} (hp : p ∈ clList bad c) (ho : o ∈ clList bad c) (hpo : p.off < o.off)
    (d1 : dn (cblk u o p).1 (cblk u o p).2) (d2 : ¬ dn o o) :
    ∃ A', cholUpdate E f u p A (o, o) = some A' ∧
      FState m bad c N (QC u m ad dn (fun i j => S i j - if (o.off ≤ i ∧ i < o.fin) ∧ o.off ≤ j ∧ j < o.fin then
        ∑ l ∈ Ico p.off p.fin, lowF u T i l * star (lowF u T j l) else 0) T) A' := by
  obtain ⟨ap, hne⟩ := clL_apart hc ht hp ho hpo
  have op := hc.desc (clList_desc hc ht hp)
  have oo := hc.desc (clList_desc hc ht ho)
  have L : ClL c (clList bad c) := clL_of hc ht bad
  have hps := L.pos p hp
  have hos := L.pos o ho
  have flat : ∀ z ∈ clList bad c, z.Flat := fun z hz => Or.inl (hrk z hz)
  obtain ⟨C, c1, c2, c3, c4, c5, -, c6⟩ := h.focus hc ht ho ho (keep_diag m hos)
  have rC : Rep m ad S C := Shape.imp c2 fun V _ hV => ((hV.2 (Or.inl rfl)).2 d2).1
  have npC : C.NP := fun Y hY => ((c2 Y hY).prop.2 (Or.inl rfl)).2 d2 |>.2
  -- the common end
  have fin : ∀ (g : FTree G R → Option (FTree G R)) (C' : FTree G R), g C = some C' → C'.NP → C'.label.t = C.label.t → C'.label.s = C.label.s → C'.ht ≤ C.ht →
      Rep m ad (fun i j => S i j - ∑ l ∈ Ico p.off p.fin, lowF u T i l * star (lowF u T j l)) C' →
      ∃ A', updSub o o g A = some A' ∧ FState m bad c N (QC u m ad dn (fun i j => S i j - if (o.off ≤ i ∧ i < o.fin) ∧ o.off ≤ j ∧ j < o.fin then
        ∑ l ∈ Ico p.off p.fin, lowF u T i l * star (lowF u T j l) else 0) T) A' := by
    intro g C' e1 np e3 e4 e5 e2
    refine c6 g _ C' e1 (?_) (e3.trans c3) (e4.trans c4) e5 ?_
    · refine Shape.imp (P := fun n => RepP m ad (fun i j => S i j - ∑ l ∈ Ico p.off p.fin, lowF u T i l * star (lowF u T j l)) n ∧ n.NoPiv) (fun X hX => ?_) fun V hV hV' => ⟨hV'.1.1, fun _ => ⟨fun hd => absurd hd d2, fun _ => ⟨hV'.1.congr fun i j hij _ => ?_, hV'.2⟩⟩⟩
      · have := e2 X hX
        exact ⟨⟨this.prop, np X hX⟩, this.clT, this.clS, this.leaf, this.split⟩
      · have hh := Shape.pre_has e2 hV hij
        unfold FNode.Has at hh
        rw [e3, e4, c3, c4] at hh
        rw [if_pos hh]
    · intro p' hp' q' hq' hne' n d1' d2' hn hk
      refine ⟨(hn hk).1, fun hd => ⟨((hn hk).2 hd).1.congr fun i j hij _ => ?_, ((hn hk).2 hd).2⟩⟩
      rw [if_neg (block_disj hc ht ho ho hp' hq' hne' d1' d2' hij), sub_zero]
  cases u with
  | N => exact absurd rfl hu
  | L =>
    have hm' : m.keep o p = true := by
      rcases hm with rfl | ⟨rfl, -⟩ | ⟨rfl, e⟩
      · rfl
      · simp only [Mask.keep, decide_eq_true_eq]; unfold ClusterTree.fin; omega
      · cases e
    obtain ⟨LB, l1, l2, l3, l4, l5, -, -⟩ := h.focus hc ht ho hp hm'
    have rL : Rep .full ad T LB := TriRep.rep_of_half (u := .L) (unit := false) hm (Shape.imp l2 fun V _ hV => (hV.2 (Or.inr (Or.inl ⟨rfl, hpo⟩))).1 d1) (Or.inl ⟨rfl, by
      rw [l3, l4]; exact ap⟩)
    obtain ⟨C', e1, e2, e3, e4, e5⟩ := hhH_spec (m := m) hEx .N E.tr (-1) f LB LB C S 1 (by omega) rL rL rC (by rw [l3]; exact flat o ho) (by rw [l4]; exact flat p hp)
      (by rw [l3]; exact flat o ho) (by rw [l4]; exact flat p hp) (by rw [(tr_outC E LB).1]; rfl) (by show C.label.t = LB.label.t; rw [c3, l3])
      (by rw [(tr_outC E LB).2, c4, l3]) (by rw [c3, c4]; exact keep_diag m hos) (Or.inl rfl)
    have e2' := Rep.congr (M' := fun i j => S i j - ∑ l ∈ Ico p.off p.fin, lowF .L T i l * star (lowF .L T j l)) e2 (fun i j _ _ => by
      unfold mprod
      rw [show LB.inC .N = p from l4, sub_eq_add_neg, one_mul, add_comm, neg_one_mul]
      congr 2
      refine sum_congr rfl fun l _ => ?_
      rw [opE_tr hEx.real]
      rfl)
    obtain ⟨A', a1, a2⟩ := fin (hhH E f .N E.tr (-1) LB LB 1) C' e1 (hhH_np _ _ _ _ _ _ _ _ _ e1 npC) e3 e4 e5 e2'
    refine ⟨A', ?_, a2⟩
    unfold cholUpdate
    rw [if_pos ⟨rfl, hpo, hpo, Nat.le_refl _⟩]
    simp only [l1]
    exact a1
  | U =>
    have hm' : m.keep p o = true := by
      rcases hm with rfl | ⟨rfl, e⟩ | ⟨rfl, -⟩
      · rfl
      · cases e
      · simp only [Mask.keep, decide_eq_true_eq]; unfold ClusterTree.fin; omega
    obtain ⟨UB, l1, l2, l3, l4, l5, -, -⟩ := h.focus hc ht hp ho hm'
    have rL : Rep .full ad T UB := TriRep.rep_of_half (u := .U) (unit := false) hm (Shape.imp l2 fun V _ hV => (hV.2 (Or.inr (Or.inr ⟨rfl, hpo⟩))).1 d1) (Or.inr ⟨rfl, by
      rw [l3, l4]; exact ap⟩)
    obtain ⟨C', e1, e2, e3, e4, e5⟩ := hhH_spec (m := m) hEx E.tr .N (-1) f UB UB C S 1 (by omega) rL rL rC (by rw [l3]; exact flat p hp) (by rw [l4]; exact flat o ho)
      (by rw [l3]; exact flat p hp) (by rw [l4]; exact flat o ho) (by rw [(tr_outC E UB).2]; rfl) (by rw [(tr_outC E UB).1, c3, l4])
      (by show C.label.s = UB.label.s; rw [c4, l4]) (by rw [c3, c4]; exact keep_diag m hos) (Or.inl rfl)
    have e2' := Rep.congr (M' := fun i j => S i j - ∑ l ∈ Ico p.off p.fin, lowF .U T i l * star (lowF .U T j l)) e2 (fun i j _ _ => by
      unfold mprod
      rw [(tr_outC E UB).2, l3, sub_eq_add_neg, one_mul, add_comm, neg_one_mul]
      congr 2
      refine sum_congr rfl fun l _ => ?_
      rw [opE_tr hEx.real, lowF_U, lowF_U, star_star]
      rfl)
    obtain ⟨A', a1, a2⟩ := fin (hhH E f E.tr .N (-1) UB UB 1) C' e1 (hhH_np _ _ _ _ _ _ _ _ _ e1 npC) e3 e4 e5 e2'
    refine ⟨A', ?_, a2⟩
    unfold cholUpdate
    rw [if_neg (by simp), if_pos ⟨rfl, hpo, hpo, Nat.le_refl _⟩]
    simp only [l1]
    exact a1

end chol
end Htool
