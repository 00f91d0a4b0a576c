import Verif.HLinFact
import Mathlib.LinearAlgebra.Matrix.NonsingularInverse

/-! # Block elimination: facts on matrices -/

namespace Htool
variable {G R : Type*}
open Finset

section num
variable [CommRing R]

/-- A square part of a matrix. -/
def subM (M : ℕ → ℕ → R) (a n : ℕ) : Matrix (Fin n) (Fin n) R := Matrix.of fun i j => M (a + i) (a + j)

/-- The part of `M` with rows and columns `a, …, b - 1` is nonsingular. -/
def Nonsing (M : ℕ → ℕ → R) (a b : ℕ) : Prop := IsUnit (subM M a (b - a)).det

theorem sum_fin_Ico (a b : ℕ) (hab : a ≤ b) (f : ℕ → R) : ∑ l : Fin (b - a), f (a + l) = ∑ l ∈ Ico a b, f l := by
  rw [Finset.sum_Ico_eq_sum_range, Finset.sum_range]

theorem nonsing_iff {M : ℕ → ℕ → R} {a b : ℕ} (hab : a ≤ b) :
    Nonsing M a b ↔ ∀ r : ℕ → R, ∃ x : ℕ → R, ∀ i ∈ Ico a b, ∑ l ∈ Ico a b, M i l * x l = r i := by
  unfold Nonsing
  rw [← Matrix.isUnit_iff_isUnit_det, ← Matrix.mulVec_surjective_iff_isUnit]
  constructor
  · intro h r
    obtain ⟨x, hx⟩ := h (fun i => r (a + i))
    refine ⟨fun l => if h : l - a < b - a then x ⟨l - a, h⟩ else 0, fun i hi => ?_⟩
    have hi := mem_Ico.1 hi
    have e := congrFun hx ⟨i - a, by omega⟩
    rw [← sum_fin_Ico a b hab]
    have e' : ∑ l : Fin (b - a), M (a + (i - a)) (a + l) * x l = r (a + (i - a)) := e
    rw [show a + (i - a) = i by omega] at e'
    rw [← e']
    refine sum_congr rfl fun l _ => ?_
    beta_reduce
    rw [dif_pos (show a + (l : ℕ) - a < b - a by have := l.2; omega)]
    congr 2
    apply Fin.ext
    show a + (l : ℕ) - a = l
    omega
  · intro h r
    obtain ⟨x, hx⟩ := h (fun i => if h : i - a < b - a then r ⟨i - a, h⟩ else 0)
    refine ⟨fun l => x (a + l), ?_⟩
    funext i
    have e := hx (a + i) (mem_Ico.2 (by have := i.2; omega))
    rw [← sum_fin_Ico a b hab] at e
    refine Eq.trans e ?_
    rw [dif_pos (show a + (i : ℕ) - a < b - a by have := i.2; omega)]
    congr 1
    apply Fin.ext
    show a + (i : ℕ) - a = i
    omega

theorem Nonsing.inj {M : ℕ → ℕ → R} {a b : ℕ} (h : Nonsing M a b) (hab : a ≤ b) {x : ℕ → R} (hx : ∀ i ∈ Ico a b, ∑ l ∈ Ico a b, M i l * x l = 0) :
    ∀ l ∈ Ico a b, x l = 0 := by
  have e : (subM M a (b - a)).mulVec (fun l => x (a + l)) = 0 := by
    funext i
    have := hx (a + i) (mem_Ico.2 (by have := i.2; omega))
    rw [← sum_fin_Ico a b hab] at this
    exact this
  have e2 : (subM M a (b - a))⁻¹.mulVec ((subM M a (b - a)).mulVec (fun l => x (a + l))) = 0 := by rw [e, Matrix.mulVec_zero]
  rw [Matrix.mulVec_mulVec, Matrix.nonsing_inv_mul _ h, Matrix.one_mulVec] at e2
  intro l hl
  have hl := mem_Ico.1 hl
  have := congrFun e2 ⟨l - a, by omega⟩
  have this : x (a + (l - a)) = 0 := this
  rwa [show a + (l - a) = l by omega] at this

theorem Nonsing.factors {M L U : ℕ → ℕ → R} {a b : ℕ} (h : Nonsing M a b) (hab : a ≤ b)
    (hp : ∀ i ∈ Ico a b, ∀ j ∈ Ico a b, ∑ l ∈ Ico a b, L i l * U l j = M i j) : Nonsing L a b ∧ Nonsing U a b := by
  have e : subM M a (b - a) = subM L a (b - a) * subM U a (b - a) := by
    ext i j
    have := hp (a + i) (mem_Ico.2 (by have := i.2; omega)) (a + j) (mem_Ico.2 (by have := j.2; omega))
    rw [← sum_fin_Ico a b hab] at this
    exact this.symm
  unfold Nonsing at h ⊢
  rw [e, Matrix.det_mul] at h
  exact IsUnit.mul_iff.1 h

theorem nonsing_congr {M M' : ℕ → ℕ → R} {a b : ℕ} (h : ∀ i ∈ Ico a b, ∀ j ∈ Ico a b, M i j = M' i j) : Nonsing M a b ↔ Nonsing M' a b := by
  unfold Nonsing
  have e : subM M a (b - a) = subM M' a (b - a) := by
    ext i j
    exact h _ (mem_Ico.2 (by have := i.2; omega)) _ (mem_Ico.2 (by have := j.2; omega))
  rw [e]

theorem nonsing_empty (M : ℕ → ℕ → R) (a : ℕ) : Nonsing M a a := by
  unfold Nonsing
  rw [Nat.sub_self, Matrix.det_fin_zero]
  exact isUnit_one

/-- The Schur complement of a nonsingular part in a nonsingular part is nonsingular. -/
theorem nonsing_schur {M L U S : ℕ → ℕ → R} {o b e : ℕ} (h1 : o ≤ b) (h2 : b ≤ e) (hb : Nonsing M o b) (he : Nonsing M o e)
    (hp : ∀ i ∈ Ico o e, ∀ j ∈ Ico o e, ∑ l ∈ Ico o b, L i l * U l j + (if b ≤ i ∧ b ≤ j then S i j else 0) = M i j) : Nonsing S b e := by
  have sub : Ico o b ⊆ Ico o e := fun i hi => mem_Ico.2 (by have := mem_Ico.1 hi; omega)
  have hL : Nonsing L o b := (hb.factors h1 (L := L) (U := U) fun i hi j hj => by
    have := hp i (sub hi) j (sub hj)
    rw [if_neg (by have := mem_Ico.1 hi; omega), add_zero] at this
    exact this).1
  rw [nonsing_iff h2]
  intro r
  obtain ⟨x, hx⟩ := (nonsing_iff (by omega)).1 he (fun i => if b ≤ i then r i else 0)
  have split : ∀ i ∈ Ico o e, ∑ l ∈ Ico o b, L i l * (∑ j ∈ Ico o e, U l j * x j) + ∑ j ∈ Ico o e, (if b ≤ i ∧ b ≤ j then S i j else 0) * x j =
      if b ≤ i then r i else 0 := by
    intro i hi
    have e1 : ∑ j ∈ Ico o e, M i j * x j = ∑ j ∈ Ico o e, ((∑ l ∈ Ico o b, L i l * U l j) * x j + (if b ≤ i ∧ b ≤ j then S i j else 0) * x j) :=
      sum_congr rfl fun j hj => by rw [← hp i hi j hj, add_mul]
    rw [← hx i hi, e1, sum_add_distrib]
    congr 1
    simp only [mul_sum, sum_mul]
    rw [sum_comm]
    exact sum_congr rfl fun j _ => sum_congr rfl fun l _ => by ring
  have hz : ∀ l ∈ Ico o b, ∑ j ∈ Ico o e, U l j * x j = 0 := by
    refine hL.inj h1 fun i hi => ?_
    have := split i (sub hi)
    have hi := mem_Ico.1 hi
    rw [if_neg (by omega)] at this
    rw [← this, left_eq_add]
    refine sum_eq_zero fun j _ => ?_
    rw [if_neg (by omega), zero_mul]
  refine ⟨x, fun i hi => ?_⟩
  have hi' := mem_Ico.1 hi
  have := split i (mem_Ico.2 (by omega))
  rw [if_pos (by omega), sum_eq_zero (fun l hl => by rw [hz l hl, mul_zero]), zero_add] at this
  rw [← this, ← sum_Ico_consecutive _ h1 h2]
  rw [sum_eq_zero (s := Ico o b) (fun j hj => by have := mem_Ico.1 hj; rw [if_neg (by omega), zero_mul]), zero_add]
  exact sum_congr rfl fun j hj => by have := mem_Ico.1 hj; rw [if_pos (by omega)]

/-- `L` with the entries of a block replaced. -/
def setB (p q : ClusterTree G) (X L : ℕ → ℕ → R) : ℕ → ℕ → R := fun i j =>
  if (p.off ≤ i ∧ i < p.fin) ∧ q.off ≤ j ∧ j < q.fin then X i j else L i j

omit [CommRing R] in
theorem setB_in {p q : ClusterTree G} {X L : ℕ → ℕ → R} {i j : ℕ} (hi : p.off ≤ i ∧ i < p.fin) (hj : q.off ≤ j ∧ j < q.fin) : setB p q X L i j = X i j :=
  if_pos ⟨hi, hj⟩

omit [CommRing R] in
theorem setB_out {p q : ClusterTree G} {X L : ℕ → ℕ → R} {i j : ℕ} (h : ¬ ((p.off ≤ i ∧ i < p.fin) ∧ q.off ≤ j ∧ j < q.fin)) : setB p q X L i j = L i j :=
  if_neg h

/-! ## Blocks which contain factors -/

variable {ad : ClusterTree G → ClusterTree G → Prop} {u : UploType} {unit : Bool}

theorem RepP.full_congr {M M' : ℕ → ℕ → R} {n : FNode G R} (h : RepP .full ad M n) (he : ∀ i j, n.Has i j → M i j = M' i j) : RepP .full ad M' n :=
  h.congr fun i j hi _ => he i j hi

theorem TriP.congr {T T' : ℕ → ℕ → R} {n : FNode G R} (h : TriP u unit ad T n) (he : ∀ i j, n.Has i j → T i j = T' i j)
    (hz : n.t = n.s → ∀ i j, (n.t.off ≤ i ∧ i < n.t.fin) → (u = .L → n.t.fin ≤ j → T' i j = 0) ∧ (u = .U → j < n.t.off → T' i j = 0)) :
    TriP u unit ad T' n := by
  refine ⟨fun hts => ⟨hz hts, ?_⟩, fun hh => (h.2 hh).full_congr he⟩
  have h2 := (h.1 hts).2
  revert h2
  cases n.data with
  | dense D piv =>
    exact fun h2 => ⟨h2.1, h2.2.1, h2.2.2.1, h2.2.2.2.1, fun i j hij => (he i j hij).symm.trans (h2.2.2.2.2 i j hij)⟩
  | lowRank L => exact id
  | hier => exact id

variable {bad : Bool} {c : ClusterTree G}

/-- Entries of another block. -/
theorem block_disj (hc : ClOK c) (ht : c.Top) {p q p' q' : ClusterTree G} (hp : p ∈ clList bad c) (hq : q ∈ clList bad c) (hp' : p' ∈ clList bad c)
    (hq' : q' ∈ clList bad c) (hne : ¬ (p' = p ∧ q' = q)) {n : FNode G R} (d1 : p'.Desc n.t) (d2 : q'.Desc n.s) {i j : ℕ} (hij : n.Has i j) :
    ¬ ((p.off ≤ i ∧ i < p.fin) ∧ q.off ≤ j ∧ j < q.fin) := by
  rintro ⟨hi, hj⟩
  have L := clL_of hc ht bad
  have b1 := (hc.desc (clList_desc hc ht hp')).desc_bounds d1
  have b2 := (hc.desc (clList_desc hc ht hq')).desc_bounds d2
  unfold FNode.Has at hij
  exact hne ⟨tiling_inj L.tiles L.pos hp' hp (by omega), tiling_inj L.tiles L.pos hq' hq (by omega)⟩

/-- Setting a block of a lower factor keeps the other blocks. -/
theorem TriP.set_lower (hc : ClOK c) (ht : c.Top) {p q p' q' : ClusterTree G} (hp : p ∈ clList bad c) (hq : q ∈ clList bad c) (hp' : p' ∈ clList bad c)
    (hq' : q' ∈ clList bad c) (hne : ¬ (p' = p ∧ q' = q)) (hpq : q.off ≤ p.off) {n : FNode G R} (d1 : p'.Desc n.t) (d2 : q'.Desc n.s) {X L : ℕ → ℕ → R}
    (h : TriP .L unit ad L n) : TriP .L unit ad (setB p q X L) n := by
  refine h.congr (fun i j hij => (setB_out (block_disj hc ht hp hq hp' hq' hne d1 d2 hij)).symm) fun hts i j hi => ⟨fun _ hj => ?_, fun hU => by cases hU⟩
  have T := clL_of hc ht bad
  have b1 := (hc.desc (clList_desc hc ht hp')).desc_bounds d1
  have e0 : p' = q' := clL_unique hc ht hp' hq' d1 (by rw [hts]; exact d2)
  rw [setB_out]
  · exact ((h.1 hts).1 i j hi).1 rfl hj
  · rintro ⟨hi2, hj2⟩
    have e : p' = p := tiling_inj T.tiles T.pos hp' hp (by omega)
    have hqp : q ≠ p := fun h => hne ⟨e, by rw [← e0, e, h]⟩
    have : ¬ (q.off < p.fin ∧ p.off < q.fin) := fun h => hqp (tiling_inj T.tiles T.pos hq hp h)
    have := T.pos p hp
    have := T.pos q hq
    unfold ClusterTree.fin at *
    omega

/-- Setting a block of an upper factor keeps the other blocks. -/
theorem TriP.set_upper (hc : ClOK c) (ht : c.Top) {p q p' q' : ClusterTree G} (hp : p ∈ clList bad c) (hq : q ∈ clList bad c) (hp' : p' ∈ clList bad c)
    (hq' : q' ∈ clList bad c) (hne : ¬ (p' = p ∧ q' = q)) (hpq : p.off ≤ q.off) {n : FNode G R} (d1 : p'.Desc n.t) (d2 : q'.Desc n.s) {X L : ℕ → ℕ → R}
    (h : TriP .U unit ad L n) : TriP .U unit ad (setB p q X L) n := by
  refine h.congr (fun i j hij => (setB_out (block_disj hc ht hp hq hp' hq' hne d1 d2 hij)).symm) fun hts i j hi => ⟨fun hL => by (cases hL), fun _ hj => ?_⟩
  have T := clL_of hc ht bad
  have b1 := (hc.desc (clList_desc hc ht hp')).desc_bounds d1
  have e0 : p' = q' := clL_unique hc ht hp' hq' d1 (by rw [hts]; exact d2)
  rw [setB_out]
  · exact ((h.1 hts).1 i j hi).2 rfl hj
  · rintro ⟨hi2, hj2⟩
    have e : p' = p := tiling_inj T.tiles T.pos hp' hp (by omega)
    have hqp : q ≠ p := fun h => hne ⟨e, by rw [← e0, e, h]⟩
    have : ¬ (q.off < p.fin ∧ p.off < q.fin) := fun h => hqp (tiling_inj T.tiles T.pos hq hp h)
    have := T.pos p hp
    have := T.pos q hq
    unfold ClusterTree.fin at *
    omega

end num
end Htool
