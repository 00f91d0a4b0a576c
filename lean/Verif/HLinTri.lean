import Verif.HLinProd5
import Mathlib.Logic.Equiv.Basic
import Mathlib.Algebra.Group.End
import Mathlib.Algebra.BigOperators.Ring.Finset

/-! # Triangular solves: dense blocks

Specification of triangular matrices and correctness of `triangular_matrix_matrix_solve` (matrix/linalg/factorization.hpp 21-75). -/

namespace Htool
variable {G R : Type*}
open Finset

/-! ## Specification -/

section spec
variable [CommRing R]

/-- The triangular matrix BLAS reads in a square array: one triangle, the diagonal being 1 when `unit`. -/
def tri (u : UploType) (unit : Bool) (D : ℕ → ℕ → R) (i j : ℕ) : R :=
  if i = j then (if unit then 1 else D i j) else if (u = .L ∧ j < i) ∨ (u = .U ∧ i < j) then D i j else 0

/-- The permutation of LAPACK pivots: row `i` of the matrix after all the exchanges is row `pivPerm piv i` of the matrix before. -/
def pivPerm (piv : List ℕ) : Equiv.Perm ℕ := ((List.range piv.length).map (fun k => Equiv.swap k (piv.getD k 0 - 1))).prod

/-- The triangular factor held by a dense block: the rows of the lower factor are permuted back when there are pivots. -/
def ptri (u : UploType) (unit : Bool) (D : ℕ → ℕ → R) (piv : List ℕ) (i j : ℕ) : R :=
  if u = .L ∧ isPivoted piv = true then tri u unit D ((pivPerm piv)⁻¹ i) j else tri u unit D i j

/-- Pivots of a matrix of size `n`, or no pivots. -/
def PivOK (n : ℕ) (piv : List ℕ) : Prop := piv = [] ∨ (piv.length = n ∧ ∀ k < n, 1 ≤ piv.getD k 0 ∧ piv.getD k 0 ≤ n)

variable [StarRing R]

/-- Coefficient of unknown `l` in equation `i`: `op(T) X` or `X op(T)`. -/
def tv (side : Side) (tr : Trans) (T : ℕ → ℕ → R) (i l : ℕ) : R := if side = .L then opE tr T i l else opE tr T l i

/-- Unknown `l` of the system `k`: row `l` for `op(T) X = B`, column `l` for `X op(T) = B`. -/
def sv {α : Type*} (side : Side) (X : ℕ → ℕ → α) (l k : ℕ) : α := if side = .L then X l k else X k l

/-- Contract of BLAS `trsm`: the result has the size of `B` and solves `op(A) X = alpha B` or `X op(A) = alpha B`. -/
def TrsmOK (E : LinOps R) : Prop :=
  ∀ (side : Side) (u : UploType) (tr : Trans) (unit : Bool) (α : R) (A B : Mat R) (n m : ℕ), u ≠ .N → A.nr = n → A.nc = n →
    (B.nr, B.nc) = (if side = .L then (n, m) else (m, n)) → (unit = false → ∀ i < n, IsUnit (A.get i i)) →
    (E.trsm side u tr unit α A B).nr = B.nr ∧ (E.trsm side u tr unit α A B).nc = B.nc ∧
    ∀ i < n, ∀ k < m, ∑ l ∈ range n, tv side tr (tri u unit A.get) i l * sv side (E.trsm side u tr unit α A B).get l k = α * sv side B.get i k

end spec

/-! ## Row and column exchanges -/

section swaps

/-- The permutation of a list of exchanges. -/
def swaps (piv order : List ℕ) : Equiv.Perm ℕ := (order.map (fun k => Equiv.swap k (piv.getD k 0 - 1))).prod

theorem swaps_cons (piv : List ℕ) (k : ℕ) (l : List ℕ) (i : ℕ) : swaps piv (k :: l) i = Equiv.swap k (piv.getD k 0 - 1) (swaps piv l i) := by
  unfold swaps
  rw [List.map_cons, List.prod_cons]; rfl

theorem swaps_reverse (piv l : List ℕ) : swaps piv l.reverse = (swaps piv l)⁻¹ := by
  unfold swaps
  rw [List.prod_inv_reverse, List.map_map, ← List.map_reverse]
  congr 1

theorem swap_lt {a b n i : ℕ} (ha : a < n) (hb : b < n) (hi : i < n) : Equiv.swap a b i < n := by
  by_cases h1 : i = a
  · subst h1; rw [Equiv.swap_apply_left]; exact hb
  · by_cases h2 : i = b
    · subst h2; rw [Equiv.swap_apply_right]; exact ha
    · rw [Equiv.swap_apply_of_ne_of_ne h1 h2]; exact hi

theorem swaps_lt {piv l : List ℕ} {n : ℕ} (h : ∀ k ∈ l, k < n ∧ piv.getD k 0 - 1 < n) {i : ℕ} (hi : i < n) : swaps piv l i < n := by
  induction l with
  | nil => exact hi
  | cons k l ih =>
    rw [swaps_cons]
    exact swap_lt (h k (by simp)).1 (h k (by simp)).2 (ih fun x hx => h x (by simp [hx]))

theorem swapRows_get (B : Mat R) {a b i j : ℕ} (hi : i < B.nr) (hj : j < B.nc) :
    (B.swapRows a b).get i j = B.get (Equiv.swap a b i) j := by
  have hp : i + j * B.nr < B.nr * B.nc := mat_idx_lt hi hj
  have h1 : (i + j * B.nr) % B.nr = i := by rw [Nat.add_mul_mod_self_right, Nat.mod_eq_of_lt hi]
  have h2 : (i + j * B.nr) / B.nr = j := by rw [Nat.add_mul_div_right _ _ (by omega), Nat.div_eq_of_lt hi, Nat.zero_add]
  show (if i + j * B.nr < B.nr * B.nc then (if (i + j * B.nr) % B.nr = a then B.get b ((i + j * B.nr) / B.nr)
    else if (i + j * B.nr) % B.nr = b then B.get a ((i + j * B.nr) / B.nr) else B.data (i + j * B.nr)) else _) = _
  rw [if_pos hp, h1, h2]
  by_cases h1 : i = a
  · rw [if_pos h1, h1, Equiv.swap_apply_left]
  · rw [if_neg h1]
    by_cases h2 : i = b
    · rw [if_pos h2, h2, Equiv.swap_apply_right]
    · rw [if_neg h2, Equiv.swap_apply_of_ne_of_ne h1 h2]; rfl

theorem laswp_spec (piv : List ℕ) (n m : ℕ) : ∀ (l : List ℕ) (B : Mat R), (∀ k ∈ l, k < n ∧ piv.getD k 0 - 1 < n) → B.nr = n → B.nc = m →
    (laswp l piv B).nr = n ∧ (laswp l piv B).nc = m ∧ ∀ i < n, ∀ j < m, (laswp l piv B).get i j = B.get (swaps piv l i) j
  | [], B, _, h1, h2 => ⟨h1, h2, fun _ _ _ _ => rfl⟩
  | k :: l, B, h, h1, h2 => by
    have := laswp_spec piv n m l (B.swapRows k (piv.getD k 0 - 1)) (fun x hx => h x (by simp [hx])) h1 h2
    refine ⟨this.1, this.2.1, fun i hi j hj => ?_⟩
    have e := this.2.2 i hi j hj
    have hl : swaps piv l i < n := swaps_lt (fun x hx => h x (by simp [hx])) hi
    rw [swapRows_get B (by omega) (by omega)] at e
    rw [swaps_cons]; exact e

theorem set_get' (A : Mat R) {i j i' j' : ℕ} (x : R) (hi : i < A.nr) (hi' : i' < A.nr) :
    (A.set i j x).get i' j' = if i' = i ∧ j' = j then x else A.get i' j' := by
  show Function.update A.data (i + j * A.nr) x (i' + j' * A.nr) = _
  rw [Function.update_apply]
  apply if_congr _ rfl rfl
  constructor
  · intro h
    have hm : (i' + j' * A.nr) % A.nr = (i + j * A.nr) % A.nr := by rw [h]
    rw [Nat.add_mul_mod_self_right, Nat.add_mul_mod_self_right, Nat.mod_eq_of_lt hi, Nat.mod_eq_of_lt hi'] at hm
    subst hm
    have : j' * A.nr = j * A.nr := by omega
    exact ⟨rfl, Nat.eq_of_mul_eq_mul_right (by omega) this⟩
  · rintro ⟨rfl, rfl⟩; rfl

theorem swapEntry_get (B : Mat R) {r a b i j : ℕ} (hr : r < B.nr) (hi : i < B.nr) :
    (B.swapEntry r a b).nr = B.nr ∧ (B.swapEntry r a b).nc = B.nc ∧
    (B.swapEntry r a b).get i j = if i = r then B.get i (Equiv.swap a b j) else B.get i j := by
  refine ⟨rfl, rfl, ?_⟩
  unfold Mat.swapEntry
  rw [set_get' _ _ (by exact hr) (by exact hi), set_get' _ _ hr hi]
  by_cases h : i = r
  · subst h
    rw [if_pos rfl]
    by_cases hb : j = b
    · subst hb
      rw [if_pos ⟨rfl, rfl⟩, Equiv.swap_apply_right]
    · rw [if_neg (fun h => hb h.2)]
      by_cases ha : j = a
      · subst ha; rw [if_pos ⟨rfl, rfl⟩, Equiv.swap_apply_left]
      · rw [if_neg (fun h => ha h.2), Equiv.swap_apply_of_ne_of_ne ha hb]
  · rw [if_neg (fun h' => h h'.1), if_neg (fun h' => h h'.1), if_neg h]

theorem rowSwaps_spec (piv : List ℕ) (n : ℕ) {r : ℕ} (hr : r < n) : ∀ (l : List ℕ) (B : Mat R), B.nr = n →
    let B' := l.foldl (fun B j => B.swapEntry r (piv.getD j 0 - 1) j) B
    B'.nr = n ∧ B'.nc = B.nc ∧ ∀ i < n, ∀ j, B'.get i j = if i = r then B.get i (swaps piv l j) else B.get i j
  | [], B, h => ⟨h, rfl, fun i _ j => by by_cases hi : i = r <;> simp [hi] <;> rfl⟩
  | k :: l, B, h => by
    have e := rowSwaps_spec piv n hr l (B.swapEntry r (piv.getD k 0 - 1) k) h
    refine ⟨e.1, e.2.1, fun i hi j => ?_⟩
    have e2 := e.2.2 i hi j
    simp only [List.foldl_cons]
    rw [e2]
    have g : ∀ j, (B.swapEntry r (piv.getD k 0 - 1) k).get i j = if i = r then B.get i (Equiv.swap (piv.getD k 0 - 1) k j) else B.get i j :=
      fun j => (swapEntry_get B (by omega) (by omega)).2.2
    by_cases hir : i = r
    · rw [if_pos hir, if_pos hir, g, if_pos hir, swaps_cons, Equiv.swap_comm]
    · rw [if_neg hir, if_neg hir, g, if_neg hir]

theorem colSwaps_spec (piv l : List ℕ) (n : ℕ) (B : Mat R) (hn : B.nr = n) :
    (colSwaps l piv B).nr = n ∧ (colSwaps l piv B).nc = B.nc ∧ ∀ i < n, ∀ j, (colSwaps l piv B).get i j = B.get i (swaps piv l j) := by
  have key : ∀ k ≤ n, ∀ B' : Mat R, B' = (List.range k).foldl (fun B i => l.foldl (fun B j => B.swapEntry i (piv.getD j 0 - 1) j) B) B →
      B'.nr = n ∧ B'.nc = B.nc ∧ ∀ i < n, ∀ j, B'.get i j = if i < k then B.get i (swaps piv l j) else B.get i j := by
    intro k
    induction k with
    | zero =>
      rintro - B' rfl
      exact ⟨hn, rfl, fun i _ j => by simp⟩
    | succ k ih =>
      intro hk B' hB'
      rw [List.range_succ, List.foldl_append, List.foldl_cons, List.foldl_nil] at hB'
      obtain ⟨a1, a2, a3⟩ := ih (by omega) _ rfl
      have r := rowSwaps_spec piv n (show k < n by omega) l _ a1
      rw [← hB'] at r
      refine ⟨r.1, r.2.1.trans a2, fun i hi j => ?_⟩
      rw [r.2.2 i hi j, a3 i hi, a3 i hi]
      by_cases h1 : i = k
      · subst h1
        rw [if_pos rfl, if_neg (lt_irrefl _), if_pos (by omega)]
      · rw [if_neg h1]
        by_cases h2 : i < k
        · rw [if_pos h2, if_pos (by omega)]
        · rw [if_neg h2, if_neg (by omega)]
  have k := key n le_rfl (colSwaps l piv B) (by unfold colSwaps; rw [hn])
  exact ⟨k.1, k.2.1, fun i hi j => by rw [k.2.2 i hi j, if_pos hi]⟩

end swaps

/-! ## The dense solve -/

section dense
variable [CommRing R] [StarRing R] {E : LinOps R}

theorem PivOK.range {n : ℕ} {piv : List ℕ} (h : PivOK n piv) (hp : isPivoted piv = true) :
    piv.length = n ∧ ∀ k ∈ List.range n, k < n ∧ piv.getD k 0 - 1 < n := by
  rcases h with rfl | h
  · simp [isPivoted] at hp
  · refine ⟨h.1, fun k hk => ?_⟩
    rw [List.mem_range] at hk
    have := h.2 k hk
    omega

theorem sum_perm {n : ℕ} (σ : Equiv.Perm ℕ) (h1 : ∀ i < n, σ i < n) (h2 : ∀ i < n, σ⁻¹ i < n) (f : ℕ → R) :
    ∑ l ∈ range n, f (σ l) = ∑ l ∈ range n, f l :=
  Finset.sum_bij (fun l _ => σ l) (fun a ha => mem_range.2 (h1 a (mem_range.1 ha))) (fun a _ b _ h => σ.injective h)
    (fun b hb => ⟨σ⁻¹ b, mem_range.2 (h2 b (mem_range.1 hb)), by simp⟩) (fun _ _ => rfl)

/-- The exchanges act on the equations (`rows`) or on the unknowns. -/
def actsOnRows (side : Side) (tr : Trans) : Bool := decide (side = .L) == decide (tr = .N)

theorem tv_rows {side : Side} {tr : Trans} (h : actsOnRows side tr = true) (T : ℕ → ℕ → R) (f : ℕ → ℕ) (i l : ℕ) :
    tv side tr (fun i j => T (f i) j) i l = tv side tr T (f i) l := by
  cases side <;> cases tr <;> first | rfl | (simp [actsOnRows] at h)

theorem tv_cols {side : Side} {tr : Trans} (h : actsOnRows side tr = false) (T : ℕ → ℕ → R) (f : ℕ → ℕ) (i l : ℕ) :
    tv side tr (fun i j => T (f i) j) i l = tv side tr T i (f l) := by
  cases side <;> cases tr <;> first | rfl | (simp [actsOnRows] at h)

/-- **Dense triangular solve.** -/
theorem triDense_spec (hE : TrsmOK E) (side : Side) {u : UploType} (hu : u ≠ .N) (tr : Trans) (unit : Bool) (α : R) {A : Mat R} {piv : List ℕ}
    {B : Mat R} {n m : ℕ} (h1 : A.nr = n) (h2 : A.nc = n) (hp : PivOK n piv) (hd : unit = false → ∀ i < n, IsUnit (A.get i i))
    (hB : (B.nr, B.nc) = (if side = .L then (n, m) else (m, n))) :
    (triDense E side u tr unit α A piv B).nr = B.nr ∧ (triDense E side u tr unit α A piv B).nc = B.nc ∧
    ∀ i < n, ∀ k < m, ∑ l ∈ range n, tv side tr (ptri u unit A.get piv) i l * sv side (triDense E side u tr unit α A piv B).get l k =
      α * sv side B.get i k := by
  by_cases hpv : u = .L ∧ isPivoted piv = true
  · obtain ⟨rfl, hpv⟩ := hpv
    obtain ⟨hl, hr⟩ := hp.range hpv
    have hT : ptri .L unit A.get piv = fun i j => tri .L unit A.get ((pivPerm piv)⁻¹ i) j := by
      funext i j; unfold ptri; rw [if_pos ⟨rfl, hpv⟩]
    have hσ : pivPerm piv = swaps piv (List.range n) := by unfold pivPerm swaps; rw [hl]
    have hσ' : (pivPerm piv)⁻¹ = swaps piv (List.range n).reverse := by rw [swaps_reverse, hσ]
    have lt1 : ∀ i < n, pivPerm piv i < n := fun i hi => by rw [hσ]; exact swaps_lt hr hi
    have lt2 : ∀ i < n, (pivPerm piv)⁻¹ i < n := fun i hi => by
      rw [hσ']; exact swaps_lt (fun k hk => hr k (List.mem_reverse.1 hk)) hi
    have hr' : ∀ k ∈ (List.range n).reverse, k < n ∧ piv.getD k 0 - 1 < n := fun k hk => hr k (List.mem_reverse.1 hk)
    cases hact : actsOnRows side tr with
    | true =>
      -- the right-hand side is permuted first
      have hB1 : ∃ B1 : Mat R, triDense E side .L tr unit α A piv B = E.trsm side .L tr unit α A B1 ∧ B1.nr = B.nr ∧ B1.nc = B.nc ∧
          ∀ i < n, ∀ k < m, sv side B1.get i k = sv side B.get (pivPerm piv i) k := by
        unfold triDense
        rw [hpv]
        cases side with
        | L =>
          have htr : tr = .N := by cases tr <;> simp_all [actsOnRows]
          subst htr
          rw [if_pos rfl] at hB
          have b1 : B.nr = n := congrArg Prod.fst hB
          have b2 : B.nc = m := congrArg Prod.snd hB
          have s := laswp_spec piv n m (List.range n) B hr b1 b2
          refine ⟨laswp (List.range n) piv B, by simp [b1], s.1.trans b1.symm, s.2.1.trans b2.symm, fun i hi k hk => ?_⟩
          show (laswp (List.range n) piv B).get i k = B.get _ k
          rw [s.2.2 i hi k hk, hσ]
        | R =>
          have htr : tr ≠ .N := by intro h; simp [actsOnRows, h] at hact
          rw [if_neg (by decide)] at hB
          have b1 : B.nr = m := congrArg Prod.fst hB
          have b2 : B.nc = n := congrArg Prod.snd hB
          have s := colSwaps_spec piv (List.range n) m B b1
          refine ⟨colSwaps (List.range n) piv B, by simp [b2, htr], s.1.trans b1.symm, s.2.1, fun i hi k hk => ?_⟩
          show (colSwaps (List.range n) piv B).get k i = B.get k _
          rw [s.2.2 k hk i, hσ]
      obtain ⟨B1, e, d1, d2, hv⟩ := hB1
      have t := hE side .L tr unit α A B1 n m hu h1 h2 (by rw [d1, d2]; exact hB) hd
      rw [e]
      refine ⟨t.1.trans d1, t.2.1.trans d2, fun i hi k hk => ?_⟩
      have := t.2.2 _ (lt2 i hi) k hk
      rw [hv _ (lt2 i hi) k hk, show pivPerm piv ((pivPerm piv)⁻¹ i) = i by simp] at this
      rw [← this, hT]
      exact Finset.sum_congr rfl fun l _ => by rw [tv_rows hact]
    | false =>
      have t := hE side .L tr unit α A B n m hu h1 h2 hB hd
      have hX : (triDense E side .L tr unit α A piv B).nr = B.nr ∧ (triDense E side .L tr unit α A piv B).nc = B.nc ∧
          ∀ i < n, ∀ k < m, sv side (triDense E side .L tr unit α A piv B).get i k = sv side (E.trsm side .L tr unit α A B).get ((pivPerm piv)⁻¹ i) k := by
        unfold triDense
        rw [hpv]
        cases side with
        | L =>
          have htr : tr ≠ .N := by intro h; simp [actsOnRows, h] at hact
          rw [if_pos rfl] at hB
          have b1 : B.nr = n := congrArg Prod.fst hB
          have b2 : B.nc = m := congrArg Prod.snd hB
          have s := laswp_spec piv n m (List.range n).reverse (E.trsm .L .L tr unit α A B) hr' (t.1.trans b1) (t.2.1.trans b2)
          simp only [decide_true, Bool.and_self, Bool.true_and, htr, decide_false, Bool.and_false, reduceCtorEq, if_false, Bool.false_and, ne_eq,
            not_false_iff, if_true, b1]
          refine ⟨s.1, s.2.1.trans b2.symm, fun i hi k hk => ?_⟩
          show (laswp (List.range n).reverse piv _).get i k = (E.trsm .L .L tr unit α A B).get _ k
          rw [s.2.2 i hi k hk, hσ']
        | R =>
          have htr : tr = .N := by cases tr <;> simp_all [actsOnRows]
          subst htr
          rw [if_neg (by decide)] at hB
          have b1 : B.nr = m := congrArg Prod.fst hB
          have b2 : B.nc = n := congrArg Prod.snd hB
          have s := colSwaps_spec piv (List.range n).reverse m (E.trsm .R .L .N unit α A B) (t.1.trans b1)
          simp only [decide_true, Bool.and_self, Bool.true_and, decide_false, Bool.and_false, reduceCtorEq, if_false, Bool.false_and, ne_eq,
            not_true_eq_false, if_true, b2]
          refine ⟨s.1.trans b1.symm, (s.2.1.trans t.2.1).trans b2, fun i hi k hk => ?_⟩
          show (colSwaps (List.range n).reverse piv _).get k i = (E.trsm .R .L .N unit α A B).get k _
          rw [s.2.2 k hk i, hσ']
      refine ⟨hX.1, hX.2.1, fun i hi k hk => ?_⟩
      rw [← t.2.2 i hi k hk, hT]
      refine Eq.trans ?_ (sum_perm ((pivPerm piv)⁻¹) lt2 (by simpa using lt1) _)
      refine Finset.sum_congr rfl fun l hl => ?_
      rw [tv_cols hact, hX.2.2 l (mem_range.1 hl) k hk]
  · have e : triDense E side u tr unit α A piv B = E.trsm side u tr unit α A B := by
      unfold triDense
      have : (isPivoted piv && decide (u = .L)) = false := by
        by_contra h
        simp only [Bool.not_eq_false, Bool.and_eq_true, decide_eq_true_eq] at h
        exact hpv ⟨h.2, h.1⟩
      rw [this]; simp
    have hT : ptri u unit A.get piv = tri u unit A.get := by
      funext i j; unfold ptri; rw [if_neg hpv]
    rw [e, hT]
    exact hE side u tr unit α A B n m hu h1 h2 hB hd

end dense
end Htool
