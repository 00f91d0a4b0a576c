import Verif.HLinPerm
import Verif.Props.HLinSolve

/-! # Existence of an exact `getrf` over a field -/

namespace Htool
open Finset

theorem swaps_shift (a : ℕ) (piv : List ℕ) : ∀ (l : List ℕ), (∀ k ∈ l, k < piv.length ∧ 1 ≤ piv.getD k 0) →
    swaps (a :: piv.map (· + 1)) (l.map (· + 1)) 0 = 0 ∧ ∀ i, swaps (a :: piv.map (· + 1)) (l.map (· + 1)) (i + 1) = swaps piv l i + 1
  | [], _ => ⟨rfl, fun _ => rfl⟩
  | k :: l, h => by
    obtain ⟨i1, i2⟩ := swaps_shift a piv l fun x hx => h x (List.mem_cons_of_mem _ hx)
    obtain ⟨h1, h2⟩ := h k List.mem_cons_self
    have e : (a :: piv.map (· + 1)).getD (k + 1) 0 = piv.getD k 0 + 1 := by
      rw [List.getD_cons_succ, List.getD_eq_getElem?_getD, List.getD_eq_getElem?_getD, List.getElem?_map]
      rw [List.getElem?_eq_getElem h1]
      rfl
    obtain ⟨q, hq⟩ : ∃ q, piv.getD k 0 = q + 1 := ⟨piv.getD k 0 - 1, by omega⟩
    rw [List.map_cons]
    refine ⟨?_, fun i => ?_⟩
    · rw [swaps_cons, i1, e, hq]
      exact Equiv.swap_apply_of_ne_of_ne (by omega) (by omega)
    · rw [swaps_cons, swaps_cons, i2, e, hq]
      show Equiv.swap (k + 1) (q + 1) (swaps piv l i + 1) = Equiv.swap k q (swaps piv l i) + 1
      rw [Equiv.swap_apply_def, Equiv.swap_apply_def]
      by_cases e1 : swaps piv l i = k
      · rw [if_pos (by omega), if_pos e1]
      · rw [if_neg (by omega), if_neg e1]
        by_cases e2 : swaps piv l i = q
        · rw [if_pos (by omega), if_pos e2]
        · rw [if_neg (by omega), if_neg e2]

section field
variable {K : Type*} [Field K]

/-- A nonsingular matrix has a factorization with row exchanges. -/
theorem plu_exists : ∀ (n : ℕ) (M : ℕ → ℕ → K), Nonsing M 0 n → ∃ (F : ℕ → ℕ → K) (piv : List ℕ), piv.length = n ∧
    (∀ k < n, k + 1 ≤ piv.getD k 0 ∧ piv.getD k 0 ≤ n) ∧ (∀ i < n, IsUnit (F i i)) ∧
    ∀ i < n, ∀ j < n, M (swaps piv (List.range n) i) j = ∑ l ∈ range n, tri .L true F i l * tri .U false F l j
  | 0, M, _ => ⟨M, [], rfl, fun k hk => absurd hk (Nat.not_lt_zero k), fun k hk => absurd hk (Nat.not_lt_zero k), fun k hk => absurd hk (Nat.not_lt_zero k)⟩
  | n + 1, M, h => by
    obtain ⟨i0, hi0, hne⟩ : ∃ i0, i0 < n + 1 ∧ M i0 0 ≠ 0 := by
      by_contra hc
      push Not at hc
      have := h.inj (Nat.zero_le _) (x := fun l => if l = 0 then 1 else 0) (fun i hi => by
        refine sum_eq_zero fun l _ => ?_
        by_cases hl : l = 0
        · rw [hl, hc i (mem_Ico.1 hi).2, zero_mul]
        · rw [if_neg hl, mul_zero]) 0 (mem_Ico.2 (by omega))
      simp at this
    set s := Equiv.swap 0 i0 with hs
    have slt : ∀ i, i < n + 1 → s i < n + 1 := fun i hi => swap_lt (by omega) hi0 hi
    set M' : ℕ → ℕ → K := fun i j => M (s i) j with hM'
    have p0 : M' 0 0 ≠ 0 := by
      show M (s 0) 0 ≠ 0
      rw [hs, Equiv.swap_apply_left]
      exact hne
    have nsM' : Nonsing M' 0 (n + 1) := by
      rw [nonsing_iff (Nat.zero_le _)] at h ⊢
      intro r
      obtain ⟨x, hx⟩ := h (fun i => r (s i))
      refine ⟨x, fun i hi => ?_⟩
      have := hx (s i) (mem_Ico.2 ⟨Nat.zero_le _, slt i (mem_Ico.1 hi).2⟩)
      rw [this, hs, Equiv.swap_apply_self]
    have ns1 : Nonsing M' 0 1 := by
      rw [nonsing_iff (by omega)]
      intro r
      refine ⟨fun _ => (M' 0 0)⁻¹ * r 0, fun i hi => ?_⟩
      have : i = 0 := by have := (mem_Ico.1 hi).2; omega
      subst this
      rw [show Ico 0 1 = {0} from rfl, sum_singleton, ← mul_assoc, mul_inv_cancel₀ p0, one_mul]
    have nsS := nonsing_schur (M := M') (L := fun i _ => M' i 0 * (M' 0 0)⁻¹) (U := fun _ j => M' 0 j)
      (S := fun i j => M' i j - M' i 0 * (M' 0 0)⁻¹ * M' 0 j) (by omega : 0 ≤ 1) (by omega : 1 ≤ n + 1) ns1 nsM' (by
        intro i hi j hj
        rw [show Ico 0 1 = {0} from rfl, sum_singleton]
        by_cases hij : 1 ≤ i ∧ 1 ≤ j
        · rw [if_pos hij]; ring
        · rw [if_neg hij, add_zero]
          rcases Nat.eq_zero_or_pos i with e | e
          · subst e; rw [mul_inv_cancel₀ p0, one_mul]
          · have : j = 0 := by omega
            subst this
            rw [mul_assoc, inv_mul_cancel₀ p0, mul_one])
    obtain ⟨F', piv', f1, f2, f3, f4⟩ := plu_exists n (fun i j => M' (i + 1) (j + 1) - M' (i + 1) 0 * (M' 0 0)⁻¹ * M' 0 (j + 1)) (by
      unfold Nonsing at nsS ⊢
      have e : subM (fun i j => M' (i + 1) (j + 1) - M' (i + 1) 0 * (M' 0 0)⁻¹ * M' 0 (j + 1)) 0 (n - 0) =
          subM (fun i j => M' i j - M' i 0 * (M' 0 0)⁻¹ * M' 0 j) 1 (n + 1 - 1) := by
        ext i j
        show M' (0 + i + 1) (0 + j + 1) - M' (0 + i + 1) 0 * (M' 0 0)⁻¹ * M' 0 (0 + j + 1) = M' (1 + i) (1 + j) - M' (1 + i) 0 * (M' 0 0)⁻¹ * M' 0 (1 + j)
        rw [Nat.zero_add, Nat.zero_add, Nat.add_comm 1 (i : ℕ), Nat.add_comm 1 (j : ℕ)]
      rw [e]; exact nsS)
    have rg : ∀ k ∈ List.range n, k < piv'.length ∧ 1 ≤ piv'.getD k 0 := fun k hk => by
      have hk := List.mem_range.1 hk
      exact ⟨by omega, by have := (f2 k hk).1; omega⟩
    obtain ⟨w0, w1⟩ := swaps_shift (i0 + 1) piv' (List.range n) rg
    set σ' := swaps piv' (List.range n) with hσ'
    have wr : List.range (n + 1) = 0 :: (List.range n).map (· + 1) := List.range_succ_eq_map
    have q0 : swaps ((i0 + 1) :: piv'.map (· + 1)) (List.range (n + 1)) 0 = s 0 := by
      rw [wr, swaps_cons, w0]; rfl
    have q1 : ∀ i, swaps ((i0 + 1) :: piv'.map (· + 1)) (List.range (n + 1)) (i + 1) = s (σ' i + 1) := by
      intro i
      rw [wr, swaps_cons, w1]; rfl
    let F : ℕ → ℕ → K := fun i j => match i, j with
      | 0, j => M' 0 j
      | i + 1, 0 => M' (σ' i + 1) 0 * (M' 0 0)⁻¹
      | i + 1, j + 1 => F' i j
    have tL : ∀ i l, tri .L true F (i + 1) (l + 1) = tri .L true F' i l := by
      intro i l
      unfold tri
      by_cases e : i = l
      · rw [if_pos (by omega), if_pos e]
      · rw [if_neg (by omega), if_neg e]
        by_cases e2 : l < i
        · rw [if_pos (Or.inl ⟨rfl, by omega⟩), if_pos (Or.inl ⟨rfl, e2⟩)]
        · rw [if_neg (by simp; omega), if_neg (by simp; omega)]
    have tU : ∀ i l, tri .U false F (i + 1) (l + 1) = tri .U false F' i l := by
      intro i l
      unfold tri
      by_cases e : i = l
      · rw [if_pos (by omega), if_pos e]
      · rw [if_neg (by omega), if_neg e]
        by_cases e2 : i < l
        · rw [if_pos (Or.inr ⟨rfl, by omega⟩), if_pos (Or.inr ⟨rfl, e2⟩)]
        · rw [if_neg (by simp; omega), if_neg (by simp; omega)]
    have tU0 : ∀ j, tri .U false F 0 j = M' 0 j := by
      intro j
      unfold tri
      rcases Nat.eq_zero_or_pos j with e | e
      · subst e; rfl
      · rw [if_neg (by omega), if_pos (Or.inr ⟨rfl, e⟩)]
    have tU1 : ∀ i, tri .U false F (i + 1) 0 = 0 := by
      intro i
      unfold tri
      rw [if_neg (by omega), if_neg (by simp)]
    have tL00 : tri .L true F 0 0 = 1 := rfl
    have tL01 : ∀ l, tri .L true F 0 (l + 1) = 0 := by
      intro l
      unfold tri
      rw [if_neg (by omega), if_neg (by simp)]
    have tL10 : ∀ i, tri .L true F (i + 1) 0 = M' (σ' i + 1) 0 * (M' 0 0)⁻¹ := by
      intro i
      unfold tri
      rw [if_neg (by omega), if_pos (Or.inl ⟨rfl, by omega⟩)]
    refine ⟨F, (i0 + 1) :: piv'.map (· + 1), by simp [f1], fun k hk => ?_, fun i hi => ?_, fun i hi j hj => ?_⟩
    · rcases k with _ | k
      · exact ⟨by simp, by simpa using hi0⟩
      · have e : ((i0 + 1) :: piv'.map (· + 1)).getD (k + 1) 0 = piv'.getD k 0 + 1 := by
          rw [List.getD_cons_succ, List.getD_eq_getElem?_getD, List.getD_eq_getElem?_getD, List.getElem?_map]
          rw [List.getElem?_eq_getElem (by omega)]
          rfl
        rw [e]
        have := f2 k (by omega)
        omega
    · rcases i with _ | i
      · exact IsUnit.mk0 _ p0
      · exact f3 i (by omega)
    · rw [sum_range_succ']
      rcases i with _ | i
      · rw [q0, sum_eq_zero (fun l _ => by rw [tL01, zero_mul]), zero_add, tL00, one_mul, tU0]
      · rw [q1]
        have hi' : i < n := by omega
        rcases j with _ | j
        · rw [sum_eq_zero (fun l _ => by rw [tU1, mul_zero]), zero_add, tL10, tU0, mul_assoc, inv_mul_cancel₀ p0, mul_one]
        · have key := f4 i hi' j (by omega)
          rw [tL10, tU0, sum_congr rfl (fun l _ => by rw [tL, tU] : ∀ l ∈ range n, tri .L true F (i + 1) (l + 1) * tri .U false F (l + 1) (j + 1) =
            tri .L true F' i l * tri .U false F' l j), ← key]
          show M' (σ' i + 1) (j + 1) = _
          ring

/-- An exact `getrf` exists. -/
theorem getrf_exists : ∃ g : Mat K → Mat K × List ℕ, ∀ E : LinOps K, E.getrf = g → GetrfOK E := by
  classical
  have ex : ∀ D : Mat K, ∃ r : Mat K × List ℕ, ∀ n, D.nr = n → D.nc = n → Nonsing D.get 0 n →
      r.1.nr = n ∧ r.1.nc = n ∧ r.2.length = n ∧
      (∀ k < n, k + 1 ≤ r.2.getD k 0 ∧ r.2.getD k 0 ≤ n) ∧ (∀ i < n, IsUnit (r.1.get i i)) ∧
      ∀ i < n, ∀ j < n, (laswp (List.range n) r.2 D).get i j = ∑ l ∈ range n, tri .L true r.1.get i l * tri .U false r.1.get l j := by
    intro D
    by_cases hD : D.nr = D.nc ∧ Nonsing D.get 0 D.nr
    · obtain ⟨F, piv, f1, f2, f3, f4⟩ := plu_exists D.nr D.get hD.2
      refine ⟨(matFun D.nr D.nr F, piv), fun n h1 h2 _ => ?_⟩
      subst h1
      have g : ∀ i < D.nr, ∀ j < D.nr, (matFun D.nr D.nr F).get i j = F i j := fun i hi j _ => matFun_get _ _ _ hi
      refine ⟨rfl, rfl, f1, f2, fun i hi => by rw [g i hi i hi]; exact f3 i hi, fun i hi j hj => ?_⟩
      rw [(laswp_spec piv D.nr D.nr (List.range D.nr) D (fun k hk => by
        have hk := List.mem_range.1 hk
        have := f2 k hk
        omega) rfl h2).2.2 i hi j hj, f4 i hi j hj]
      refine sum_congr rfl fun l hl => ?_
      have hl := mem_range.1 hl
      unfold tri
      rw [g i hi l hl, g l hl j hj]
    · refine ⟨(D, []), fun n h1 h2 h3 => ?_⟩
      exact absurd ⟨h1.trans h2.symm, by rw [h1]; exact h3⟩ hD
  choose g hg using ex
  exact ⟨g, fun E hE D n h1 h2 h3 => by rw [hE]; exact hg D n h1 h2 h3⟩

end field
end Htool
