import Verif.Vectors
import Verif.HProd
import Verif.Props.ClusterIO
import Mathlib.NumberTheory.Zsqrtd.GaussianInt

/-! # Properties C66 and C67: vector operators, text exports -/

namespace Htool
open Finset

namespace Vec
section
variable {R : Type*}

theorem transform2_spec (f : R → R → R) : ∀ (a b : List R), a.length ≤ b.length →
    ∃ c, transform2 f a b = some c ∧ c.length = a.length ∧ ∀ i (h : i < a.length) (h' : i < b.length), c[i]? = some (f a[i] b[i])
  | [], b, _ => ⟨[], rfl, rfl, fun i h => absurd h (Nat.not_lt_zero i)⟩
  | x :: a, [], h => absurd h (by simp)
  | x :: a, y :: b, h => by
    obtain ⟨c, h1, h2, h3⟩ := transform2_spec f a b (by simpa using h)
    refine ⟨f x y :: c, by simp [transform2, h1], by simp [h2], fun i hi hi' => ?_⟩
    cases i with
    | zero => simp
    | succ i => simpa using h3 i (by simpa using hi) (by simpa using hi')

theorem transform2_none (f : R → R → R) : ∀ (a b : List R), b.length < a.length → transform2 f a b = none
  | [], b, h => absurd h (Nat.not_lt_zero _)
  | x :: a, [], _ => rfl
  | x :: a, y :: b, h => by simp [transform2, transform2_none f a b (by simpa using h)]

theorem innerLoop_spec [CommRing R] (f : R → R → R) : ∀ (a b : List R) (acc : R), a.length ≤ b.length →
    innerLoop f acc a b = some (acc + ∑ i ∈ range a.length, f (a.getD i 0) (b.getD i 0))
  | [], b, acc, _ => by simp [innerLoop]
  | x :: a, [], acc, h => absurd h (by simp)
  | x :: a, y :: b, acc, h => by
    rw [innerLoop, innerLoop_spec f a b _ (by simpa using h), List.length_cons, Finset.sum_range_succ']
    simp only [List.getD_cons_succ, List.getD_cons_zero]
    rw [add_assoc, add_comm (f x y)]

/-- **C66.** For two vectors of the same size, sum and difference are taken entry by entry, the result having this size; multiplication and
division by a scalar too. -/
theorem C66_entrywise [Field R] (a b : List R) (v : R) (h : a.length = b.length) :
    (∃ c, add a b = some c ∧ c.length = a.length ∧ ∀ i < a.length, c.getD i 0 = a.getD i 0 + b.getD i 0) ∧
    (∃ c, sub a b = some c ∧ c.length = a.length ∧ ∀ i < a.length, c.getD i 0 = a.getD i 0 - b.getD i 0) ∧
    ((mult v a).length = a.length ∧ ∀ i < a.length, (mult v a).getD i 0 = v * a.getD i 0) ∧
    ((divs a v).length = a.length ∧ ∀ i < a.length, (divs a v).getD i 0 = a.getD i 0 / v) := by
  have key : ∀ f : R → R → R, ∃ c, transform2 f a b = some c ∧ c.length = a.length ∧ ∀ i < a.length, c.getD i 0 = f (a.getD i 0) (b.getD i 0) := by
    intro f
    obtain ⟨c, h1, h2, h3⟩ := transform2_spec f a b h.le
    refine ⟨c, h1, h2, fun i hi => ?_⟩
    have := h3 i hi (by omega)
    rw [List.getD_eq_getElem?_getD, this, List.getD_eq_getElem _ _ hi, List.getD_eq_getElem _ _ (by omega)]
    rfl
  refine ⟨key (· + ·), key (· - ·), ⟨by simp [mult], fun i hi => ?_⟩, ⟨by simp [divs], fun i hi => ?_⟩⟩
  · rw [List.getD_eq_getElem _ _ (by simpa [mult] using hi), List.getD_eq_getElem _ _ hi]
    simp [mult, mul_comm]
  · rw [List.getD_eq_getElem _ _ (by simpa [divs] using hi), List.getD_eq_getElem _ _ hi]
    simp [divs]

/-- **C66.** A second vector shorter than the first one is read after its end. -/
theorem C66_short_second_operand_out_of_bounds [CommRing R] (a b : List R) (h : b.length < a.length) : add a b = none ∧ sub a b = none :=
  ⟨transform2_none _ a b h, transform2_none _ a b h⟩

/-- **C66.** `dprod(a, b)` is the scalar product, linear in the first argument and conjugate linear in the second one. -/
theorem C66_dprod [CommRing R] [StarRing R] {cplx : Bool} (hc : cplx = false → RealType R) (a b : List R) (h : a.length = b.length) :
    dprod cplx a b = some (∑ i ∈ range a.length, a.getD i 0 * star (b.getD i 0)) := by
  unfold dprod
  cases cplx with
  | true => rw [if_pos rfl, innerLoop_spec _ a b 0 h.le, zero_add]
  | false =>
    rw [if_neg (by simp), innerLoop_spec _ a b 0 h.le, zero_add]
    congr 1
    refine Finset.sum_congr rfl fun i _ => ?_
    rw [hc rfl]

/-- **C66.** Exchanging the arguments of `dprod` conjugates it. -/
theorem C66_dprod_hermitian [CommRing R] [StarRing R] {cplx : Bool} (hc : cplx = false → RealType R) (a b : List R) (h : a.length = b.length) :
    dprod cplx b a = (dprod cplx a b).map star := by
  rw [C66_dprod hc a b h, C66_dprod hc b a h.symm, Option.map_some, star_sum, h]
  congr 1
  refine Finset.sum_congr rfl fun i _ => ?_
  rw [star_mul, star_star]

/-- **C66.** `mean` of a nonempty vector is the sum divided by the number of entries. -/
theorem C66_mean [Field R] [CharZero R] (u : List R) (h : u ≠ []) : mean u * (u.length : R) = ∑ i ∈ range u.length, u.getD i 0 := by
  have hl : (u.length : R) ≠ 0 := by
    rw [Nat.cast_ne_zero]
    exact fun e => h (List.length_eq_zero_iff.1 e)
  have hs : ∀ (l : List R) (a : R), l.foldl (· + ·) a = a + ∑ i ∈ range l.length, l.getD i 0 := by
    intro l
    induction l with
    | nil => simp
    | cons x l ih =>
      intro a
      rw [List.foldl_cons, ih, List.length_cons, Finset.sum_range_succ']
      simp only [List.getD_cons_succ, List.getD_cons_zero]
      rw [add_assoc, add_comm x]
  rw [mean, div_mul_cancel₀ _ hl, hs, zero_add]

theorem maxElem_spec [Zero R] {K : Type*} [LinearOrder K] (ab : R → K) (u : List R) (hu : u ≠ []) :
    maxElem (absLt ab) u 0 < u.length ∧ (∀ i < u.length, ab (u.getD i 0) ≤ ab (u.getD (maxElem (absLt ab) u 0) 0)) ∧
    ∀ i < maxElem (absLt ab) u 0, ab (u.getD i 0) < ab (u.getD (maxElem (absLt ab) u 0) 0) := by
  have := Mat.maxElement_spec ab (fun i => u.getD i 0) (n := u.length) (List.length_pos_iff.2 hu)
  have e : Mat.maxElement ab (fun i => u.getD i 0) u.length = maxElem (absLt ab) u 0 := by
    unfold Mat.maxElement maxElem absLt
    simp only [decide_eq_true_eq]
  rw [e] at this
  exact this

theorem minElem_spec [Zero R] {K : Type*} [LinearOrder K] (ab : R → K) (u : List R) (hu : u ≠ []) :
    minElem (absLt ab) u 0 < u.length ∧ (∀ i < u.length, ab (u.getD (minElem (absLt ab) u 0) 0) ≤ ab (u.getD i 0)) ∧
    ∀ i < minElem (absLt ab) u 0, ab (u.getD (minElem (absLt ab) u 0) 0) < ab (u.getD i 0) := by
  have := Mat.maxElement_spec (K := Kᵒᵈ) (fun x => OrderDual.toDual (ab x)) (fun i => u.getD i 0) (n := u.length) (List.length_pos_iff.2 hu)
  have e : Mat.maxElement (K := Kᵒᵈ) (fun x => OrderDual.toDual (ab x)) (fun i => u.getD i 0) u.length = minElem (absLt ab) u 0 := by
    unfold Mat.maxElement minElem absLt
    simp only [decide_eq_true_eq, OrderDual.toDual_lt_toDual]
  rw [e] at this
  exact this

/-- **C66.** On a nonempty vector `argmax` is the first position of an entry of largest modulus, `max` this entry and `min` the first entry of
smallest modulus. On an empty vector `max` and `min` read an entry which does not exist. -/
theorem C66_extrema [Zero R] {K : Type*} [LinearOrder K] (ab : R → K) (u : List R) :
    (u ≠ [] → argmax ab u < u.length ∧ (∀ i < u.length, ab (u.getD i 0) ≤ ab (u.getD (argmax ab u) 0)) ∧
      (∀ i < argmax ab u, ab (u.getD i 0) < ab (u.getD (argmax ab u) 0)) ∧ max ab u = some (u.getD (argmax ab u) 0) ∧
      ∃ p < u.length, min ab u = some (u.getD p 0) ∧ (∀ i < u.length, ab (u.getD p 0) ≤ ab (u.getD i 0)) ∧
        ∀ i < p, ab (u.getD p 0) < ab (u.getD i 0)) ∧
    (u = [] → max ab u = none ∧ min ab u = none) := by
  constructor
  · intro hu
    obtain ⟨h1, h2, h3⟩ := maxElem_spec ab u hu
    obtain ⟨k1, k2, k3⟩ := minElem_spec ab u hu
    refine ⟨h1, h2, h3, ?_, minElem (absLt ab) u 0, k1, ?_, k2, k3⟩
    · rw [Vec.max, List.getElem?_eq_getElem h1, argmax, List.getD_eq_getElem _ _ h1]
    · rw [Vec.min, List.getElem?_eq_getElem k1, List.getD_eq_getElem _ _ k1]
  · rintro rfl
    exact ⟨rfl, rfl⟩

/-- **C66.** A `SubVec` on `U` and indices `I` inside `U` reads and writes the entries of `U` at these indices, and its product with a vector of
its size is the scalar product (without conjugation). -/
theorem C66_subvec [CommRing R] (U : List R) (I : List ℕ) (hI : ∀ i ∈ I, i < U.length) (rhs : List R) (hr : I.length ≤ rhs.length) :
    (∀ k < I.length, subGet U I k = some (U.getD (I.getD k 0) 0)) ∧
    (∀ k < I.length, ∀ x i, (subSet U I k x).length = U.length ∧ (subSet U I k x).getD i 0 =
      if i = I.getD k 0 then x else U.getD i 0) ∧
    subDot U I rhs = some (∑ k ∈ range I.length, U.getD (I.getD k 0) 0 * rhs.getD k 0) := by
  have g : ∀ k < I.length, subGet U I k = some (U.getD (I.getD k 0) 0) := by
    intro k hk
    have := hI I[k] (List.getElem_mem hk)
    unfold subGet
    rw [List.getElem?_eq_getElem hk, Option.bind_some, List.getElem?_eq_getElem this, List.getD_eq_getElem I _ hk, List.getD_eq_getElem U _ this]
  refine ⟨g, ?_, ?_⟩
  · intro k hk x i
    have := hI I[k] (List.getElem_mem hk)
    unfold subSet
    rw [List.getElem?_eq_getElem hk, List.getD_eq_getElem I _ hk]
    refine ⟨by simp, ?_⟩
    rw [List.getD_eq_getElem?_getD, List.getElem?_set, List.getD_eq_getElem?_getD]
    by_cases e : I[k] = i
    · subst e; simp [this]
    · rw [if_neg e, if_neg (fun h => e h.symm)]
  · unfold subDot
    have : ∀ n ≤ I.length, (List.range n).foldl (fun acc k => acc.bind fun l => (subGet U I k).bind fun u => (rhs[k]?).map fun r => l + u * r) (some 0)
        = some (∑ k ∈ range n, U.getD (I.getD k 0) 0 * rhs.getD k 0) := by
      intro n
      induction n with
      | zero => simp
      | succ n ih =>
        intro hn
        rw [List.range_succ, List.foldl_append, ih (by omega), List.foldl_cons, List.foldl_nil, Option.bind_some, g n (by omega), Option.bind_some,
          List.getElem?_eq_getElem (by omega : n < rhs.length), Option.map_some, Finset.sum_range_succ, List.getD_eq_getElem rhs _ (by omega)]
    exact this _ le_rfl
end

section
variable {𝕜 : Type*} [RCLike 𝕜]

/-- **C66.** `norm2` is the Euclidean norm. -/
theorem C66_norm2 {cplx : Bool} (hc : cplx = false → RealType 𝕜) (u : List 𝕜) :
    norm2 cplx u = some (Real.sqrt (∑ i ∈ range u.length, ‖u.getD i 0‖ ^ 2)) := by
  unfold norm2
  rw [C66_dprod hc u u rfl, Option.map_some]
  congr 2
  have : ∑ i ∈ range u.length, u.getD i 0 * star (u.getD i 0) = ((∑ i ∈ range u.length, ‖u.getD i 0‖ ^ 2 : ℝ) : 𝕜) := by
    rw [RCLike.ofReal_sum]
    refine Finset.sum_congr rfl fun i _ => ?_
    rw [RCLike.star_def, RCLike.mul_conj]
    simp
  rw [this, RCLike.norm_ofReal, abs_of_nonneg (Finset.sum_nonneg fun i _ => sq_nonneg _)]

/-- The vector with the entries of a list (specification side). -/
noncomputable def euc (n : ℕ) (u : List 𝕜) : EuclideanSpace 𝕜 (Fin n) := WithLp.toLp 2 (fun i => u.getD i 0)

theorem norm_euc (u : List 𝕜) : ‖euc u.length u‖ = Real.sqrt (∑ i ∈ range u.length, ‖u.getD i 0‖ ^ 2) := by
  rw [EuclideanSpace.norm_eq, Finset.sum_range]
  rfl

/-- **C66.** `norm2` is zero only on the zero vector, is homogeneous, and satisfies the triangle inequality. -/
theorem C66_norm2_is_a_norm {cplx : Bool} (hc : cplx = false → RealType 𝕜) (u v : List 𝕜) (a : 𝕜) (h : u.length = v.length) :
    ∃ nu nv ns nm : ℝ, norm2 cplx u = some nu ∧ norm2 cplx v = some nv ∧ (add u v).bind (norm2 cplx) = some ns ∧ norm2 cplx (mult a u) = some nm ∧
      (nu = 0 ↔ ∀ x ∈ u, x = 0) ∧ ns ≤ nu + nv ∧ nm = ‖a‖ * nu := by
  obtain ⟨⟨s, hs1, hs2, hs3⟩, -, ⟨hm1, hm2⟩, -⟩ := C66_entrywise u v a h
  refine ⟨_, _, _, _, C66_norm2 hc u, C66_norm2 hc v, by rw [hs1, Option.bind_some]; exact C66_norm2 hc s, C66_norm2 hc _, ?_, ?_, ?_⟩
  · rw [Real.sqrt_eq_zero (Finset.sum_nonneg fun i _ => sq_nonneg _), Finset.sum_eq_zero_iff_of_nonneg fun i _ => sq_nonneg _]
    constructor
    · intro hz x hx
      obtain ⟨i, hi, rfl⟩ := List.mem_iff_getElem.1 hx
      have := hz i (Finset.mem_range.2 hi)
      rw [List.getD_eq_getElem _ _ hi] at this
      simpa using this
    · intro hz i hi
      rw [List.getD_eq_getElem _ _ (Finset.mem_range.1 hi), hz _ (List.getElem_mem _)]
      simp
  · rw [← norm_euc, ← norm_euc, ← norm_euc]
    have e1 : euc s.length s = euc s.length u + euc s.length v := by
      unfold euc
      rw [← WithLp.toLp_add]
      congr 1
      funext i
      exact hs3 i (by rw [← hs2]; exact i.2)
    rw [e1]
    have e2 : ‖euc s.length u‖ = ‖euc u.length u‖ := by rw [hs2]
    have e3 : ‖euc s.length v‖ = ‖euc v.length v‖ := by rw [hs2, h]
    rw [← e2, ← e3]
    exact norm_add_le _ _
  · rw [← norm_euc, ← norm_euc, hm1, ← norm_smul]
    congr 1
    unfold euc
    rw [← WithLp.toLp_smul]
    congr 1
    funext i
    exact hm2 i i.2
end

/-- Non-vacuity of C66: products of vectors with complex entries (conjugation on the second argument), extrema, a sub-vector. -/
example : dprod (R := GaussianInt) true [⟨0, 1⟩, ⟨2, 0⟩] [⟨0, 1⟩, ⟨1, 1⟩] = some ⟨3, -2⟩ ∧
    add (R := ℤ) [1, 2] [3, 4] = some [4, 6] ∧ argmax (fun x : ℤ => |x|) [1, -5, 5, 0] = 1 ∧ Vec.max (fun x : ℤ => |x|) [1, -5, 5, 0] = some (-5) ∧
    Vec.min (fun x : ℤ => |x|) [1, -5, 5, 0] = some 0 ∧ subDot (R := ℤ) [10, 20, 30] [2, 0] [1, 2] = some 50 ∧
    subSet (R := ℤ) [10, 20, 30] [2, 0] 1 7 = [7, 20, 30] := by decide +kernel

end Vec
end Htool
