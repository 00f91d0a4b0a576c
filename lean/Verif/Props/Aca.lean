import Verif.Aca
import Verif.Props.LowRank
import Mathlib.Algebra.Star.Rat
import Mathlib.Analysis.RCLike.Basic

/-! # C29 and C30: adaptive cross approximation -/

namespace Htool
open Finset
variable {K F : Type*} [Field K] [StarRing K] [Field F] [LinearOrder F] [IsStrictOrderedRing F]

/-! ## Specification -/

/-- Square of the Frobenius norm of an `M × N` matrix. -/
def normSq (μ : Modulus K F) (M N : ℕ) (B : ℕ → ℕ → K) : F := ∑ i ∈ range M, ∑ j ∈ range N, μ.abs (B i j) ^ 2

/-- The entries of the block of the generator with rows `t` and columns `s`. -/
def genBlock (gen : ℕ → ℕ → K) (t s : ℕ × ℕ) (i j : ℕ) : K := gen (t.1 + i) (s.1 + j)

/-- `U V` agrees with the `M × N` matrix `B` on `k` different rows `Is` and `k` different columns `Js`. -/
structure Interpolates (M N k : ℕ) (B E : ℕ → ℕ → K) (Is Js : List ℕ) : Prop where
  nIs : Is.length = k
  nJs : Js.length = k
  dIs : Is.Nodup
  dJs : Js.Nodup
  bIs : ∀ i ∈ Is, i < M
  bJs : ∀ j ∈ Js, j < N
  rows : ∀ i ∈ Is, ∀ j < N, E i j = B i j
  cols : ∀ j ∈ Js, ∀ i < M, E i j = B i j

/-! ## Lemmas -/

/-- Sum of the crosses. -/
def crossSum (uu vv : List (Buf K)) (i j : ℕ) : K := ((uu.zip vv).map (fun p => p.1 i * p.2 j)).sum

theorem crossSum_append {uu vv : List (Buf K)} (h : uu.length = vv.length) (u v : Buf K) (i j : ℕ) :
    crossSum (uu ++ [u]) (vv ++ [v]) i j = crossSum uu vv i j + u i * v j := by
  unfold crossSum
  rw [List.zip_append h]
  simp

theorem crossSum_range {uu vv : List (Buf K)} {k : ℕ} (h : uu.length = k) (h' : vv.length = k) (i j : ℕ) :
    crossSum uu vv i j = ∑ l ∈ range k, (uu.getD l 0) i * (vv.getD l 0) j := by
  induction k generalizing uu vv with
  | zero => rw [List.length_eq_zero_iff.1 h]; rfl
  | succ k ih =>
    obtain ⟨u, us, rfl⟩ := List.exists_cons_of_length_eq_add_one h
    obtain ⟨v, vs, rfl⟩ := List.exists_cons_of_length_eq_add_one h'
    rw [sum_range_succ']
    have := ih (uu := us) (vv := vs) (by simpa using h) (by simpa using h')
    show u i * v j + crossSum us vs i j = _
    rw [this, add_comm]
    rfl

theorem residRow_get (n I : ℕ) (uu vv : List (Buf K)) (r : Buf K) {k : ℕ} (hk : k < n) :
    residRow n I uu vv r k = r k - crossSum uu vv I k := by
  unfold residRow crossSum
  induction uu.zip vv generalizing r with
  | nil => simp
  | cons p ps ih =>
    rw [List.foldl_cons, ih, List.map_cons, List.sum_cons]
    simp only [axpy, if_pos hk]; ring

theorem residCol_get (n J : ℕ) (uu vv : List (Buf K)) (c : Buf K) {k : ℕ} (hk : k < n) :
    residCol n J uu vv c k = c k - crossSum uu vv k J := by
  unfold residCol crossSum
  induction uu.zip vv generalizing c with
  | nil => simp
  | cons p ps ih =>
    rw [List.foldl_cons, ih, List.map_cons, List.sum_cons]
    simp only [axpy, if_pos hk]; ring

theorem pick_spec (n : ℕ) (visited : ℕ → Bool) (val : ℕ → F) (old : ℕ) (hv : ∀ k, 0 ≤ val k) :
    ((∀ k < n, visited k = true) → pick n visited val old = old) ∧
    ((∃ k < n, visited k = false) → pick n visited val old < n ∧ visited (pick n visited val old) = false ∧
      ∀ k < n, visited k = false → val k ≤ val (pick n visited val old)) := by
  unfold pick
  have key : ∀ n, let s := (List.range n).foldl (fun (s : F × ℕ) k => if visited k then s else if val k < s.1 then s else (val k, k)) (0, old)
      ((∀ k < n, visited k = true) → s = (0, old)) ∧ ((∃ k < n, visited k = false) → s.1 = val s.2 ∧ s.2 < n ∧ visited s.2 = false ∧
        ∀ k < n, visited k = false → val k ≤ val s.2) := by
    intro n
    induction n with
    | zero => simp
    | succ n ih =>
      simp only [List.range_succ, List.foldl_append, List.foldl_cons, List.foldl_nil] at ih ⊢
      generalize (List.range n).foldl (fun (s : F × ℕ) k => if visited k then s else if val k < s.1 then s else (val k, k)) (0, old) = s at ih ⊢
      obtain ⟨h1, h2⟩ := ih
      constructor
      · intro hall
        rw [if_pos (hall n (by omega))]
        exact h1 fun k hk => hall k (by omega)
      · intro hex
        by_cases hn : visited n = true
        · rw [if_pos hn]
          obtain ⟨k, hk, hkv⟩ := hex
          have hkn : k ≠ n := fun e => by rw [e, hn] at hkv; exact absurd hkv (by decide)
          obtain ⟨g1, g2, g3, g4⟩ := h2 ⟨k, by omega, hkv⟩
          refine ⟨g1, by omega, g3, fun k hk hkv => ?_⟩
          have hkn : k ≠ n := fun e => by rw [e, hn] at hkv; exact absurd hkv (by decide)
          exact g4 k (by omega) hkv
        · have hn' : visited n = false := by simpa using hn
          rw [if_neg hn]
          by_cases hall : ∀ k < n, visited k = true
          · have hs := h1 hall
            subst hs
            rw [if_neg (not_lt.2 (hv n))]
            refine ⟨rfl, by simp, hn', fun k hk hkv => ?_⟩
            rcases Nat.lt_succ_iff_lt_or_eq.1 hk with h | h
            · rw [hall k h] at hkv; exact absurd hkv (by decide)
            · rw [h]
          · push Not at hall
            obtain ⟨k0, hk0, hk0v⟩ := hall
            obtain ⟨g1, g2, g3, g4⟩ := h2 ⟨k0, hk0, by simpa using hk0v⟩
            by_cases hlt : val n < s.1
            · rw [if_pos hlt]
              refine ⟨g1, by omega, g3, fun k hk hkv => ?_⟩
              rcases Nat.lt_succ_iff_lt_or_eq.1 hk with h | h
              · exact g4 k h hkv
              · rw [h, ← g1]; exact hlt.le
            · rw [if_neg hlt]
              refine ⟨rfl, by simp, hn', fun k hk hkv => ?_⟩
              rcases Nat.lt_succ_iff_lt_or_eq.1 hk with h | h
              · exact (g4 k h hkv).trans (g1 ▸ not_lt.1 hlt)
              · rw [h]
  obtain ⟨k1, k2⟩ := key n
  exact ⟨fun h => by rw [k1 h], fun h => (k2 h).2⟩

theorem pick_lt (n : ℕ) (visited : ℕ → Bool) (val : ℕ → F) (old : ℕ) (hv : ∀ k, 0 ≤ val k) (ho : old < n) : pick n visited val old < n := by
  obtain ⟨h1, h2⟩ := pick_spec n visited val old hv
  by_cases h : ∀ k < n, visited k = true
  · rw [h1 h]; exact ho
  · push Not at h
    obtain ⟨k, hk, hkv⟩ := h
    exact (h2 ⟨k, hk, by simpa using hkv⟩).1

/-! ### Frobenius norm of a sum -/

theorem abs_add_sq (μ : Modulus K F) (x y : K) : μ.abs (x + y) ^ 2 = μ.abs x ^ 2 + μ.abs y ^ 2 + 2 * μ.re (star x * y) := by
  rw [← μ.re_self, ← μ.re_self, ← μ.re_self, star_add]
  have e : (star x + star y) * (x + y) = star x * x + star y * y + (star x * y + star y * x) := by ring
  have h : μ.re (star y * x) = μ.re (star x * y) := by
    rw [← μ.re_star (star y * x), star_mul', star_star, mul_comm]
  rw [e, map_add, map_add, map_add, h]; ring

theorem normSq_add (μ : Modulus K F) (M N : ℕ) (f g : ℕ → ℕ → K) :
    normSq μ M N (fun i j => f i j + g i j) = normSq μ M N f + normSq μ M N g + 2 * μ.re (∑ i ∈ range M, ∑ j ∈ range N, star (f i j) * g i j) := by
  unfold normSq
  simp only [abs_add_sq, sum_add_distrib, map_sum, mul_sum]

theorem cross_inner {uu vv : List (Buf K)} (M N : ℕ) (c r : Buf K) :
    ∑ i ∈ range M, ∑ j ∈ range N, star (crossSum uu vv i j) * (c i * r j) = ((uu.zip vv).map (fun p => dotc N p.2 r * dotc M p.1 c)).sum := by
  unfold crossSum
  induction uu.zip vv with
  | nil => simp
  | cons p ps ih =>
    simp only [List.map_cons, List.sum_cons]
    rw [← ih]
    simp only [star_add, add_mul, sum_add_distrib]
    congr 1
    unfold dotc
    rw [mul_comm, sum_mul_sum]
    refine sum_congr rfl fun i _ => sum_congr rfl fun j _ => ?_
    rw [star_mul']; ring

theorem normSq_outer (μ : Modulus K F) (M N : ℕ) (c r : Buf K) :
    normSq μ M N (fun i j => c i * r j) = μ.abs (dotc M c c) * μ.abs (dotc N r r) := by
  unfold normSq dotc
  rw [μ.abs_self, μ.abs_self, sum_mul_sum]
  refine sum_congr rfl fun i _ => sum_congr rfl fun j _ => ?_
  rw [μ.abs_mul]; ring

theorem acaTol_pos : (0 : F) < acaTol F := by unfold acaTol; positivity

/-! ## Partial pivoting -/

/-- Invariant of the loop of `partialACA` for the `M × N` block `B`. -/
structure PInv (μ : Modulus K F) (M N : ℕ) (B : ℕ → ℕ → K) (reqrank : ℤ) (s : PartState K F) (Is Js : List ℕ) : Prop where
  lu : s.uu.length = s.q
  lv : s.vv.length = s.q
  int : Interpolates M N s.q B (crossSum s.uu s.vv) Is Js
  vr : ∀ i, s.vr i = true ↔ i ∈ Is
  vc : ∀ j, s.vc j = true ↔ j ∈ Js
  hI : s.I < M
  hJ : s.J < N
  new : s.I ∉ Is
  first : s.q = 0 → s.I = 0
  cost : s.q * (M + N) ≤ M * N
  req : 0 < reqrank → (s.q : ℤ) ≤ min reqrank (min (M : ℤ) N)
  frob : reqrank < 0 → s.frob = normSq μ M N (crossSum s.uu s.vv)
  aux : reqrank < 0 → s.q ≠ 0 → s.aux = normSq μ M N (fun i j => (s.uu.getLastD 0) i * (s.vv.getLastD 0) j)

/-- Why the loop ended with the crosses of `s`. -/
inductive PEnd (μ : Modulus K F) (M N : ℕ) (B : ℕ → ℕ → K) (reqrank : ℤ) (eps : F) (s : PartState K F) (Is : List ℕ) : ℤ → Prop
  | cost : M * N < (s.q + 1) * (M + N) → (0 < reqrank → (s.q : ℤ) < min reqrank (min (M : ℤ) N)) → (reqrank < 0 → s.q ≠ 0 →
      eps ^ 2 * normSq μ M N (crossSum s.uu s.vv) < normSq μ M N (fun i j => (s.uu.getLastD 0) i * (s.vv.getLastD 0) j)) → PEnd μ M N B reqrank eps s Is (-1)
  | zeroFirst : s.q = 0 → (∀ j < N, μ.abs (B 0 j) ≤ acaTol F) → PEnd μ M N B reqrank eps s Is (-1)
  | zeroRow : s.q ≠ 0 → (∃ i < M, i ∉ Is ∧ ∀ j < N, μ.abs (B i j - crossSum s.uu s.vv i j) ≤ acaTol F) → PEnd μ M N B reqrank eps s Is s.q
  | rank : 0 < reqrank → s.q ≠ 0 → (s.q : ℤ) = min reqrank (min (M : ℤ) N) → PEnd μ M N B reqrank eps s Is s.q
  | eps : reqrank < 0 → s.q ≠ 0 → normSq μ M N (fun i j => (s.uu.getLastD 0) i * (s.vv.getLastD 0) j) ≤
      eps ^ 2 * normSq μ M N (crossSum s.uu s.vv) → PEnd μ M N B reqrank eps s Is s.q

theorem exists_unvisited {M q : ℕ} {Is : List ℕ} (hl : Is.length = q) (hq : q < M) : ∃ i < M, i ∉ Is := by
  by_contra h
  push Not at h
  have : (List.range M).length ≤ Is.length := (List.nodup_range).subperm (fun i hi => h i (List.mem_range.1 hi)) |>.length_le
  rw [List.length_range] at this
  omega

theorem partLoop_spec (μ : Modulus K F) {M N : ℕ} (hM : 0 < M) (hN : 0 < N) {B : ℕ → ℕ → K} {row col : ℕ → Buf K}
    (hrow : ∀ I < M, ∀ k < N, row I k = B I k) (hcol : ∀ J < N, ∀ k < M, col J k = B k J)
    {cross : Buf K → Buf K → Buf K → Buf K → K} (hcross : ∀ u v c r, μ.re (cross u v c r) = μ.re (dotc N v r * dotc M u c))
    {reqrank : ℤ} (hreq : reqrank ≠ 0) (eps : F) (fuel : ℕ) (s : PartState K F) (Is Js : List ℕ) (h : PInv μ M N B reqrank s Is Js)
    (hf : M * N + 1 < s.q + fuel) :
    ∃ rk s' Is' Js', partLoop μ M N row col cross reqrank eps fuel s = some (rk, s') ∧ s'.uu.length = s'.q ∧ s'.vv.length = s'.q ∧
      Interpolates M N s'.q B (crossSum s'.uu s'.vv) Is' Js' ∧ s'.q * (M + N) ≤ M * N ∧
      (0 < reqrank → (s'.q : ℤ) ≤ min reqrank (min (M : ℤ) N)) ∧ PEnd μ M N B reqrank eps s' Is' rk := by
  induction fuel generalizing s Is Js with
  | zero =>
    have : s.q * 1 ≤ s.q * (M + N) := Nat.mul_le_mul_left _ (by omega)
    have := h.cost
    omega
  | succ fuel ih =>
    unfold partLoop
    by_cases hc : acaCont reqrank s.q M N (decide (eps ^ 2 * s.frob < s.aux)) = true
    · rw [if_pos hc]
      by_cases hcost : M * N < (s.q + 1) * (M + N)
      · rw [if_pos hcost]
        refine ⟨_, _, Is, Js, rfl, h.lu, h.lv, h.int, h.cost, h.req, .cost hcost (fun hpos => ?_) (fun hneg h0 => ?_)⟩
        · have hnn : ¬ reqrank < 0 := by omega
          unfold acaCont at hc
          simpa only [hpos, hnn, decide_true, decide_false, Bool.true_and, Bool.false_and, Bool.or_false, decide_eq_true_eq] using hc
        · have hnp : ¬ 0 < reqrank := by omega
          unfold acaCont at hc
          simp only [hneg, hnp, h0, decide_true, decide_false, Bool.true_and, Bool.false_and, Bool.false_or, Bool.or_false, decide_eq_true_eq] at hc
          rwa [← h.aux hneg h0, ← h.frob hneg]
      · rw [if_neg hcost]
        have hq1 : (s.q + 1) * (M + N) ≤ M * N := not_lt.1 hcost
        have hqM : s.q + 1 < M := by
          by_contra hge
          have h1 : M * (M + N) ≤ (s.q + 1) * (M + N) := Nat.mul_le_mul_right _ (by omega)
          have h2 : M * (M + N) = M * M + M * N := by ring
          have h3 : 0 < M * M := Nat.mul_pos hM hM
          omega
        have hqN : s.q + 1 < N := by
          by_contra hge
          have h1 : N * (M + N) ≤ (s.q + 1) * (M + N) := Nat.mul_le_mul_right _ (by omega)
          have h2 : N * (M + N) = N * N + M * N := by ring
          have h3 : 0 < N * N := Nat.mul_pos hN hN
          omega
        dsimp only
        have hr : ∀ k < N, residRow N s.I s.uu s.vv (row s.I) k = B s.I k - crossSum s.uu s.vv s.I k := by
          intro k hk
          rw [residRow_get N s.I s.uu s.vv _ hk, hrow _ h.hI k hk]
        generalize hrdef : residRow N s.I s.uu s.vv (row s.I) = r at *
        have hpick := (pick_spec N s.vc (fun k => μ.abs (r k)) s.J (fun k => μ.abs_nonneg _)).2 (by
          obtain ⟨j, hj, hjn⟩ := exists_unvisited h.int.nJs (show s.q < N by omega)
          exact ⟨j, hj, by simpa using (not_congr (h.vc j)).2 hjn⟩)
        generalize hJdef : pick N s.vc (fun k => μ.abs (r k)) s.J = J at *
        obtain ⟨hJN, hJv, hJmax⟩ := hpick
        -- the pivot is the largest entry of the residual row
        have hmax : ∀ k < N, μ.abs (B s.I k - crossSum s.uu s.vv s.I k) ≤ μ.abs (r J) := by
          intro k hk
          by_cases hkv : s.vc k = true
          · rw [h.int.cols k ((h.vc k).1 hkv) s.I h.hI, sub_self, (μ.abs_eq_zero 0).2 rfl]
            exact μ.abs_nonneg _
          · rw [← hr k hk]; exact hJmax k hk (by simpa using hkv)
        by_cases hp : acaTol F < μ.abs (r J)
        · rw [if_pos hp]
          have hrJ : r J ≠ 0 := fun e => by
            rw [e, (μ.abs_eq_zero 0).2 rfl] at hp
            exact absurd hp (not_lt.2 acaTol_pos.le)
          have hE : B s.I J - crossSum s.uu s.vv s.I J ≠ 0 := by rw [← hr J hJN]; exact hrJ
          have hcdef : ∀ k < M, (if k < M then residCol M J s.uu s.vv (col J) k * (1 / r J) else residCol M J s.uu s.vv (col J) k) =
              (B k J - crossSum s.uu s.vv k J) / r J := by
            intro k hk
            rw [if_pos hk, residCol_get M J s.uu s.vv _ hk, hcol J hJN k hk, mul_one_div]
          generalize hcg : (fun k => if k < M then residCol M J s.uu s.vv (col J) k * (1 / r J) else residCol M J s.uu s.vv (col J) k) = c at *
          have hfun : ∀ k, (if k < M then residCol M J s.uu s.vv (col J) k * (1 / r J) else residCol M J s.uu s.vv (col J) k) = c k :=
            fun k => congrFun hcg k
          simp only [hfun]
          have hc' : ∀ k < M, c k = (B k J - crossSum s.uu s.vv k J) / r J := fun k hk => by rw [← hcg]; exact hcdef k hk
          have hInotin : s.I ∉ Is := h.new
          have hJnotin : J ∉ Js := fun hm => by rw [(h.vc J).2 hm] at hJv; exact absurd hJv (by decide)
          have hlen : s.uu.length = s.vv.length := h.lu.trans h.lv.symm
          have hnew : ∀ i j, crossSum (s.uu ++ [c]) (s.vv ++ [r]) i j = crossSum s.uu s.vv i j + c i * r j := crossSum_append hlen c r
          have hvr : ∀ i, Function.update s.vr s.I true i = true ↔ i ∈ Is ++ [s.I] := by
            intro i
            rw [Function.update_apply]
            by_cases e : i = s.I
            · simp [e]
            · rw [if_neg e, h.vr i]; simp [e]
          have hvc : ∀ j, Function.update s.vc J true j = true ↔ j ∈ Js ++ [J] := by
            intro j
            rw [Function.update_apply]
            by_cases e : j = J
            · simp [e]
            · rw [if_neg e, h.vc j]; simp [e]
          have hpI := (pick_spec M (Function.update s.vr s.I true) (fun k => μ.abs (c k)) s.I (fun k => μ.abs_nonneg _)).2 (by
            obtain ⟨i, hi, hin⟩ := exists_unvisited (Is := Is ++ [s.I]) (q := s.q + 1) (by simp [h.int.nIs]) hqM
            exact ⟨i, hi, by simpa using (not_congr (hvr i)).2 hin⟩)
          generalize hIdef : pick M (Function.update s.vr s.I true) (fun k => μ.abs (c k)) s.I = I' at *
          have hfrob : reqrank < 0 → normSq μ M N (crossSum (s.uu ++ [c]) (s.vv ++ [r])) = s.frob + (μ.abs (dotc M c c) * μ.abs (dotc N r r) +
              2 * μ.re (((s.uu.zip s.vv).map (fun p => cross p.1 p.2 c r)).sum)) := by
            intro hneg
            have e1 : crossSum (s.uu ++ [c]) (s.vv ++ [r]) = fun i j => crossSum s.uu s.vv i j + c i * r j := by
              funext i j; exact hnew i j
            rw [e1, normSq_add, normSq_outer, ← h.frob hneg, cross_inner, add_assoc]
            have e2 : ∀ l : List (Buf K × Buf K), μ.re ((l.map (fun p => dotc N p.2 r * dotc M p.1 c)).sum) =
                μ.re ((l.map (fun p => cross p.1 p.2 c r)).sum) := by
              intro l
              induction l with
              | nil => rfl
              | cons p ps ihl => rw [List.map_cons, List.sum_cons, List.map_cons, List.sum_cons, map_add, map_add, ihl, hcross]
            rw [e2]
          refine ih _ (Is ++ [s.I]) (Js ++ [J]) ?_ (by show _ < s.q + 1 + fuel; omega)
          refine ⟨by simp [h.lu], by simp [h.lv], ?_, hvr, hvc, hpI.1, hJN, ?_, by simp, hq1, ?_, ?_, ?_⟩
          · refine ⟨by simp [h.int.nIs], by simp [h.int.nJs], ?_, ?_, ?_, ?_, ?_, ?_⟩
            · rw [List.nodup_append]
              refine ⟨h.int.dIs, by simp, fun a ha b hb => ?_⟩
              rw [List.mem_singleton] at hb
              rintro rfl; exact hInotin (hb ▸ ha)
            · rw [List.nodup_append]
              refine ⟨h.int.dJs, by simp, fun a ha b hb => ?_⟩
              rw [List.mem_singleton] at hb
              rintro rfl; exact hJnotin (hb ▸ ha)
            · intro i hi
              rcases List.mem_append.1 hi with hi | hi
              · exact h.int.bIs i hi
              · rw [List.mem_singleton.1 hi]; exact h.hI
            · intro j hj
              rcases List.mem_append.1 hj with hj | hj
              · exact h.int.bJs j hj
              · rw [List.mem_singleton.1 hj]; exact hJN
            · intro i hi j hj
              show crossSum (s.uu ++ [c]) (s.vv ++ [r]) i j = _
              rw [hnew]
              rcases List.mem_append.1 hi with hi | hi
              · rw [hc' i (h.int.bIs i hi), h.int.rows i hi J hJN, h.int.rows i hi j hj]; simp
              · rw [List.mem_singleton.1 hi, hc' _ h.hI, ← hr J hJN, div_self hrJ, one_mul, hr j hj]; ring
            · intro j hj i hi
              show crossSum (s.uu ++ [c]) (s.vv ++ [r]) i j = _
              rw [hnew]
              rcases List.mem_append.1 hj with hj | hj
              · rw [hr j (h.int.bJs j hj), h.int.cols j hj s.I h.hI, h.int.cols j hj i hi]; simp
              · rw [List.mem_singleton.1 hj, hc' i hi, div_mul_cancel₀ _ hrJ]; ring
          · intro hm
            have := (hvr I').2 hm
            rw [hpI.2.1] at this
            exact absurd this (by decide)
          · intro hpos
            unfold acaCont at hc
            have hneg : ¬ reqrank < 0 := by omega
            simp only [hpos, hneg, decide_true, decide_false, Bool.true_and, Bool.false_and, Bool.or_false, decide_eq_true_eq] at hc
            show ((s.q + 1 : ℕ) : ℤ) ≤ _
            push_cast
            omega
          · intro hneg
            show (if reqrank < 0 then _ else _) = _
            rw [if_pos hneg, if_pos hneg, hfrob hneg]
          · intro hneg _
            show (if reqrank < 0 then _ else _) = _
            rw [if_pos hneg, ← normSq_outer]
            simp
        · rw [if_neg hp]
          have hzero : ∀ j < N, μ.abs (B s.I j - crossSum s.uu s.vv s.I j) ≤ acaTol F := fun j hj => (hmax j hj).trans (not_lt.1 hp)
          refine ⟨_, _, Is, Js, rfl, h.lu, h.lv, h.int, h.cost, h.req, ?_⟩
          by_cases h0 : s.q = 0
          · rw [if_pos h0]
            refine .zeroFirst h0 fun j hj => ?_
            have := hzero j hj
            rw [h.first h0] at this
            have hu : s.uu = [] := List.length_eq_zero_iff.1 (h.lu.trans h0)
            rw [hu] at this
            simpa [crossSum] using this
          · rw [if_neg h0]
            exact .zeroRow h0 ⟨s.I, h.hI, h.new, hzero⟩
    · rw [if_neg hc]
      refine ⟨_, _, Is, Js, rfl, h.lu, h.lv, h.int, h.cost, h.req, ?_⟩
      unfold acaCont at hc
      rcases lt_or_gt_of_ne hreq with hneg | hpos
      · have hnp : ¬ 0 < reqrank := by omega
        simp only [hneg, hnp, decide_true, decide_false, Bool.true_and, Bool.false_and, Bool.false_or, Bool.or_eq_true, decide_eq_true_eq, not_or] at hc
        refine .eps hneg hc.2 ?_
        rw [← h.aux hneg hc.2, ← h.frob hneg]
        exact not_lt.1 hc.1
      · have hnn : ¬ reqrank < 0 := by omega
        simp only [hpos, hnn, decide_true, decide_false, Bool.true_and, Bool.false_and, Bool.or_false, decide_eq_true_eq] at hc
        have := h.req hpos
        refine .rank hpos ?_ (by omega)
        intro h0
        rw [h0] at hc
        push_cast at hc
        omega

/-! ## Storage of the crosses -/

theorem foldl_copyTo {M : ℕ} (f : ℕ → Buf K) (k : ℕ) (d : Buf K) {i l : ℕ} (hi : i < M) (hl : l < k) :
    (List.range k).foldl (fun d l => copyTo M (f l) 0 d (l * M)) d (i + l * M) = f l i := by
  induction k with
  | zero => omega
  | succ k ih =>
    rw [List.range_succ, List.foldl_append]
    simp only [List.foldl_cons, List.foldl_nil]
    by_cases e : l = k
    · subst e
      rw [copyTo_in (by omega)]
      congr 1; omega
    · have : (l + 1) * M ≤ k * M := Nat.mul_le_mul_right _ (by omega)
      rw [Nat.add_mul] at this
      rw [copyTo_out (by omega), ih (by omega)]

theorem storeCols_spec (M N k : ℕ) (hk : k ≠ 0) (uu vv : List (Buf K)) (hu : uu.length = k) (hv : vv.length = k) (U V : Mat K) :
    let R := storeCols M N (k : ℤ) uu vv U V
    R.1.nr = M ∧ R.1.nc = k ∧ R.2.nr = k ∧ R.2.nc = N ∧ (∀ i < M, ∀ l < k, R.1.get i l = (uu.getD l 0) i) ∧
    (∀ l < k, ∀ j < N, R.2.get l j = (vv.getD l 0) j) ∧
    ∀ i < M, ∀ j < N, LR.entry ⟨R.1, R.2⟩ i j = crossSum uu vv i j := by
  have hpos : (0 : ℤ) < (k : ℤ) := by omega
  have hR : storeCols M N (k : ℤ) uu vv U V = (⟨M, k, (List.range k).foldl (fun d l => copyTo M (uu.getD l 0) 0 d (l * M)) (U.resize M k 0).data⟩,
     (List.range k).foldl (fun W l => (List.range N).foldl (fun W j => W.set l j (vv.getD l 0 j)) W) (V.resize k N 0)) := by
    unfold storeCols
    rw [if_pos hpos]; rfl
  have hV := Mat.foldl_set k N (V.resize k N 0) (fun l j => (l, j)) (fun l j => vv.getD l 0 j)
  dsimp only at hV
  rw [hR]
  dsimp only
  rw [hV]
  have g1 : ∀ i < M, ∀ l < k, Mat.get ⟨M, k, (List.range k).foldl (fun d l => copyTo M (uu.getD l 0) 0 d (l * M)) (U.resize M k 0).data⟩ i l =
      (uu.getD l 0) i := fun i hi l hl => foldl_copyTo (fun l => uu.getD l 0) k _ hi hl
  have g2 : ∀ l < k, ∀ j < N, Mat.get (⟨(V.resize k N 0).nr, (V.resize k N 0).nc, loop2 k N (fun i j => i + j * (V.resize k N 0).nr)
      (fun l j => vv.getD l 0 j) (V.resize k N 0).data⟩ : Mat K) l j = (vv.getD l 0) j := by
    intro l hl j hj
    exact (loop2_get k N (fun i j => i + j * k) (fun l j => vv.getD l 0 j) (V.resize k N 0).data
      (fun i hi j _ i' hi' j' _ h => rm_inj hi hi' h)).1 l hl j hj
  refine ⟨rfl, rfl, rfl, rfl, g1, g2, fun i hi j hj => ?_⟩
  rw [crossSum_range hu hv]
  show ∑ l ∈ range k, _ = _
  refine sum_congr rfl fun l hl => ?_
  exact congrArg₂ (fun a b : K => a * b) (g1 i hi l (mem_range.1 hl)) (g2 l (mem_range.1 hl) j hj)

theorem storeCols_neg (M N : ℕ) (uu vv : List (Buf K)) (U V : Mat K) {rk : ℤ} (h : rk ≤ 0) : storeCols M N rk uu vv U V = (U, V) := if_neg (by omega)

theorem getLastD_getD (l : List (Buf K)) {k : ℕ} (h : l.length = k) (hk : k ≠ 0) : l.getLastD 0 = l.getD (k - 1) 0 := by
  subst h
  have hne : l ≠ [] := fun e => hk (by rw [e]; rfl)
  have hlt : l.length - 1 < l.length := by omega
  rw [List.getLastD_eq_getLast?, List.getLast?_eq_some_getLast hne, List.getD_eq_getElem _ _ hlt, Option.getD_some, List.getLast_eq_getElem]

/-- Why the approximation `L` was accepted: some unselected row (or column) is already reproduced up to `1e-15`; or the requested rank was
reached; or the last cross is small with respect to the whole approximation. -/
def AcaStop (μ : Modulus K F) (M N : ℕ) (B : ℕ → ℕ → K) (reqrank : ℤ) (eps : F) (L : LR K) (Is Js : List ℕ) : Prop :=
  (∃ i < M, i ∉ Is ∧ ∀ j < N, μ.abs (B i j - L.entry i j) ≤ acaTol F) ∨
  (∃ j < N, j ∉ Js ∧ ∀ i < M, μ.abs (B i j - L.entry i j) ≤ acaTol F) ∨
  (0 < reqrank ∧ (L.rank : ℤ) = min reqrank (min (M : ℤ) N)) ∨
  (reqrank < 0 ∧ normSq μ M N (fun i j => L.U.get i (L.rank - 1) * L.V.get (L.rank - 1) j) ≤ eps ^ 2 * normSq μ M N L.entry)

/-- Why a partial-pivot compression failed: no rank is worth it; or the first row (or column) is below `1e-15`; or an approximation of the
largest rank worth it was neither of the requested rank, nor such that its last cross is small with respect to the whole approximation. -/
def AcaFail (μ : Modulus K F) (M N : ℕ) (B : ℕ → ℕ → K) (reqrank : ℤ) (eps : F) : Prop :=
  M * N < M + N ∨ (∀ j < N, μ.abs (B 0 j) ≤ acaTol F) ∨ (∀ i < M, μ.abs (B i 0) ≤ acaTol F) ∨
  ∃ (L : LR K) (Is Js : List ℕ), 0 < L.rank ∧ L.rank * (M + N) ≤ M * N ∧ M * N < (L.rank + 1) * (M + N) ∧
    Interpolates M N L.rank B L.entry Is Js ∧ (0 < reqrank → (L.rank : ℤ) < min reqrank (min (M : ℤ) N)) ∧
    (reqrank < 0 → eps ^ 2 * normSq μ M N L.entry < normSq μ M N (fun i j => L.U.get i (L.rank - 1) * L.V.get (L.rank - 1) j))

/-- Result of a partial-pivot compression of the `M × N` block `B`: either a failure, for one of the reasons of `AcaFail`, which leaves `U` and `V` as they were, or factors which
interpolate the block. -/
structure PartSpec (μ : Modulus K F) (M N : ℕ) (B : ℕ → ℕ → K) (reqrank : ℤ) (eps : F) (U V : Mat K) (rk : ℤ) (U' V' : Mat K) : Prop where
  cases : (rk = -1 ∧ U' = U ∧ V' = V ∧ AcaFail μ M N B reqrank eps) ∨ ∃ (k : ℕ) (Is Js : List ℕ), 0 < k ∧ rk = k ∧
    U'.nr = M ∧ U'.nc = k ∧ V'.nr = k ∧ V'.nc = N ∧ k * (M + N) ≤ M * N ∧ (0 < reqrank → rk ≤ reqrank) ∧
    Interpolates M N k B (LR.entry ⟨U', V'⟩) Is Js ∧ AcaStop μ M N B reqrank eps ⟨U', V'⟩ Is Js

theorem normSq_congr (μ : Modulus K F) {M N : ℕ} {f g : ℕ → ℕ → K} (h : ∀ i < M, ∀ j < N, f i j = g i j) : normSq μ M N f = normSq μ M N g := by
  unfold normSq
  exact sum_congr rfl fun i hi => sum_congr rfl fun j hj => by rw [h i (mem_range.1 hi) j (mem_range.1 hj)]

theorem normSq_swap (μ : Modulus K F) (M N : ℕ) (f : ℕ → ℕ → K) : normSq μ M N f = normSq μ N M (fun i j => f j i) := by
  unfold normSq; rw [sum_comm]

theorem Interpolates.congr' {M N k : ℕ} {B E E' : ℕ → ℕ → K} {Is Js : List ℕ} (h : Interpolates M N k B E Is Js)
    (he : ∀ i < M, ∀ j < N, E' i j = E i j) : Interpolates M N k B E' Is Js :=
  ⟨h.nIs, h.nJs, h.dIs, h.dJs, h.bIs, h.bJs, fun i hi j hj => (he i (h.bIs i hi) j hj).trans (h.rows i hi j hj),
    fun j hj i hi => (he i hi j (h.bJs j hj)).trans (h.cols j hj i hi)⟩

theorem Interpolates.swap {M N k : ℕ} {B E : ℕ → ℕ → K} {Is Js : List ℕ} (h : Interpolates M N k B E Is Js) :
    Interpolates N M k (fun i j => B j i) (fun i j => E j i) Js Is :=
  ⟨h.nJs, h.nIs, h.dJs, h.dIs, h.bJs, h.bIs, h.cols, h.rows⟩

theorem PInv.init (μ : Modulus K F) {M N : ℕ} (hM : 0 < M) (hN : 0 < N) (B : ℕ → ℕ → K) (reqrank : ℤ) :
    PInv μ M N B reqrank PartState.init [] [] where
  lu := rfl
  lv := rfl
  int := ⟨rfl, rfl, List.nodup_nil, List.nodup_nil, by simp, by simp, by simp, by simp⟩
  vr := by simp [PartState.init]
  vc := by simp [PartState.init]
  hI := hM
  hJ := hN
  new := by simp
  first := fun _ => rfl
  cost := by simp [PartState.init]
  req := by intro h; simp only [PartState.init]; push_cast; omega
  frob := by intro _; simp [PartState.init, normSq, crossSum, (μ.abs_eq_zero 0).2 rfl]
  aux := by intro _ h; exact absurd rfl h

theorem partSpec_of_end {μ : Modulus K F} {M N : ℕ} {B : ℕ → ℕ → K} {reqrank : ℤ} {eps : F} {s' : PartState K F} {Is Js : List ℕ} {rk : ℤ}
    (hu : s'.uu.length = s'.q) (hv : s'.vv.length = s'.q) (hint : Interpolates M N s'.q B (crossSum s'.uu s'.vv) Is Js)
    (hcost : s'.q * (M + N) ≤ M * N) (hreq : 0 < reqrank → (s'.q : ℤ) ≤ min reqrank (min (M : ℤ) N))
    (hend : PEnd μ M N B reqrank eps s' Is rk) (U V : Mat K) :
    PartSpec μ M N B reqrank eps U V rk (storeCols M N rk s'.uu s'.vv U V).1 (storeCols M N rk s'.uu s'.vv U V).2 := by
  have succ : s'.q ≠ 0 → rk = s'.q → (rk ≠ -1 → (∃ i < M, i ∉ Is ∧ ∀ j < N, μ.abs (B i j - crossSum s'.uu s'.vv i j) ≤ acaTol F) ∨
      (0 < reqrank ∧ (s'.q : ℤ) = min reqrank (min (M : ℤ) N)) ∨
      (reqrank < 0 ∧ normSq μ M N (fun i j => (s'.uu.getLastD 0) i * (s'.vv.getLastD 0) j) ≤ eps ^ 2 * normSq μ M N (crossSum s'.uu s'.vv))) →
      PartSpec μ M N B reqrank eps U V rk (storeCols M N rk s'.uu s'.vv U V).1 (storeCols M N rk s'.uu s'.vv U V).2 := by
    intro h0 hrk hst
    subst hrk
    obtain ⟨a1, a2, a3, a4, a5, a6, a7⟩ := storeCols_spec M N s'.q h0 s'.uu s'.vv hu hv U V
    refine ⟨Or.inr ⟨s'.q, Is, Js, by omega, rfl, a1, a2, a3, a4, hcost, fun h => (hreq h).trans (min_le_left _ _), hint.congr' a7, ?_⟩⟩
    have hrank : LR.rank ⟨(storeCols M N (s'.q : ℤ) s'.uu s'.vv U V).1, (storeCols M N (s'.q : ℤ) s'.uu s'.vv U V).2⟩ = s'.q := a2
    rcases hst (by omega) with ⟨i, hi, hin, h⟩ | h | ⟨hneg, h⟩
    · exact Or.inl ⟨i, hi, hin, fun j hj => by rw [a7 i hi j hj]; exact h j hj⟩
    · exact Or.inr (Or.inr (Or.inl ⟨h.1, by rw [hrank]; exact h.2⟩))
    · refine Or.inr (Or.inr (Or.inr ⟨hneg, ?_⟩))
      rw [hrank, normSq_congr μ a7]
      refine le_of_eq_of_le (normSq_congr μ fun i hi j hj => ?_) h
      rw [getLastD_getD _ hu h0, getLastD_getD _ hv h0]
      exact congrArg₂ (fun a b : K => a * b) (a5 i hi _ (by omega)) (a6 _ (by omega) j hj)
  cases hend with
  | cost hc hp hn =>
    refine ⟨Or.inl ⟨rfl, by rw [storeCols_neg _ _ _ _ _ _ (by omega)], by rw [storeCols_neg _ _ _ _ _ _ (by omega)], ?_⟩⟩
    by_cases h0 : s'.q = 0
    · rw [h0] at hc
      exact Or.inl (by omega)
    · obtain ⟨a1, a2, a3, a4, a5, a6, a7⟩ := storeCols_spec M N s'.q h0 s'.uu s'.vv hu hv U V
      have hrank : LR.rank ⟨(storeCols M N (s'.q : ℤ) s'.uu s'.vv U V).1, (storeCols M N (s'.q : ℤ) s'.uu s'.vv U V).2⟩ = s'.q := a2
      refine Or.inr (Or.inr (Or.inr ⟨⟨(storeCols M N (s'.q : ℤ) s'.uu s'.vv U V).1, (storeCols M N (s'.q : ℤ) s'.uu s'.vv U V).2⟩, Is, Js, ?_⟩))
      rw [hrank]
      refine ⟨by omega, hcost, hc, hint.congr' a7, hp, fun hneg => ?_⟩
      rw [normSq_congr μ a7]
      refine lt_of_lt_of_eq (hn hneg h0) (normSq_congr μ fun i hi j hj => ?_)
      rw [getLastD_getD _ hu h0, getLastD_getD _ hv h0]
      exact congrArg₂ (fun a b : K => a * b) (a5 i hi _ (by omega)).symm (a6 _ (by omega) j hj).symm
  | zeroFirst _ h => exact ⟨Or.inl ⟨rfl, by rw [storeCols_neg _ _ _ _ _ _ (by omega)], by rw [storeCols_neg _ _ _ _ _ _ (by omega)], Or.inr (Or.inl h)⟩⟩
  | zeroRow h0 h => exact succ h0 rfl fun _ => Or.inl h
  | rank hp h0 h => exact succ h0 rfl fun _ => Or.inr (Or.inl ⟨hp, h⟩)
  | eps hn h0 h => exact succ h0 rfl fun _ => Or.inr (Or.inr ⟨hn, h⟩)

theorem copySub_row (gen : ℕ → ℕ → K) (N ro co : ℕ) (out : Buf K) {k : ℕ} (hk : k < N) : copySub gen 1 N ro co out k = gen ro (co + k) := by
  unfold copySub
  rw [if_pos (by omega), Nat.mod_one, Nat.div_one, Nat.add_zero]

theorem copySub_col (gen : ℕ → ℕ → K) (M ro co : ℕ) (out : Buf K) {k : ℕ} (hk : k < M) : copySub gen M 1 ro co out k = gen (ro + k) co := by
  unfold copySub
  rw [if_pos (by omega), Nat.mod_eq_of_lt hk, Nat.div_eq_of_lt hk, Nat.add_zero]

/-- **C30** `partialACA` always terminates. It either fails, leaving `U` and `V` as they were, or returns factors `M × k` and `k × N` with
`k > 0`, at most as many coefficients as the dense block, `k` at most the requested rank, such that `UV` agrees exactly with the block on `k`
different rows and `k` different columns; and it stopped for one of the reasons of `AcaStop`, where the norms compared are those of the last
cross and of `UV`. -/
theorem C30_partialACA (μ : Modulus K F) (gen : ℕ → ℕ → K) (t s : ℕ × ℕ) (ht : 0 < t.2) (hs : 0 < s.2) (eps : F) (reqrank : ℤ)
    (hreq : reqrank ≠ 0) (U V : Mat K) :
    ∃ rk U' V', partialACA μ gen t s eps reqrank U V = some (rk, U', V') ∧
      PartSpec μ t.2 s.2 (genBlock gen t s) reqrank eps U V rk U' V' := by
  obtain ⟨rk, s', Is, Js, h1, h2, h3, h4, h5, h6, h7⟩ := partLoop_spec μ ht hs (B := genBlock gen t s)
    (row := fun I => copySub gen 1 s.2 (I + t.1) s.1 (fun _ => 0)) (col := fun J => copySub gen t.2 1 t.1 (J + s.1) (fun _ => 0))
    (fun I _ k hk => by rw [copySub_row _ _ _ _ _ hk, genBlock, Nat.add_comm I])
    (fun J _ k hk => by rw [copySub_col _ _ _ _ _ hk, genBlock, Nat.add_comm J])
    (cross := fun u v c r => dotc s.2 v r * dotc t.2 u c) (fun _ _ _ _ => rfl) hreq eps (t.2 * s.2 + 2) PartState.init [] []
    (PInv.init μ ht hs _ _) (by simp [PartState.init])
  exact ⟨rk, _, _, by unfold partialACA; rw [h1]; rfl, partSpec_of_end h2 h3 h4 h5 h6 h7 U V⟩

theorem re_dotc_swap (μ : Modulus K F) (M N : ℕ) (u v c r : Buf K) :
    μ.re (dotc N r v * dotc M c u) = μ.re (dotc N v r * dotc M u c) := by
  have h : ∀ n (x y : Buf K), dotc n x y = star (dotc n y x) := by
    intro n x y
    unfold dotc
    rw [star_sum]
    exact sum_congr rfl fun i _ => by rw [star_mul', star_star, mul_comm]
  rw [h N r v, h M c u, ← star_mul', μ.re_star]

theorem PEnd.last {μ : Modulus K F} {M N : ℕ} {B : ℕ → ℕ → K} {reqrank : ℤ} {eps : F} {s : PartState K F} {Is : List ℕ} {rk : ℤ}
    (h : PEnd μ M N B reqrank eps s Is rk) : (rk = -1 ∧ ((s.q = 0 ∧ ∀ j < N, μ.abs (B 0 j) ≤ acaTol F) ∨
      (M * N < (s.q + 1) * (M + N) ∧ (0 < reqrank → (s.q : ℤ) < min reqrank (min (M : ℤ) N)) ∧ (reqrank < 0 → s.q ≠ 0 →
      eps ^ 2 * normSq μ M N (crossSum s.uu s.vv) < normSq μ M N (fun i j => (s.uu.getLastD 0) i * (s.vv.getLastD 0) j))))) ∨ (rk = s.q ∧ s.q ≠ 0 ∧ (
      (∃ i < M, i ∉ Is ∧ ∀ j < N, μ.abs (B i j - crossSum s.uu s.vv i j) ≤ acaTol F) ∨
      (0 < reqrank ∧ (s.q : ℤ) = min reqrank (min (M : ℤ) N)) ∨
      (reqrank < 0 ∧ normSq μ M N (fun i j => (s.uu.getLastD 0) i * (s.vv.getLastD 0) j) ≤ eps ^ 2 * normSq μ M N (crossSum s.uu s.vv)))) := by
  cases h with
  | cost a b c => exact Or.inl ⟨rfl, Or.inr ⟨a, b, c⟩⟩
  | zeroFirst a b => exact Or.inl ⟨rfl, Or.inl ⟨a, b⟩⟩
  | zeroRow h0 h => exact Or.inr ⟨rfl, h0, Or.inl h⟩
  | rank hp h0 h => exact Or.inr ⟨rfl, h0, Or.inr (Or.inl ⟨hp, h⟩)⟩
  | eps hn h0 h => exact Or.inr ⟨rfl, h0, Or.inr (Or.inr ⟨hn, h⟩)⟩

theorem crossSum_swap (uu vv : List (Buf K)) (i j : ℕ) : crossSum vv uu i j = crossSum uu vv j i := by
  unfold crossSum
  induction uu generalizing vv with
  | nil => cases vv <;> rfl
  | cons u us ih =>
    cases vv with
    | nil => rfl
    | cons v vs =>
      simp only [List.zip_cons_cons, List.map_cons, List.sum_cons]
      rw [ih vs, mul_comm]

/-- **C30** The same for `sympartialACA`, whatever the order of the offsets of the two clusters. -/
theorem C30_sympartialACA (μ : Modulus K F) (gen : ℕ → ℕ → K) (t s : ℕ × ℕ) (ht : 0 < t.2) (hs : 0 < s.2) (eps : F) (reqrank : ℤ)
    (hreq : reqrank ≠ 0) (U V : Mat K) :
    ∃ rk U' V', sympartialACA μ gen t s eps reqrank U V = some (rk, U', V') ∧
      PartSpec μ t.2 s.2 (genBlock gen t s) reqrank eps U V rk U' V' := by
  by_cases hle : s.1 ≤ t.1
  · obtain ⟨rk, s', Is, Js, h1, h2, h3, h4, h5, h6, h7⟩ := partLoop_spec μ ht hs (B := genBlock gen t s)
      (row := fun I => copySub gen 1 s.2 (t.1 + I) s.1 (fun _ => 0)) (col := fun J => copySub gen t.2 1 t.1 (s.1 + J) (fun _ => 0))
      (fun I _ k hk => by rw [copySub_row _ _ _ _ _ hk, genBlock])
      (fun J _ k hk => by rw [copySub_col _ _ _ _ _ hk, genBlock])
      (cross := fun u v c r => dotc s.2 r v * dotc t.2 c u) (fun u v c r => re_dotc_swap μ _ _ u v c r) hreq eps (t.2 * s.2 + 2) PartState.init [] []
      (PInv.init μ ht hs _ _) (by simp [PartState.init])
    exact ⟨rk, _, _, by unfold sympartialACA; rw [if_pos hle, h1]; rfl, partSpec_of_end h2 h3 h4 h5 h6 h7 U V⟩
  · obtain ⟨rk, s', Is, Js, h1, h2, h3, h4, h5, h6, h7⟩ := partLoop_spec μ hs ht (B := fun i j => genBlock gen t s j i)
      (row := fun I => copySub gen t.2 1 t.1 (s.1 + I) (fun _ => 0)) (col := fun J => copySub gen 1 s.2 (t.1 + J) s.1 (fun _ => 0))
      (fun I _ k hk => by rw [copySub_col _ _ _ _ _ hk, genBlock])
      (fun J _ k hk => by rw [copySub_row _ _ _ _ _ hk, genBlock])
      (cross := fun u v c r => dotc t.2 r v * dotc s.2 c u) (fun u v c r => re_dotc_swap μ _ _ u v c r) hreq eps (s.2 * t.2 + 2) PartState.init [] []
      (PInv.init μ hs ht _ _) (by simp [PartState.init])
    refine ⟨rk, (storeCols t.2 s.2 rk s'.vv s'.uu U V).1, (storeCols t.2 s.2 rk s'.vv s'.uu U V).2,
      by unfold sympartialACA; rw [if_neg hle, h1]; rfl, ?_⟩
    rcases h7.last with ⟨h, hw⟩ | ⟨hrk, h0, hst⟩
    · subst h
      refine ⟨Or.inl ⟨rfl, by rw [storeCols_neg _ _ _ _ _ _ (by omega)], by rw [storeCols_neg _ _ _ _ _ _ (by omega)], ?_⟩⟩
      rcases hw with ⟨-, h⟩ | ⟨hc, hp, hn⟩
      · exact Or.inr (Or.inr (Or.inl h))
      by_cases h0 : s'.q = 0
      · rw [h0, Nat.mul_comm, Nat.add_comm s.2] at hc
        exact Or.inl (by omega)
      · obtain ⟨a1, a2, a3, a4, a5, a6, a7⟩ := storeCols_spec t.2 s.2 s'.q h0 s'.vv s'.uu h3 h2 U V
        have a7' : ∀ i < t.2, ∀ j < s.2, LR.entry ⟨(storeCols t.2 s.2 (s'.q : ℤ) s'.vv s'.uu U V).1, (storeCols t.2 s.2 (s'.q : ℤ) s'.vv s'.uu U V).2⟩ i j =
            crossSum s'.uu s'.vv j i := fun i hi j hj => (a7 i hi j hj).trans (crossSum_swap _ _ _ _)
        have hrank : LR.rank ⟨(storeCols t.2 s.2 (s'.q : ℤ) s'.vv s'.uu U V).1, (storeCols t.2 s.2 (s'.q : ℤ) s'.vv s'.uu U V).2⟩ = s'.q := a2
        refine Or.inr (Or.inr (Or.inr ⟨⟨(storeCols t.2 s.2 (s'.q : ℤ) s'.vv s'.uu U V).1, (storeCols t.2 s.2 (s'.q : ℤ) s'.vv s'.uu U V).2⟩, Js, Is, ?_⟩))
        rw [hrank]
        refine ⟨by omega, by rw [Nat.add_comm, Nat.mul_comm t.2]; exact h5, by rw [Nat.add_comm t.2, Nat.mul_comm t.2]; exact hc, h4.swap.congr' a7',
          fun h => by rw [min_comm (t.2 : ℤ)]; exact hp h, fun hneg => ?_⟩
        rw [normSq_congr μ a7', normSq_swap μ t.2 s.2, normSq_swap μ t.2 s.2]
        refine lt_of_lt_of_eq (hn hneg h0) (normSq_congr μ fun i hi j hj => ?_)
        rw [getLastD_getD _ h2 h0, getLastD_getD _ h3 h0, mul_comm]
        exact congrArg₂ (fun a b : K => a * b) (a5 j hj _ (by omega)).symm (a6 _ (by omega) i hi).symm
    · subst hrk
      obtain ⟨a1, a2, a3, a4, a5, a6, a7⟩ := storeCols_spec t.2 s.2 s'.q h0 s'.vv s'.uu h3 h2 U V
      have a7' : ∀ i < t.2, ∀ j < s.2, LR.entry ⟨(storeCols t.2 s.2 (s'.q : ℤ) s'.vv s'.uu U V).1, (storeCols t.2 s.2 (s'.q : ℤ) s'.vv s'.uu U V).2⟩ i j =
          crossSum s'.uu s'.vv j i := fun i hi j hj => (a7 i hi j hj).trans (crossSum_swap _ _ _ _)
      have hrank : LR.rank ⟨(storeCols t.2 s.2 (s'.q : ℤ) s'.vv s'.uu U V).1, (storeCols t.2 s.2 (s'.q : ℤ) s'.vv s'.uu U V).2⟩ = s'.q := a2
      refine ⟨Or.inr ⟨s'.q, Js, Is, by omega, rfl, a1, a2, a3, a4, by rw [Nat.add_comm, Nat.mul_comm t.2]; exact h5,
        fun h => (h6 h).trans (min_le_left _ _), h4.swap.congr' a7', ?_⟩⟩
      rcases hst with ⟨i, hi, hin, h⟩ | h | ⟨hneg, h⟩
      · exact Or.inr (Or.inl ⟨i, hi, hin, fun j hj => by rw [a7' j hj i hi]; exact h j hj⟩)
      · exact Or.inr (Or.inr (Or.inl ⟨h.1, by rw [hrank, h.2, min_comm (s.2 : ℤ)]⟩))
      · refine Or.inr (Or.inr (Or.inr ⟨hneg, ?_⟩))
        rw [hrank, normSq_congr μ a7', normSq_swap μ t.2 s.2, normSq_swap μ t.2 s.2]
        refine le_of_eq_of_le (normSq_congr μ fun i hi j hj => ?_) h
        rw [getLastD_getD _ h2 h0, getLastD_getD _ h3 h0, mul_comm]
        exact congrArg₂ (fun a b : K => a * b) (a6 _ (by omega) i hi) (a5 j hj _ (by omega))

/-! ## Full pivoting -/

theorem subOuter_spec (A : Mat K) (u v : Buf K) : (subOuter A u v).nr = A.nr ∧ (subOuter A u v).nc = A.nc ∧
    ∀ i < A.nr, ∀ j < A.nc, (subOuter A u v).get i j = A.get i j - u i * v j := by
  have inner : ∀ i < A.nr, ∀ (n : ℕ) (B : Mat K), B.nr = A.nr → B.nc = A.nc →
      let B' := (List.range n).foldl (fun B j => B.set i j (B.get i j - u i * v j)) B
      B'.nr = A.nr ∧ B'.nc = A.nc ∧ ∀ i' < A.nr, ∀ j, B'.get i' j = if i' = i ∧ j < n then B.get i' j - u i' * v j else B.get i' j := by
    intro i hi n B hr hc
    induction n with
    | zero => exact ⟨hr, hc, by simp⟩
    | succ n ih =>
      simp only [List.range_succ, List.foldl_append, List.foldl_cons, List.foldl_nil] at ih ⊢
      generalize (List.range n).foldl (fun B j => B.set i j (B.get i j - u i * v j)) B = B1 at ih ⊢
      obtain ⟨h1, h2, h3⟩ := ih
      refine ⟨h1, h2, fun i' hi' j => ?_⟩
      show Function.update B1.data (i + n * B1.nr) (B1.get i n - u i * v n) (i' + j * B1.nr) = _
      by_cases e : i' = i ∧ j = n
      · obtain ⟨rfl, rfl⟩ := e
        rw [Function.update_self, h3 i' hi, if_neg (by omega), if_pos ⟨rfl, by omega⟩]
      · rw [Function.update_of_ne (fun he => e (by
          have := rm_inj (mu := B1.nr) (by omega) (by omega) he
          exact this))]
        show B1.get i' j = _
        rw [h3 i' hi']
        by_cases hc : i' = i ∧ j < n
        · rw [if_pos hc, if_pos ⟨hc.1, by omega⟩]
        · rw [if_neg hc, if_neg (fun hh => hc ⟨hh.1, by
            have : j ≠ n := fun ej => e ⟨hh.1, ej⟩
            omega⟩)]
  have outer : ∀ m ≤ A.nr, let B' := (List.range m).foldl (fun B i => (List.range A.nc).foldl (fun B j => B.set i j (B.get i j - u i * v j)) B) A
      B'.nr = A.nr ∧ B'.nc = A.nc ∧ ∀ i < A.nr, ∀ j < A.nc, B'.get i j = if i < m then A.get i j - u i * v j else A.get i j := by
    intro m hm
    induction m with
    | zero => exact ⟨rfl, rfl, by simp⟩
    | succ m ih =>
      have ih := ih (by omega)
      simp only [List.range_succ, List.foldl_append, List.foldl_cons, List.foldl_nil] at ih ⊢
      generalize (List.range m).foldl (fun B i => (List.range A.nc).foldl (fun B j => B.set i j (B.get i j - u i * v j)) B) A = B1 at ih ⊢
      obtain ⟨h1, h2, h3⟩ := ih
      obtain ⟨g1, g2, g3⟩ := inner m (by omega) A.nc B1 h1 h2
      refine ⟨g1, g2, fun i hi j hj => ?_⟩
      rw [g3 i hi j, h3 i hi j hj]
      by_cases e : i = m
      · subst e; rw [if_pos ⟨rfl, hj⟩, if_neg (by omega), if_pos (by omega)]
      · rw [if_neg (fun hh => e hh.1)]
        by_cases hc : i < m
        · rw [if_pos hc, if_pos (by omega)]
        · rw [if_neg hc, if_neg (by omega)]
  obtain ⟨h1, h2, h3⟩ := outer A.nr (le_refl _)
  exact ⟨h1, h2, fun i hi j hj => (h3 i hi j hj).trans (if_pos hi)⟩

theorem getCol_buf (A : Mat K) (J : ℕ) {i : ℕ} (hi : i < A.nr) : bufOf (A.getCol J) i = A.get i J := by
  unfold bufOf Mat.getCol
  rw [Mat.stridedSlice_eq, List.getD_eq_getElem _ _ (by simpa using hi)]
  simp [Mat.get, Nat.add_comm]

theorem getRow_buf (A : Mat K) (I : ℕ) (p : K) {j : ℕ} (hj : j < A.nc) : bufOf ((A.getRow I).map (· / p)) j = A.get I j / p := by
  unfold bufOf Mat.getRow
  rw [Mat.stridedSlice_eq, List.getD_eq_getElem _ _ (by simpa using hj)]
  simp [Mat.get]

/-- Why the loop of `fullACA` ended. -/
inductive FEnd (μ : Modulus K F) (M N : ℕ) (B : ℕ → ℕ → K) (reqrank : ℤ) (eps : F) (s : FullState K) : ℤ → Prop
  | cost : M * N < (s.q + 1) * (M + N) → (0 < reqrank → (s.q : ℤ) < min reqrank (min (M : ℤ) N)) → (reqrank < 0 → s.q ≠ 0 →
      eps ^ 2 * normSq μ M N B < normSq μ M N (fun i j => B i j - crossSum s.uu s.vv i j)) → FEnd μ M N B reqrank eps s (-1)
  | zero : (∀ i < M, ∀ j < N, μ.abs (B i j - crossSum s.uu s.vv i j) < acaTol F) → FEnd μ M N B reqrank eps s s.q
  | rank : 0 < reqrank → s.q ≠ 0 → (s.q : ℤ) = min reqrank (min (M : ℤ) N) → FEnd μ M N B reqrank eps s s.q
  | eps : reqrank < 0 → s.q ≠ 0 → normSq μ M N (fun i j => B i j - crossSum s.uu s.vv i j) ≤ eps ^ 2 * normSq μ M N B → FEnd μ M N B reqrank eps s s.q

theorem fullLoop_spec (μ : Modulus K F) {M N : ℕ} (hM : 0 < M) (hN : 0 < N) {B : ℕ → ℕ → K} {reqrank : ℤ} (hreq : reqrank ≠ 0) (eps : F)
    (fuel : ℕ) (s : FullState K) (Is Js : List ℕ) (hnr : s.mat.nr = M) (hnc : s.mat.nc = N)
    (hmat : ∀ i < M, ∀ j < N, s.mat.get i j = B i j - crossSum s.uu s.vv i j) (hlu : s.uu.length = s.q) (hlv : s.vv.length = s.q)
    (hint : Interpolates M N s.q B (crossSum s.uu s.vv) Is Js) (hcost : s.q * (M + N) ≤ M * N)
    (hrq : 0 < reqrank → (s.q : ℤ) ≤ min reqrank (min (M : ℤ) N)) (hf : M * N + 1 < s.q + fuel) :
    ∃ rk s' Is' Js', fullLoop μ M N reqrank eps (normSq μ M N B) fuel s = some (rk, s') ∧ s'.uu.length = s'.q ∧ s'.vv.length = s'.q ∧
      Interpolates M N s'.q B (crossSum s'.uu s'.vv) Is' Js' ∧ s'.q * (M + N) ≤ M * N ∧
      (0 < reqrank → (s'.q : ℤ) ≤ min reqrank (min (M : ℤ) N)) ∧ FEnd μ M N B reqrank eps s' rk := by
  induction fuel generalizing s Is Js with
  | zero =>
    have : s.q * 1 ≤ s.q * (M + N) := Nat.mul_le_mul_left _ (by omega)
    omega
  | succ fuel ih =>
    unfold fullLoop
    have hfrob : s.mat.frobSq μ.abs = normSq μ M N (fun i j => B i j - crossSum s.uu s.vv i j) := by
      rw [Mat.frobSq_eq, hnr, hnc]
      exact normSq_congr μ hmat
    by_cases hc : acaCont reqrank s.q M N (decide (eps ^ 2 * normSq μ M N B < s.mat.frobSq μ.abs)) = true
    · rw [if_pos hc]
      by_cases hcst : M * N < (s.q + 1) * (M + N)
      · rw [if_pos hcst]
        refine ⟨_, _, Is, Js, rfl, hlu, hlv, hint, hcost, hrq, .cost hcst (fun hpos => ?_) (fun hneg h0 => ?_)⟩
        · have hnn : ¬ reqrank < 0 := by omega
          unfold acaCont at hc
          simpa only [hpos, hnn, decide_true, decide_false, Bool.true_and, Bool.false_and, Bool.or_false, decide_eq_true_eq] using hc
        · have hnp : ¬ 0 < reqrank := by omega
          unfold acaCont at hc
          simp only [hneg, hnp, h0, decide_true, decide_false, Bool.true_and, Bool.false_and, Bool.false_or, Bool.or_false, decide_eq_true_eq] at hc
          rwa [← hfrob]
      · rw [if_neg hcst]
        have hpos : 0 < N * M := Nat.mul_pos hN hM
        obtain ⟨hp1, hp2, -⟩ := Mat.maxElement_spec μ.abs s.mat.data (n := s.mat.nc * s.mat.nr) (by rw [hnr, hnc]; exact hpos)
        have hI : (s.mat.argmax μ.abs).1 < M := by
          show _ % s.mat.nr < M
          rw [hnr]; exact Nat.mod_lt _ hM
        have hJ : (s.mat.argmax μ.abs).2 < N := by
          show _ / s.mat.nr < N
          rw [hnr, hnc] at hp1
          rw [hnr, hnc]
          exact Nat.div_lt_of_lt_mul (by rw [Nat.mul_comm M N]; exact hp1)
        have hIJ : s.mat.get (s.mat.argmax μ.abs).1 (s.mat.argmax μ.abs).2 = s.mat.data (Mat.maxElement μ.abs s.mat.data (s.mat.nc * s.mat.nr)) := by
          show s.mat.data (_ % s.mat.nr + _ / s.mat.nr * s.mat.nr) = _
          congr 1
          exact Nat.mod_add_div' _ _
        have hmax : ∀ i < M, ∀ j < N, μ.abs (B i j - crossSum s.uu s.vv i j) ≤ μ.abs (s.mat.get (s.mat.argmax μ.abs).1 (s.mat.argmax μ.abs).2) := by
          intro i hi j hj
          rw [hIJ, ← hmat i hi j hj]
          exact hp2 (i + j * s.mat.nr) (by rw [Nat.mul_comm s.mat.nc]; exact mat_idx_lt (by omega) (by omega))
        dsimp only
        generalize (s.mat.argmax μ.abs).1 = I at *
        generalize (s.mat.argmax μ.abs).2 = J at *
        by_cases hsm : μ.abs (s.mat.get I J) < acaTol F
        · rw [if_pos hsm]
          exact ⟨_, _, Is, Js, rfl, hlu, hlv, hint, hcost, hrq, .zero fun i hi j hj => (hmax i hi j hj).trans_lt hsm⟩
        · rw [if_neg hsm]
          have hpv : s.mat.get I J ≠ 0 := fun e => hsm (by rw [e, (μ.abs_eq_zero 0).2 rfl]; exact acaTol_pos)
          have hu : ∀ i < M, bufOf (s.mat.getCol J) i = B i J - crossSum s.uu s.vv i J := fun i hi => by
            rw [getCol_buf _ _ (by omega), hmat i hi J hJ]
          have hv : ∀ j < N, bufOf ((s.mat.getRow I).map (· / s.mat.get I J)) j = (B I j - crossSum s.uu s.vv I j) / s.mat.get I J := fun j hj => by
            rw [getRow_buf _ _ _ (by omega), hmat I hI j hj]
          generalize bufOf (s.mat.getCol J) = u at *
          generalize bufOf ((s.mat.getRow I).map (· / s.mat.get I J)) = v at *
          have hpe : s.mat.get I J = B I J - crossSum s.uu s.vv I J := hmat I hI J hJ
          have hnew : ∀ i j, crossSum (s.uu ++ [u]) (s.vv ++ [v]) i j = crossSum s.uu s.vv i j + u i * v j := crossSum_append (hlu.trans hlv.symm) u v
          obtain ⟨m1, m2, m3⟩ := subOuter_spec s.mat u v
          have hIn : I ∉ Is := fun hm => hpv (by rw [hpe, hint.rows I hm J hJ, sub_self])
          have hJn : J ∉ Js := fun hm => hpv (by rw [hpe, hint.cols J hm I hI, sub_self])
          refine ih ⟨s.q + 1, subOuter s.mat u v, s.uu ++ [u], s.vv ++ [v]⟩ (Is ++ [I]) (Js ++ [J]) (m1.trans hnr) (m2.trans hnc) ?_ (by simp [hlu]) (by simp [hlv]) ?_ (not_lt.1 hcst) ?_
            (by show _ < s.q + 1 + fuel; omega)
          · intro i hi j hj
            show (subOuter s.mat u v).get i j = B i j - crossSum (s.uu ++ [u]) (s.vv ++ [v]) i j
            rw [m3 i (by omega) j (by omega), hnew, hmat i hi j hj]; ring
          · refine ⟨by simp [hint.nIs], by simp [hint.nJs], ?_, ?_, ?_, ?_, ?_, ?_⟩
            · rw [List.nodup_append]
              refine ⟨hint.dIs, by simp, fun a ha b hb => ?_⟩
              rw [List.mem_singleton] at hb
              rintro rfl; exact hIn (hb ▸ ha)
            · rw [List.nodup_append]
              refine ⟨hint.dJs, by simp, fun a ha b hb => ?_⟩
              rw [List.mem_singleton] at hb
              rintro rfl; exact hJn (hb ▸ ha)
            · intro i hi
              rcases List.mem_append.1 hi with hi | hi
              · exact hint.bIs i hi
              · rw [List.mem_singleton.1 hi]; exact hI
            · intro j hj
              rcases List.mem_append.1 hj with hj | hj
              · exact hint.bJs j hj
              · rw [List.mem_singleton.1 hj]; exact hJ
            · intro i hi j hj
              show crossSum (s.uu ++ [u]) (s.vv ++ [v]) i j = _
              rw [hnew]
              rcases List.mem_append.1 hi with hi | hi
              · rw [hu i (hint.bIs i hi), hint.rows i hi J hJ, hint.rows i hi j hj]; simp
              · rw [List.mem_singleton.1 hi, hu _ hI, hv j hj, ← hpe, mul_div_cancel₀ _ hpv]; ring
            · intro j hj i hi
              show crossSum (s.uu ++ [u]) (s.vv ++ [v]) i j = _
              rw [hnew]
              rcases List.mem_append.1 hj with hj | hj
              · rw [hv j (hint.bJs j hj), hint.cols j hj I hI, hint.cols j hj i hi]; simp
              · rw [List.mem_singleton.1 hj, hu i hi, hv J hJ, ← hpe, div_self hpv]; ring
          · intro hpos
            unfold acaCont at hc
            have hneg : ¬ reqrank < 0 := by omega
            simp only [hpos, hneg, decide_true, decide_false, Bool.true_and, Bool.false_and, Bool.or_false, decide_eq_true_eq] at hc
            show ((s.q + 1 : ℕ) : ℤ) ≤ _
            push_cast
            omega
    · rw [if_neg hc]
      refine ⟨_, _, Is, Js, rfl, hlu, hlv, hint, hcost, hrq, ?_⟩
      unfold acaCont at hc
      rcases lt_or_gt_of_ne hreq with hneg | hpos
      · have hnp : ¬ 0 < reqrank := by omega
        simp only [hneg, hnp, decide_true, decide_false, Bool.true_and, Bool.false_and, Bool.false_or, Bool.or_eq_true, decide_eq_true_eq, not_or] at hc
        refine .eps hneg hc.2 ?_
        rw [← hfrob]
        exact not_lt.1 hc.1
      · have hnn : ¬ reqrank < 0 := by omega
        simp only [hpos, hnn, decide_true, decide_false, Bool.true_and, Bool.false_and, Bool.or_false, decide_eq_true_eq] at hc
        have := hrq hpos
        refine .rank hpos ?_ (by omega)
        intro h0
        rw [h0] at hc
        push_cast at hc
        omega

/-- Why a full-pivot compression failed: no rank is worth it; or an approximation of the largest rank worth it was neither of the requested
rank nor accurate enough. -/
def FullFail (μ : Modulus K F) (M N : ℕ) (B : ℕ → ℕ → K) (reqrank : ℤ) (eps : F) : Prop :=
  M * N < M + N ∨
  ∃ (L : LR K) (Is Js : List ℕ), 0 < L.rank ∧ L.rank * (M + N) ≤ M * N ∧ M * N < (L.rank + 1) * (M + N) ∧
    Interpolates M N L.rank B L.entry Is Js ∧ (0 < reqrank → (L.rank : ℤ) < min reqrank (min (M : ℤ) N)) ∧
    (reqrank < 0 → eps ^ 2 * normSq μ M N B < normSq μ M N (fun i j => B i j - L.entry i j))

/-- Result of a full-pivot compression of the `M × N` block `B`: a failure, for one of the reasons of `FullFail`, which leaves `U` and `V` as they were; or rank 0 for a block whose
coefficients are below `1e-15`; or factors which interpolate the block on `k` rows and columns, with a residual below `1e-15` everywhere, or
the requested rank, or a relative error at most `eps` in Frobenius norm. -/
structure FullSpec (μ : Modulus K F) (M N : ℕ) (B : ℕ → ℕ → K) (reqrank : ℤ) (eps : F) (U V : Mat K) (rk : ℤ) (U' V' : Mat K) : Prop where
  cases : (rk = -1 ∧ U' = U ∧ V' = V ∧ FullFail μ M N B reqrank eps) ∨ (rk = 0 ∧ U' = U ∧ V' = V ∧ ∀ i < M, ∀ j < N, μ.abs (B i j) < acaTol F) ∨
    ∃ (k : ℕ) (Is Js : List ℕ), 0 < k ∧ rk = k ∧
    U'.nr = M ∧ U'.nc = k ∧ V'.nr = k ∧ V'.nc = N ∧ k * (M + N) ≤ M * N ∧ (0 < reqrank → rk ≤ reqrank) ∧
    Interpolates M N k B (LR.entry ⟨U', V'⟩) Is Js ∧
    ((∀ i < M, ∀ j < N, μ.abs (B i j - LR.entry ⟨U', V'⟩ i j) < acaTol F) ∨
      (0 < reqrank ∧ (k : ℤ) = min reqrank (min (M : ℤ) N)) ∨
      (reqrank < 0 ∧ normSq μ M N (fun i j => B i j - LR.entry ⟨U', V'⟩ i j) ≤ eps ^ 2 * normSq μ M N B))

/-- **C29** `fullACA` always terminates, and its result is as in `FullSpec`. -/
theorem C29_fullACA (μ : Modulus K F) (gen : ℕ → ℕ → K) (t s : ℕ × ℕ) (ht : 0 < t.2) (hs : 0 < s.2) (eps : F) (reqrank : ℤ)
    (hreq : reqrank ≠ 0) (U V : Mat K) :
    ∃ rk U' V', fullACA μ gen t s eps reqrank U V = some (rk, U', V') ∧
      FullSpec μ t.2 s.2 (genBlock gen t s) reqrank eps U V rk U' V' := by
  have hget : ∀ i < t.2, ∀ j < s.2, Mat.get { Mat.mk' t.2 s.2 0 with data := copySub gen t.2 s.2 t.1 s.1 (Mat.mk' t.2 s.2 0).data } i j =
      genBlock gen t s i j := by
    intro i hi j hj
    show copySub gen t.2 s.2 t.1 s.1 _ (i + j * t.2) = _
    unfold copySub
    rw [if_pos (mat_idx_lt hi hj), Nat.add_mul_mod_self_right, Nat.mod_eq_of_lt hi, Nat.add_mul_div_right _ _ ht, Nat.div_eq_of_lt hi, Nat.zero_add]
    rfl
  have hn : Mat.frobSq μ.abs { Mat.mk' t.2 s.2 0 with data := copySub gen t.2 s.2 t.1 s.1 (Mat.mk' t.2 s.2 0).data } =
      normSq μ t.2 s.2 (genBlock gen t s) := by
    rw [Mat.frobSq_eq]
    exact normSq_congr μ hget
  obtain ⟨rk, s', Is, Js, h1, h2, h3, h4, h5, h6, h7⟩ := fullLoop_spec μ ht hs (B := genBlock gen t s) hreq eps (t.2 * s.2 + 2)
    ⟨0, { Mat.mk' t.2 s.2 0 with data := copySub gen t.2 s.2 t.1 s.1 (Mat.mk' t.2 s.2 0).data }, [], []⟩ [] [] rfl rfl
    (fun i hi j hj => by rw [hget i hi j hj]; simp [crossSum]) rfl rfl
    ⟨rfl, rfl, List.nodup_nil, List.nodup_nil, by simp, by simp, by simp, by simp⟩ (by simp) (by intro h; push_cast; omega) (by simp)
  refine ⟨rk, (storeCols t.2 s.2 rk s'.uu s'.vv U V).1, (storeCols t.2 s.2 rk s'.uu s'.vv U V).2, by
    unfold fullACA; dsimp only; rw [hn, h1]; rfl, ?_⟩
  by_cases hm1 : rk = -1
  · subst hm1
    refine ⟨Or.inl ⟨rfl, by rw [storeCols_neg _ _ _ _ _ _ (by omega)], by rw [storeCols_neg _ _ _ _ _ _ (by omega)], ?_⟩⟩
    have hend : t.2 * s.2 < (s'.q + 1) * (t.2 + s.2) ∧ (0 < reqrank → (s'.q : ℤ) < min reqrank (min (t.2 : ℤ) s.2)) ∧ (reqrank < 0 → s'.q ≠ 0 →
        eps ^ 2 * normSq μ t.2 s.2 (genBlock gen t s) < normSq μ t.2 s.2 (fun i j => genBlock gen t s i j - crossSum s'.uu s'.vv i j)) := by
      generalize hq : (-1 : ℤ) = r at h7
      cases h7 with
      | cost a b c => exact ⟨a, b, c⟩
      | zero _ => omega
      | rank _ _ _ => omega
      | eps _ _ _ => omega
    obtain ⟨hc, hp, hn⟩ := hend
    by_cases h0 : s'.q = 0
    · rw [h0] at hc
      exact Or.inl (by omega)
    · obtain ⟨a1, a2, a3, a4, a5, a6, a7⟩ := storeCols_spec t.2 s.2 s'.q h0 s'.uu s'.vv h2 h3 U V
      have hrank : LR.rank ⟨(storeCols t.2 s.2 (s'.q : ℤ) s'.uu s'.vv U V).1, (storeCols t.2 s.2 (s'.q : ℤ) s'.uu s'.vv U V).2⟩ = s'.q := a2
      refine Or.inr ⟨⟨(storeCols t.2 s.2 (s'.q : ℤ) s'.uu s'.vv U V).1, (storeCols t.2 s.2 (s'.q : ℤ) s'.uu s'.vv U V).2⟩, Is, Js, ?_⟩
      rw [hrank]
      refine ⟨by omega, h5, hc, h4.congr' a7, hp, fun hneg => ?_⟩
      refine lt_of_lt_of_eq (hn hneg h0) (normSq_congr μ fun i hi j hj => ?_)
      rw [a7 i hi j hj]
  · have hend : rk = s'.q ∧ ((∀ i < t.2, ∀ j < s.2, μ.abs (genBlock gen t s i j - crossSum s'.uu s'.vv i j) < acaTol F) ∨
        (s'.q ≠ 0 ∧ 0 < reqrank ∧ (s'.q : ℤ) = min reqrank (min (t.2 : ℤ) s.2)) ∨
        (s'.q ≠ 0 ∧ reqrank < 0 ∧ normSq μ t.2 s.2 (fun i j => genBlock gen t s i j - crossSum s'.uu s'.vv i j) ≤
          eps ^ 2 * normSq μ t.2 s.2 (genBlock gen t s))) := by
      cases h7 with
      | cost _ _ _ => exact absurd rfl hm1
      | zero h => exact ⟨rfl, Or.inl h⟩
      | rank a b c => exact ⟨rfl, Or.inr (Or.inl ⟨b, a, c⟩)⟩
      | eps a b c => exact ⟨rfl, Or.inr (Or.inr ⟨b, a, c⟩)⟩
    obtain ⟨hrk, hend⟩ := hend
    subst hrk
    by_cases h0 : s'.q = 0
    · refine ⟨Or.inr (Or.inl ⟨by rw [h0]; rfl, by rw [storeCols_neg _ _ _ _ _ _ (by omega)], by rw [storeCols_neg _ _ _ _ _ _ (by omega)], ?_⟩)⟩
      rcases hend with h | h | h
      · intro i hi j hj
        have := h i hi j hj
        rw [List.length_eq_zero_iff.1 (h2.trans h0)] at this
        simpa [crossSum] using this
      · exact absurd h0 h.1
      · exact absurd h0 h.1
    · obtain ⟨a1, a2, a3, a4, a5, a6, a7⟩ := storeCols_spec t.2 s.2 s'.q h0 s'.uu s'.vv h2 h3 U V
      refine ⟨Or.inr (Or.inr ⟨s'.q, Is, Js, by omega, rfl, a1, a2, a3, a4, h5, fun h => (h6 h).trans (min_le_left _ _), h4.congr' a7, ?_⟩)⟩
      rcases hend with h | h | h
      · exact Or.inl fun i hi j hj => by rw [a7 i hi j hj]; exact h i hi j hj
      · exact Or.inr (Or.inl h.2)
      · refine Or.inr (Or.inr ⟨h.2.1, ?_⟩)
        refine le_of_eq_of_le (normSq_congr μ fun i hi j hj => ?_) h.2.2
        rw [a7 i hi j hj]

/-! ## Types of coefficients, stopping test and concrete cases -/

/-- Rational coefficients, for the examples. -/
def ratModulus : Modulus ℚ ℚ where
  abs := fun x => |x|
  re := AddMonoidHom.id ℚ
  abs_nonneg := fun x => abs_nonneg x
  abs_eq_zero := fun x => abs_eq_zero
  abs_mul := fun x y => abs_mul x y
  re_star := fun x => rfl
  re_self := fun x => by show x * x = |x| ^ 2; rw [sq_abs, sq]
  abs_self := fun n c => by
    show |∑ i ∈ range n, c i * c i| = _
    rw [abs_of_nonneg (sum_nonneg fun i _ => mul_self_nonneg _)]
    exact sum_congr rfl fun i _ => by rw [sq_abs, sq]

/-- Real and complex coefficients (`double`, `std::complex<double>`) with exact arithmetic. -/
noncomputable def rcModulus (𝕜 : Type*) [RCLike 𝕜] : Modulus 𝕜 ℝ where
  abs := fun x => ‖x‖
  re := RCLike.re
  abs_nonneg := norm_nonneg
  abs_eq_zero := fun _ => norm_eq_zero
  abs_mul := norm_mul
  re_star := fun x => RCLike.conj_re x
  re_self := fun x => by
    show RCLike.re (starRingEnd 𝕜 x * x) = _
    rw [RCLike.conj_mul]
    rw [← RCLike.ofReal_pow, RCLike.ofReal_re]
  abs_self := fun n c => by
    have h : ∑ i ∈ range n, star (c i) * c i = ((∑ i ∈ range n, ‖c i‖ ^ 2 : ℝ) : 𝕜) := by
      push_cast
      exact sum_congr rfl fun i _ => RCLike.conj_mul (c i)
    rw [h, RCLike.norm_ofReal, abs_of_nonneg (sum_nonneg fun i _ => by positivity)]

/-- The stopping tests of the code, `sqrt(a) / sqrt(b) > epsilon` (fullACA.hpp 62) and `sqrt(a / b) > epsilon` (partialACA.hpp 85), written with
squares as in `fullLoop` and `partLoop`. -/
theorem sqrt_test {a b ε : ℝ} (ha : 0 ≤ a) (hb : 0 < b) (he : 0 ≤ ε) :
    (√a / √b > ε ↔ ε ^ 2 * b < a) ∧ (√(a / b) > ε ↔ ε ^ 2 * b < a) := by
  have h : √(a / b) > ε ↔ ε ^ 2 * b < a := by
    rw [gt_iff_lt, Real.lt_sqrt he, lt_div_iff₀ hb]
  exact ⟨by rw [← Real.sqrt_div ha]; exact h, h⟩

/-- In the error test of `fullACA`, `b` is the square of the norm of the block and `a` that of the residual; when `b = 0` the block is zero, so is
the residual, the quotient of the code is NaN and the comparison false, as with squares. -/
theorem sqrt_test_zero {ε : ℝ} : ¬ ε ^ 2 * 0 < (0 : ℝ) := by simp

/-- A block of rank 1: one cross is enough for the three compressors, and the result is exact. -/
def exRank1 : ℕ → ℕ → ℚ := fun i j => ((i : ℚ) + 1) * ((j : ℚ) + 2)

example : (fullACA ratModulus exRank1 (2, 4) (5, 4) (1 / 100) (-1) (Mat.mk' 0 0 0) (Mat.mk' 0 0 0)).map (fun r =>
    (r.1, r.2.1.nr, r.2.1.nc, r.2.2.nr, r.2.2.nc, (List.range 4).all fun i => (List.range 4).all fun j =>
      decide ((r.2.1.get i 0) * (r.2.2.get 0 j) = genBlock exRank1 (2, 4) (5, 4) i j))) = some (1, 4, 1, 1, 4, true) := by
  decide +kernel

example : (partialACA ratModulus exRank1 (2, 4) (5, 4) (1 / 100) (-1) (Mat.mk' 0 0 0) (Mat.mk' 0 0 0)).map (fun r =>
    (r.1, r.2.1.nr, r.2.1.nc, r.2.2.nr, r.2.2.nc, (List.range 4).all fun i => (List.range 4).all fun j =>
      decide ((r.2.1.get i 0) * (r.2.2.get 0 j) = genBlock exRank1 (2, 4) (5, 4) i j))) = some (1, 4, 1, 1, 4, true) := by
  decide +kernel

example : (sympartialACA ratModulus exRank1 (2, 4) (5, 4) (1 / 100) (-1) (Mat.mk' 0 0 0) (Mat.mk' 0 0 0)).map (fun r =>
    (r.1, r.2.1.nr, r.2.1.nc, r.2.2.nr, r.2.2.nc, (List.range 4).all fun i => (List.range 4).all fun j =>
      decide ((r.2.1.get i 0) * (r.2.2.get 0 j) = genBlock exRank1 (2, 4) (5, 4) i j))) = some (1, 4, 1, 1, 4, true) := by
  decide +kernel

/-- A block of full rank, for which no compression is worth it: the compressors fail. -/
example : (fullACA ratModulus (fun i j => if i = j then 1 else 0) (0, 3) (0, 3) (1 / 100) (-1) (Mat.mk' 0 0 0) (Mat.mk' 0 0 0)).map (fun r => r.1) = some (-1) ∧
    (partialACA ratModulus (fun i j => if i = j then 1 else 0) (0, 3) (0, 3) (1 / 100) (-1) (Mat.mk' 0 0 0) (Mat.mk' 0 0 0)).map (fun r => r.1) = some (-1) := by
  decide +kernel

/-- A `6 × 6` block with two nonzero coefficients. -/
def exTwo : ℕ → ℕ → ℚ := fun i j => if i = j ∧ (i = 0 ∨ i = 2) then 1 else 0

theorem partLoop_congr (μ : Modulus K F) (M N : ℕ) (row col : ℕ → Buf K) (cross : Buf K → Buf K → Buf K → Buf K → K) (reqrank : ℤ) (eps : F)
    (fuel : ℕ) (s : PartState K F) (b : Bool) (f a : F) (h : decide (eps ^ 2 * f < a) = b) (hf : s.frob = f) (ha : s.aux = a) :
    partLoop μ M N row col cross reqrank eps (fuel + 1) s =
    if acaCont reqrank s.q M N b then
      if M * N < (s.q + 1) * (M + N) then some (-1, s)
      else
        let r := residRow N s.I s.uu s.vv (row s.I)
        let J := pick N s.vc (fun k => μ.abs (r k)) s.J
        let vr := Function.update s.vr s.I true
        if acaTol F < μ.abs (r J) then
          let c := (fun c : Buf K => fun k => if k < M then c k * (1 / r J) else c k) (residCol M J s.uu s.vv (col J))
          let I := pick M vr (fun k => μ.abs (c k)) s.I
          let aux := if reqrank < 0 then μ.abs (dotc M c c) * μ.abs (dotc N r r) else s.aux
          let frob := if reqrank < 0 then s.frob + (aux + 2 * μ.re (((s.uu.zip s.vv).map (fun p => cross p.1 p.2 c r)).sum)) else s.frob
          partLoop μ M N row col cross reqrank eps fuel
            ⟨s.q + 1, I, J, s.uu ++ [c], s.vv ++ [r], vr, Function.update s.vc J true, frob, aux⟩
        else some (if s.q = 0 then -1 else s.q, { s with J := J, vr := vr })
    else some (s.q, s) := by
  subst hf ha h; rfl

/-- **C30** (limit of the guarantee) the tolerance is not a bound on the error of `partialACA`: on this block it accepts a rank-1 approximation because
the second row it looks at is zero, with a squared error equal to half of the squared norm of the block, whatever the tolerance; `fullACA` does not. -/
theorem C30_accuracy_not_guaranteed (eps : ℚ) :
    ∃ U V, partialACA ratModulus exTwo (0, 6) (0, 6) eps (-1) (Mat.mk' 0 0 0) (Mat.mk' 0 0 0) = some (1, U, V) ∧
      2 * normSq ratModulus 6 6 (fun i j => exTwo i j - LR.entry ⟨U, V⟩ i j) = normSq ratModulus 6 6 exTwo ∧
      normSq ratModulus 6 6 exTwo ≠ 0 := by
  have key : ∃ uu vv, partLoop ratModulus 6 6 (fun I => copySub exTwo 1 6 (I + 0) 0 (fun _ => 0)) (fun J => copySub exTwo 6 1 0 (J + 0) (fun _ => 0))
      (fun u v c r => dotc 6 v r * dotc 6 u c) (-1) eps (36 + 1 + 1) PartState.init = some ((1 : ℤ), vv) ∧
      storeCols 6 6 1 vv.uu vv.vv (Mat.mk' 0 0 0) (Mat.mk' 0 0 0) = uu ∧
      2 * normSq ratModulus 6 6 (fun i j => exTwo i j - LR.entry ⟨uu.1, uu.2⟩ i j) = normSq ratModulus 6 6 exTwo := by
    rw [partLoop_congr _ _ _ _ _ _ _ _ _ _ false 0 0 (by simp) rfl rfl]
    rw [if_pos (by decide), if_neg (by decide)]
    dsimp only
    rw [if_pos (by decide +kernel)]
    cases hb : decide (eps ^ 2 * 1 < 1) with
    | false =>
      rw [partLoop_congr _ _ _ _ _ _ _ _ _ _ false 1 1 hb (by decide +kernel) (by decide +kernel)]
      · rw [if_neg (by decide +kernel)]
        exact ⟨_, _, Option.some_inj.2 (Prod.ext_iff.2 ⟨by decide +kernel, rfl⟩), rfl, by decide +kernel⟩
    | true =>
      rw [partLoop_congr _ _ _ _ _ _ _ _ _ _ true 1 1 hb (by decide +kernel) (by decide +kernel)]
      · rw [if_pos (by decide +kernel), if_neg (by decide +kernel)]
        dsimp only
        rw [if_neg (by decide +kernel)]
        exact ⟨_, _, Option.some_inj.2 (Prod.ext_iff.2 ⟨by decide +kernel, rfl⟩), rfl, by decide +kernel⟩
  obtain ⟨uv, s', h1, h2, h3⟩ := key
  refine ⟨uv.1, uv.2, ?_, h3, by decide +kernel⟩
  unfold partialACA
  rw [← h2]
  exact (congrArg (Option.map _) h1).trans rfl

end Htool
