import Verif.Overlap

/-! # C48: the local solver with overlap -/

namespace Htool
variable {G R : Type*}
open Finset

section claims
variable [CommRing R] [StarRing R] [DecidableEq R] {E : LinOps R} {ad : ClusterTree G → ClusterTree G → Prop} {u : UploType} {m : Mask} {M : ℕ → ℕ → R}
  {A : FTree G R}

/-- Sums over the indices of a cluster. -/
theorem sum_cluster {c : ClusterTree G} (g : ℕ → R) : ∑ l ∈ Ico c.off c.fin, g l = ∑ l ∈ range c.sz, g (c.off + l) := by
  rw [sum_Ico_eq_sum_range, show c.fin - c.off = c.sz by unfold ClusterTree.fin; omega]

/-- The blocks fit together: `A` has size `n`, the overlap has size `p`. -/
structure OvSizes (n p : ℕ) (S : OvBlocks G R) : Prop where
  a : S.A.label.t.sz = n
  b : S.B.nr = n ∧ S.B.nc = p
  c : S.C.nr = p ∧ S.C.nc = n
  d : S.D.nr = p ∧ S.D.nc = p

/-- **C48**, unsymmetric matrices: `numfact` followed by `solve` solves the block system `[A B; C D] y = b` for every number of right-hand sides, and writes
nothing else. Both versions of `solve` are covered: `x = b` is the version in place. -/
theorem C48_lu (hEx : E.Exact) (hT : TrsmOK E) (hG : GetrfOK E) {S : OvBlocks G R} {n p : ℕ} (hS : OvSizes n p S) (hA : LUOperand ad M S.A) {f : ℕ}
    (hf : 2 * S.A.ht ≤ f)
    (hK : Nonsing (blockK n (fun i j => M (S.A.label.t.off + i) (S.A.label.t.off + j)) S.B.get S.C.get S.D.get) 0 (n + p)) :
    ∃ S', ovNumfact E f .N u S = some S' ∧ ∀ (b x : Buf R) (mu g : ℕ), S.A.ht ≤ g → ∃ y, ovSolve E g .N u S' b x mu = some y ∧
      (∀ k < mu, ∀ i < n + p, ∑ l ∈ range (n + p), blockK n (fun i j => M (S.A.label.t.off + i) (S.A.label.t.off + j)) S.B.get S.C.get S.D.get i l *
        y (k * (n + p) + l) = b (k * (n + p) + i)) ∧ ∀ q, mu * (n + p) ≤ q → y q = x q := by
  obtain ⟨A, B, C, D, piv⟩ := S
  obtain ⟨rfl, ⟨hb1, hb2⟩, ⟨hc1, hc2⟩, rfl, hd2⟩ := hS
  simp only at *
  set n := A.label.t.sz with hn
  set o := A.label.t.off with ho
  obtain ⟨A', L, U, e1, e2, e3, e4, e5, e6, e7⟩ := C37_factorization hEx hT hG hA hf
  have top' : A'.label.t.Top := by rw [e2]; exact hA.top
  have hLU : ∀ i < n, ∀ j < n, ∑ l ∈ range n, L (o + i) (o + l) * U (o + l) (o + j) = M (o + i) (o + j) := by
    intro i hi j hj
    have := e7 (o + i) (mem_Ico.2 ⟨by omega, by unfold ClusterTree.fin; omega⟩) (o + j) (mem_Ico.2 ⟨by omega, by unfold ClusterTree.fin; omega⟩)
    rw [sum_cluster] at this
    exact this
  have sz' : A'.label.t.sz = n := by rw [e2]
  have o' : A'.label.t.off = o := by rw [e2]
  -- hierarchical solves of dense columns
  have solL : ∀ (g : ℕ) (X : Mat R) (mu : ℕ), A.ht ≤ g → X.nr = n → X.nc = mu → ∃ Z, triHM E g .L .L .N true 1 A' X = some Z ∧ Z.nr = n ∧ Z.nc = mu ∧
      ∀ i < n, ∀ k < mu, ∑ l ∈ range n, L (o + i) (o + l) * Z.get l k = X.get i k := by
    intro g X mu hg h1 h2
    obtain ⟨Z, z1, z2, z3, z4⟩ := triHM_spec hT hEx.real .L .N g (by omega : A'.ht ≤ g) e5 top' 1 (B := X) (mu := mu) (by rw [if_pos rfl, h1, h2, sz'])
    refine ⟨Z, z1, z2.trans h1, z3.trans h2, fun i hi k hk => ?_⟩
    have := z4 i (by rw [sz']; exact hi) k hk
    rw [one_mul, sz', o'] at this
    exact this
  have solU : ∀ (g : ℕ) (X : Mat R) (mu : ℕ), A.ht ≤ g → X.nr = n → X.nc = mu → ∃ Z, triHM E g .L .U .N false 1 A' X = some Z ∧ Z.nr = n ∧ Z.nc = mu ∧
      ∀ i < n, ∀ k < mu, ∑ l ∈ range n, U (o + i) (o + l) * Z.get l k = X.get i k := by
    intro g X mu hg h1 h2
    obtain ⟨Z, z1, z2, z3, z4⟩ := triHM_spec hT hEx.real .L .N g (by omega : A'.ht ≤ g) e6 top' 1 (B := X) (mu := mu) (by rw [if_pos rfl, h1, h2, sz'])
    refine ⟨Z, z1, z2.trans h1, z3.trans h2, fun i hi k hk => ?_⟩
    have := z4 i (by rw [sz']; exact hi) k hk
    rw [one_mul, sz', o'] at this
    exact this
  by_cases hp : 0 < C.nr
  · -- overlap
    have hpos : 0 < D.nr := by omega
    obtain ⟨B', b1, b2, b3, b4⟩ := solL f B D.nr (by omega) hb1 hb2
    obtain ⟨C', c1, c2, c3, c4⟩ := triHM_spec hT hEx.real .R .N f (by omega : A'.ht ≤ f) e6 top' 1 (B := C) (mu := D.nr) (by
      rw [if_neg (by simp), sz', hc1, hc2])
    have c4' : ∀ k < D.nr, ∀ j < n, ∑ l ∈ range n, C'.get k l * U (o + l) (o + j) = C.get k j := by
      intro k hk j hj
      have := c4 j (by rw [sz']; exact hj) k hk
      rw [one_mul, sz', o'] at this
      rw [← show sv .R C.get j k = C.get k j from rfl, ← this]
      exact sum_congr rfl fun l _ => mul_comm _ _
    obtain ⟨d1, d2, d3, -⟩ := C35_matrix_matrix_product .N .N (-1 : R) C' B' 1 D ⟨by rw [c2, hc1]; rfl, by rw [b3]; exact hd2, by rw [c3, hc2, b2]; rfl⟩
    set D' := Mat.addMM .N .N (-1 : R) C' B' 1 D with hD'
    have d3' : ∀ k < D.nr, ∀ j < D.nr, D'.get k j = D.get k j - ∑ l ∈ range n, C'.get k l * B'.get l j := by
      intro k hk j hj
      rw [d3 k hk j (by omega)]
      show -1 * (∑ l ∈ range C'.nc, C'.get k l * B'.get l j) + 1 * D.get k j = _
      rw [c3, hc2]
      ring
    -- the Schur complement
    have ns : Nonsing D'.get 0 D.nr := by
      have hns := nonsing_schur (M := blockK n (fun i j => M (o + i) (o + j)) B.get C.get D.get)
        (L := fun i l => if i < n then L (o + i) (o + l) else C'.get (i - n) l) (U := fun l j => if j < n then U (o + l) (o + j) else B'.get l (j - n))
        (S := fun i j => D'.get (i - n) (j - n)) (o := 0) (b := n) (e := n + D.nr) (by omega) (by omega) ?_ hK ?_
      · unfold Nonsing at hns ⊢
        rw [show n + D.nr - n = D.nr - 0 by omega] at hns
        rw [show subM D'.get 0 (D.nr - 0) = subM (fun i j => D'.get (i - n) (j - n)) n (D.nr - 0) from ?_]
        · exact hns
        · ext i j
          show D'.get (0 + i) (0 + j) = D'.get (n + i - n) (n + j - n)
          rw [show 0 + (i : ℕ) = n + i - n by omega, show 0 + (j : ℕ) = n + j - n by omega]
      · have hl := hA.lead A (Tree.mem_pre_self A) hA.square
        unfold Nonsing at hl ⊢
        rw [show A.label.t.fin - A.label.t.off = n - 0 by unfold ClusterTree.fin; omega] at hl
        rw [show subM (blockK n (fun i j => M (o + i) (o + j)) B.get C.get D.get) 0 (n - 0) = subM M A.label.t.off (n - 0) from ?_]
        · exact hl
        · ext i j
          have hi : (i : ℕ) < n := i.2
          have hj : (j : ℕ) < n := j.2
          show blockK n (fun i j => M (o + i) (o + j)) B.get C.get D.get (0 + (i : ℕ)) (0 + (j : ℕ)) = M (o + i) (o + j)
          unfold blockK
          rw [if_pos (by omega), if_pos (by omega), Nat.zero_add, Nat.zero_add]
      · intro i hi j hj
        have hi := (mem_Ico.1 hi).2
        have hj := (mem_Ico.1 hj).2
        beta_reduce
        rw [Nat.Ico_zero_eq_range]
        unfold blockK
        by_cases h1 : i < n <;> by_cases h2 : j < n
        · simp only [if_pos h1, if_pos h2]
          rw [if_neg (by omega), add_zero]
          exact hLU i h1 j h2
        · simp only [if_pos h1, if_neg h2]
          rw [if_neg (by omega), add_zero]
          exact b4 i h1 (j - n) (by omega)
        · simp only [if_neg h1, if_pos h2]
          rw [if_neg (by omega), add_zero]
          exact c4' (i - n) (by omega) j h2
        · simp only [if_neg h1, if_neg h2]
          rw [if_pos (by omega), d3' (i - n) (by omega) (j - n) (by omega)]
          ring
    obtain ⟨f1, f2, f3, f4, f5⟩ := getrf_factors hG hpos (d1.trans rfl) (d2.trans hd2) ns
    refine ⟨⟨A', B', C', (E.getrf D').1, (E.getrf D').2⟩, ?_, fun b x mu g hg => ?_⟩
    · unfold ovNumfact
      rw [if_pos rfl, e1]
      simp only [Option.bind_some, if_pos hp, b1, c1, Option.map_some]
      rfl
    · have hD'' : (E.getrf D').1.nr = D.nr := f1
      obtain ⟨Z, z1, z2, z3, z4⟩ := solL g (ovSplit (n + D.nr) 0 n mu b) mu hg rfl rfl
      obtain ⟨w1, w2, w3, -⟩ := C35_matrix_matrix_product .N .N (-1 : R) C' Z 1 (ovSplit (n + D.nr) n D.nr mu b) ⟨by rw [c2, hc1]; rfl, by rw [z3]; rfl, by rw [c3, hc2, z2]; rfl⟩
      set W := Mat.addMM .N .N (-1 : R) C' Z 1 (ovSplit (n + D.nr) n D.nr mu b) with hW
      have w1 : W.nr = D.nr := w1
      have w2 : W.nc = mu := w2
      obtain ⟨s1, s2, s3⟩ := triDense_spec hT .L (u := .L) (by simp) .N true 1 (A := (E.getrf D').1) (piv := (E.getrf D').2) (B := W) (n := D.nr) (m := mu) f1 f2 f3
        (fun h => by cases h) (by rw [if_pos rfl, w1, w2])
      set V := triDense E .L .L .N true 1 (E.getrf D').1 (E.getrf D').2 W with hV
      obtain ⟨t1, t2, t3⟩ := triDense_spec hT .L (u := .U) (by simp) .N false 1 (A := (E.getrf D').1) (piv := (E.getrf D').2) (B := V) (n := D.nr) (m := mu) f1 f2 f3
        (fun _ => f4) (by rw [if_pos rfl, s1, s2, w1, w2])
      set Y2 := triDense E .L .U .N false 1 (E.getrf D').1 (E.getrf D').2 V with hY2
      have y2r : Y2.nr = D.nr := t1.trans (s1.trans w1)
      have y2c : Y2.nc = mu := t2.trans (s2.trans w2)
      obtain ⟨q1, q2, q3, -⟩ := C35_matrix_matrix_product .N .N (-1 : R) B' Y2 1 Z ⟨by rw [z2, b2]; rfl, by rw [z3, y2c]; rfl, by rw [y2r, b3]; rfl⟩
      set Q := Mat.addMM .N .N (-1 : R) B' Y2 1 Z with hQ
      obtain ⟨Y1, y1, y2, y3, y4⟩ := solU g Q mu hg (q1.trans z2) (q2.trans z3)
      obtain ⟨m1, m2, m3⟩ := ovMerge_spec (mu := mu) (x := x) (y1 := Y1) (y2 := Y2) y2 y2r
      refine ⟨ovMerge (n + D.nr) n D.nr mu Y1 Y2 x, ?_, fun k hk i hi => ?_, m3⟩
      · unfold ovSolve
        simp only [sz', hD'']
        unfold ovSolveBlocks
        simp only [if_true, z1, Option.bind_some, c2, if_pos hp]
        rw [y1]
        rfl
      · rw [sum_blockK]
        have key := block_elim (n := n) (p := D.nr) (M := fun i j => M (o + i) (o + j)) (L := fun i j => L (o + i) (o + j)) (U := fun i j => U (o + i) (o + j))
          (B := B.get) (B' := B'.get) (C := C.get) (C' := C'.get) (D := D.get) (D' := D'.get) (b1 := fun i => b (k * (n + D.nr) + i))
          (z1 := fun i => Z.get i k) (y1 := fun i => Y1.get i k) (b2 := fun i => b (k * (n + D.nr) + (n + i))) (y2 := fun i => Y2.get i k)
          hLU b4 c4' d3' ?_ ?_ ?_
        · by_cases h : i < n
          · rw [if_pos h, ← key.1 i h]
            congr 1
            · exact sum_congr rfl fun l hl => by rw [m1 k hk l (mem_range.1 hl)]
            · exact sum_congr rfl fun l hl => by rw [m2 k hk l (mem_range.1 hl)]
          · rw [if_neg h]
            have := key.2 (i - n) (by omega)
            rw [show n + (i - n) = i by omega] at this
            rw [← this]
            congr 1
            · exact sum_congr rfl fun l hl => by rw [m1 k hk l (mem_range.1 hl)]
            · exact sum_congr rfl fun l hl => by rw [m2 k hk l (mem_range.1 hl)]
        · intro i hi
          rw [z4 i hi k hk, ovSplit_get hi hk, Nat.zero_add]
        · intro i hi
          refine (two_solves (M := D'.get) (z := fun l => V.get l k) (x := fun l => W.get l k) f5 (fun i hi => ?_) (fun i hi => ?_) i hi).trans ?_
          · have := s3 i hi k hk
            rw [one_mul] at this
            exact this
          · have := t3 i hi k hk
            rw [one_mul] at this
            exact this
          · rw [w3 i hi k hk, ovSplit_get hi hk]
            show -1 * (∑ l ∈ range C'.nc, C'.get i l * Z.get l k) + 1 * _ = _
            rw [c3, hc2]
            ring
        · intro i hi
          rw [y4 i hi k hk, q3 i (by omega) k (by omega)]
          show -1 * (∑ l ∈ range B'.nc, B'.get i l * Y2.get l k) + 1 * _ = _
          rw [b3]
          ring
  · -- no overlap
    have p0 : D.nr = 0 := by omega
    refine ⟨⟨A', B, C, D, piv⟩, ?_, fun b x mu g hg => ?_⟩
    · unfold ovNumfact
      rw [if_pos rfl, e1]
      simp only [Option.bind_some, if_neg hp]
    · obtain ⟨Z, z1, z2, z3, z4⟩ := solL g (ovSplit (n + D.nr) 0 n mu b) mu hg rfl rfl
      obtain ⟨Y1, y1, y2, y3, y4⟩ := solU g Z mu hg z2 z3
      obtain ⟨m1, m2, m3⟩ := ovMerge_spec (mu := mu) (x := x) (y1 := Y1) (y2 := ovSplit (n + D.nr) n D.nr mu b) (n := n) (p := D.nr) y2 rfl
      refine ⟨ovMerge (n + D.nr) n D.nr mu Y1 (ovSplit (n + D.nr) n D.nr mu b) x, ?_, fun k hk i hi => ?_, m3⟩
      · unfold ovSolve
        simp only [sz']
        unfold ovSolveBlocks
        simp only [if_true, z1, Option.bind_some, if_neg hp]
        rw [y1]
        rfl
      · have hi' : i < n := by omega
        rw [sum_blockK, if_pos hi', p0]
        simp only [range_zero, sum_empty, add_zero]
        refine Eq.trans (sum_congr rfl fun l hl => ?_) ((two_solves (M := fun i j => M (o + i) (o + j)) (F := fun i j => L (o + i) (o + j))
          (H := fun i j => U (o + i) (o + j)) (z := fun l => Z.get l k) (y := fun l => Y1.get l k) (x := fun i => b (k * (n + D.nr) + i)) hLU (fun i hi => ?_)
          (fun i hi => ?_) i hi').trans (by rw [p0]; rfl))
        · have := m1 k hk l (mem_range.1 hl)
          rw [p0] at this
          exact congrArg _ this
        · rw [z4 i hi k hk, ovSplit_get hi hk, Nat.zero_add]
        · exact y4 i hi k hk

/-- Without overlap blocks `numfact` and `solve` factor and solve with the H-matrix, and return the overlap part of the right-hand side unchanged. -/
theorem ovSolve_lu_ignored (hEx : E.Exact) (hT : TrsmOK E) (hG : GetrfOK E) {S : OvBlocks G R} {n p : ℕ} (hn : S.A.label.t.sz = n) (hC : S.C.nr = 0)
    (hD : S.D.nr = p) (hA : LUOperand ad M S.A) {f : ℕ} (hf : 2 * S.A.ht ≤ f) :
    ∃ S', ovNumfact E f .N u S = some S' ∧ ∀ (b x : Buf R) (mu g : ℕ), S.A.ht ≤ g → ∃ y, ovSolve E g .N u S' b x mu = some y ∧
      (∀ k < mu, ∀ i < n, ∑ l ∈ range n, M (S.A.label.t.off + i) (S.A.label.t.off + l) * y (k * (n + p) + l) = b (k * (n + p) + i)) ∧
      (∀ k < mu, ∀ i < p, y (k * (n + p) + (n + i)) = b (k * (n + p) + (n + i))) ∧ ∀ q, mu * (n + p) ≤ q → y q = x q := by
  obtain ⟨A, B, C, D, piv⟩ := S
  simp only at hn hC hD hA hf ⊢
  subst hn hD
  obtain ⟨A', e1, e2⟩ := C37_solve_cluster_numbering hEx hT hG hA hf rfl
  obtain ⟨A'', -, -, e1', e3, -⟩ := C37_factorization hEx hT hG hA hf
  obtain rfl : A'' = A' := Option.some.inj (e1'.symm.trans e1)
  have hp : ¬ 0 < C.nr := by omega
  refine ⟨⟨A'', B, C, D, piv⟩, ?_, fun b x mu g hg => ?_⟩
  · unfold ovNumfact
    rw [if_pos rfl, e1]
    simp only [Option.bind_some, if_neg hp]
  · obtain ⟨Y1, y1, y2, y3, y4⟩ := e2 .N (ovSplit (A.label.t.sz + D.nr) 0 A.label.t.sz mu b) mu g hg rfl rfl
    obtain ⟨m1, m2, m3⟩ := ovMerge_spec (mu := mu) (x := x) (y1 := Y1) (y2 := ovSplit (A.label.t.sz + D.nr) A.label.t.sz D.nr mu b) (n := A.label.t.sz) (p := D.nr) y2 rfl
    obtain ⟨Z, z1, z2⟩ := Option.bind_eq_some_iff.1 y1
    refine ⟨ovMerge (A.label.t.sz + D.nr) A.label.t.sz D.nr mu Y1 (ovSplit (A.label.t.sz + D.nr) A.label.t.sz D.nr mu b) x, ?_, fun k hk i hi => ?_,
      fun k hk i hi => ?_, m3⟩
    · unfold ovSolve
      simp only [e3]
      unfold ovSolveBlocks
      simp only [if_true, z1, Option.bind_some, if_neg hp]
      rw [z2]
      rfl
    · have := y4 i hi k hk
      rw [ovSplit_get hi hk, Nat.zero_add] at this
      rw [← this]
      exact sum_congr rfl fun l hl => by rw [m1 k hk l (mem_range.1 hl)]; rfl
    · rw [m2 k hk i hi, ovSplit_get hi hk]

/-- **C48**, symmetric and Hermitian positive definite matrices, without overlap: `numfact` followed by `solve` solves the system. Missing: overlap, for which
the claim is false (`C48_cholesky_overlap_wrong`), and what is missing in C38. -/
theorem C48_cholesky_no_overlap_partial (hEx : E.Exact) (hT : TrsmOK E) (hP : PotrfOK E) {S : OvBlocks G R} {n : ℕ} (hS : OvSizes n 0 S)
    (hA : CholOperand u m ad M S.A) {f : ℕ} (hf : 2 * S.A.ht ≤ f) {sym : HSym} (hs : sym = .S ∨ sym = .H) :
    ∃ S', ovNumfact E f sym u S = some S' ∧ ∀ (b x : Buf R) (mu g : ℕ), S.A.ht ≤ g → ∃ y, ovSolve E g sym u S' b x mu = some y ∧
      (∀ k < mu, ∀ i < n, ∑ l ∈ range n, M (S.A.label.t.off + i) (S.A.label.t.off + l) * y (k * n + l) = b (k * n + i)) ∧
      ∀ q, mu * n ≤ q → y q = x q := by
  obtain ⟨A, B, C, D, piv⟩ := S
  obtain ⟨rfl, ⟨hb1, hb2⟩, ⟨hc1, hc2⟩, hd1, hd2⟩ := hS
  simp only at *
  obtain ⟨A', e1, e2⟩ := C38_solve_cluster_numbering_partial hEx hT hP hA hf rfl
  obtain ⟨A'', -, e1', e3, -⟩ := C38_factorization_partial hEx hT hP hA hf
  obtain rfl : A'' = A' := Option.some.inj (e1'.symm.trans e1)
  have hp : ¬ 0 < C.nr := by omega
  have hq : ¬ 0 < B.nc := by omega
  have hN : ¬ sym = .N := by rcases hs with rfl | rfl <;> simp
  refine ⟨⟨A'', B, C, D, piv⟩, ?_, fun b x mu g hg => ?_⟩
  · unfold ovNumfact
    rw [if_neg hN, if_pos hs, e1]
    simp only [Option.bind_some, hp, hq, and_false, if_false]
  · obtain ⟨Y1, y1, y2, y3, y4⟩ := e2 (ovSplit (A.label.t.sz + D.nr) 0 A.label.t.sz mu b) mu g hg rfl rfl
    obtain ⟨m1, m2, m3⟩ := ovMerge_spec (mu := mu) (x := x) (y1 := Y1) (y2 := ovSplit (A.label.t.sz + D.nr) A.label.t.sz D.nr mu b) (n := A.label.t.sz) (p := D.nr) y2 rfl
    refine ⟨ovMerge (A.label.t.sz + D.nr) A.label.t.sz D.nr mu Y1 (ovSplit (A.label.t.sz + D.nr) A.label.t.sz D.nr mu b) x, ?_, fun k hk i hi => ?_, ?_⟩
    · unfold ovSolve
      simp only [e3]
      unfold ovSolveBlocks
      unfold cholSolveH at y1
      rw [if_neg hN]
      cases hu : u with
      | N => exact absurd hu hA.up
      | L =>
        subst hu
        rw [if_pos rfl] at y1
        obtain ⟨Z, z1, z2⟩ := Option.bind_eq_some_iff.1 y1
        rw [if_pos ⟨hs, rfl⟩, z1]
        simp only [Option.bind_some, if_neg hp, z2]
        rfl
      | U =>
        subst hu
        rw [if_neg (by simp)] at y1
        obtain ⟨Z, z1, z2⟩ := Option.bind_eq_some_iff.1 y1
        rw [if_neg (by simp), if_pos ⟨hs, rfl⟩, z1]
        simp only [Option.bind_some, if_neg hq, z2]
        rfl
    · have := y4 i hi k hk
      rw [ovSplit_get hi hk, Nat.zero_add, hd1] at this
      rw [← show b (k * (A.label.t.sz + 0) + i) = b (k * A.label.t.sz + i) from rfl, ← this]
      refine sum_congr rfl fun l hl => ?_
      have := m1 k hk l (mem_range.1 hl)
      rw [hd1] at this
      rw [← this, hd1]
      rfl
    · rw [hd1] at m3 ⊢
      exact m3

end claims

/-! ## The blocks made by the builder -/

section builder
variable [CommRing R] [StarRing R] [DecidableEq R] {E : LinOps R} {ad : ClusterTree G → ClusterTree G → Prop} {u : UploType} {M : ℕ → ℕ → R} {A : FTree G R}

omit [StarRing R] [DecidableEq R] in
theorem genSub_get {gen : ℕ → ℕ → R} {rows cols : List ℕ} {i j : ℕ} (hi : i < rows.length) :
    (genSub gen rows cols).get i j = gen (rows.getD i 0) (cols.getD j 0) := by
  unfold Mat.get genSub
  simp only
  rw [Nat.add_mul_mod_self_right, Nat.mod_eq_of_lt hi, Nat.add_mul_div_right _ _ (by omega), Nat.div_eq_of_lt hi, Nat.zero_add]

omit [StarRing R] [DecidableEq R] in
/-- **C48**, blocks of the builder for a symmetric operator (`'S'`, or `'H'` with complex coefficients): `D` contains the overlap, and the one of `B`, `C`
which `LocalHMatrixPlusOverlapSolver` reads contains the coefficients between the subdomain and the overlap, in the numbering of the subdomain. -/
theorem C48_builder_symmetric {cplx : Bool} {sym : HSym} (hs : sym = .S ∨ (sym = .H ∧ cplx = true)) (gen : ℕ → ℕ → R) {num : List ℕ} {n p : ℕ} (hn : num.length = n + p) :
    (∀ u, (ovBlocksInit cplx sym u gen num n).2.2.nr = p ∧ (ovBlocksInit cplx sym u gen num n).2.2.nc = p ∧
      ∀ i < p, ∀ j < p, (ovBlocksInit cplx sym u gen num n).2.2.get i j = gen (num.getD (n + i) 0) (num.getD (n + j) 0)) ∧
    ((ovBlocksInit cplx sym .U gen num n).1.nr = n ∧ (ovBlocksInit cplx sym .U gen num n).1.nc = p ∧
      ∀ i < n, ∀ j < p, (ovBlocksInit cplx sym .U gen num n).1.get i j = gen (num.getD i 0) (num.getD (n + j) 0)) ∧
    (ovBlocksInit cplx sym .L gen num n).2.1.nr = p ∧ (ovBlocksInit cplx sym .L gen num n).2.1.nc = n ∧
      ∀ i < p, ∀ j < n, (ovBlocksInit cplx sym .L gen num n).2.1.get i j = gen (num.getD (n + i) 0) (num.getD j 0) := by
  have hsym : (decide (sym = .S) || (decide (sym = .H) && cplx)) = true := by
    rcases hs with rfl | ⟨rfl, rfl⟩ <;> rfl
  have t : (num.take n).length = n := by rw [List.length_take]; omega
  have d : (num.drop n).length = p := by rw [List.length_drop]; omega
  have gt : ∀ i < n, (num.take n).getD i 0 = num.getD i 0 := fun i hi => by
    rw [List.getD_eq_getElem?_getD, List.getD_eq_getElem?_getD, List.getElem?_take_of_lt hi]
  have gd : ∀ i, (num.drop n).getD i 0 = num.getD (n + i) 0 := fun i => by
    rw [List.getD_eq_getElem?_getD, List.getD_eq_getElem?_getD, List.getElem?_drop]
  refine ⟨fun u => ?_, ?_, ?_⟩
  · have e : (ovBlocksInit cplx sym u gen num n).2.2 = genSub gen (num.drop n) (num.drop n) := by
      unfold ovBlocksInit
      simp only [hsym]
      cases u <;> rfl
    rw [e]
    exact ⟨d, d, fun i hi j hj => by rw [genSub_get (by omega), gd, gd]⟩
  · have e : (ovBlocksInit cplx sym .U gen num n).1 = genSub gen (num.take n) (num.drop n) := by
      unfold ovBlocksInit
      simp only [hsym]
      rfl
    rw [e]
    exact ⟨t, d, fun i hi j hj => by rw [genSub_get (by omega), gt i hi, gd]⟩
  · have e : (ovBlocksInit cplx sym .L gen num n).2.1 = genSub gen (num.drop n) (num.take n) := by
      unfold ovBlocksInit
      simp only [hsym]
      rfl
    rw [e]
    exact ⟨d, t, fun i hi j hj => by rw [genSub_get (by omega), gt j hj, gd]⟩

/-- **C48 is false for the unsymmetric blocks made by the builder**: `C` stays empty (utility.hpp 226-232), so `numfact` and `solve` ignore the overlap.
As soon as a coefficient between the subdomain and the overlap is not zero, there is a right-hand side for which the result does not solve the system. -/
theorem C48_builder_unsymmetric_wrong (hEx : E.Exact) (hT : TrsmOK E) (hG : GetrfOK E) (cplx : Bool) (gen : ℕ → ℕ → R) {num : List ℕ} {n p : ℕ}
    (hn : num.length = n + p) (hA : LUOperand ad M A) (hsz : A.label.t.sz = n) {f : ℕ} (hf : 2 * A.ht ≤ f)
    (hM : ∀ i < n, ∀ j < n, M (A.label.t.off + i) (A.label.t.off + j) = gen (num.getD i 0) (num.getD j 0)) {i j : ℕ} (hi : i < n) (hj : j < p)
    (h0 : gen (num.getD i 0) (num.getD (n + j) 0) ≠ 0) :
    ∃ S' b y, ovNumfact E f .N u ⟨A, (ovBlocksInit cplx .N u gen num n).1, (ovBlocksInit cplx .N u gen num n).2.1, (ovBlocksInit cplx .N u gen num n).2.2, []⟩ =
      some S' ∧ ovSolve E A.ht .N u S' b b 1 = some y ∧
      ¬ ∀ i < n + p, ∑ l ∈ range (n + p), gen (num.getD i 0) (num.getD l 0) * y l = b i := by
  have e : ovBlocksInit cplx .N u gen num n = (genSub gen (num.take n) (num.drop n), ⟨0, 0, fun _ => 0⟩, genSub gen (num.drop n) (num.drop n)) := rfl
  rw [e]
  obtain ⟨S', s1, s2⟩ := ovSolve_lu_ignored (u := u) (n := n) (p := p) hEx hT hG
    (S := ⟨A, genSub gen (num.take n) (num.drop n), ⟨0, 0, fun _ => 0⟩, genSub gen (num.drop n) (num.drop n), []⟩) hsz rfl
    (by show (num.drop n).length = p; rw [List.length_drop]; omega) hA hf
  obtain ⟨y, y1, y2, y3, -⟩ := s2 (fun q => if q = n + j then 1 else 0) (fun q => if q = n + j then 1 else 0) 1 A.ht le_rfl
  refine ⟨S', _, y, s1, y1, fun h => ?_⟩
  have h1 := h i (by omega)
  have h2 := y2 0 (by omega) i hi
  simp only [Nat.zero_mul, Nat.zero_add] at h2
  rw [sum_range_add, sum_congr rfl (fun l hl => by rw [← hM i hi l (mem_range.1 hl)]), h2] at h1
  have h3 : ∑ l ∈ range p, gen (num.getD i 0) (num.getD (n + l) 0) * y (n + l) = 0 := left_eq_add.1 h1.symm
  rw [sum_eq_single j (fun l hl hlj => ?_) (fun h => absurd (mem_range.2 hj) h)] at h3
  · have := y3 0 (by omega) j hj
    simp only [Nat.zero_mul, Nat.zero_add, if_true] at this
    rw [this, mul_one] at h3
    exact h0 h3
  · have := y3 0 (by omega) l (mem_range.1 hl)
    simp only [Nat.zero_mul, Nat.zero_add] at this
    rw [this, if_neg (by omega), mul_zero]

end builder

/-! ## The hypotheses can be met -/

/-- The 12 x 12 H-matrix of `exLU_operand` with an overlap of size 3, for the matrix `min(i, j) + 1` of size 15. -/
example : ∃ (E : LinOps ℚ) (S : OvBlocks (List ℕ) ℚ) (M : ℕ → ℕ → ℚ), E.Exact ∧ TrsmOK E ∧ GetrfOK E ∧ OvSizes 12 3 S ∧
    LUOperand (fun p q => p.iv ≠ q.iv) M S.A ∧ 3 ≤ S.A.ht ∧
    Nonsing (blockK 12 (fun i j => M (S.A.label.t.off + i) (S.A.label.t.off + j)) S.B.get S.C.get S.D.get) 0 (12 + 3) := by
  obtain ⟨E, A, perm, h1, h2, h3, h4, -, h5, h6, h7, -⟩ := exLU_operand
  refine ⟨E, ⟨A, matFun 12 3 (fun i k => ((min i (12 + k) + 1 : ℕ) : ℚ)), matFun 3 12 (fun k j => ((min (12 + k) j + 1 : ℕ) : ℚ)),
    matFun 3 3 (fun k j => ((min (12 + k) (12 + j) + 1 : ℕ) : ℚ)), []⟩, fun i j => ((min i j + 1 : ℕ) : ℚ), h1, h2, h3,
    ⟨h6, ⟨rfl, rfl⟩, ⟨rfl, rfl⟩, ⟨rfl, rfl⟩⟩, h4, h5, ?_⟩
  refine (nonsing_congr fun i hi j hj => ?_).2 (min_nonsing ℚ (12 + 3))
  have hi := (mem_Ico.1 hi).2
  have hj := (mem_Ico.1 hj).2
  unfold blockK
  rw [h7]
  by_cases a : i < 12 <;> by_cases b : j < 12
  · rw [if_pos a, if_pos b]
    beta_reduce
    rw [Nat.zero_add, Nat.zero_add]
  · rw [if_pos a, if_neg b, matFun_get _ _ _ (by omega), show 12 + (j - 12) = j by omega]
  · rw [if_neg a, if_pos b, matFun_get _ _ _ (by omega), show 12 + (i - 12) = i by omega]
  · rw [if_neg a, if_neg b, matFun_get _ _ _ (by omega), show 12 + (i - 12) = i by omega, show 12 + (j - 12) = j by omega]

/-- The hypotheses of the theorem about the unsymmetric blocks of the builder hold for the same H-matrix. -/
example : ∃ (E : LinOps ℚ) (A : FTree (List ℕ) ℚ) (gen : ℕ → ℕ → ℚ) (num : List ℕ) (M : ℕ → ℕ → ℚ), E.Exact ∧ TrsmOK E ∧ GetrfOK E ∧ num.length = 12 + 3 ∧
    LUOperand (fun p q => p.iv ≠ q.iv) M A ∧ A.label.t.sz = 12 ∧
    (∀ i < 12, ∀ j < 12, M (A.label.t.off + i) (A.label.t.off + j) = gen (num.getD i 0) (num.getD j 0)) ∧ gen (num.getD 0 0) (num.getD (12 + 0) 0) ≠ 0 := by
  obtain ⟨E, A, perm, h1, h2, h3, h4, -, h5, h6, h7, -⟩ := exLU_operand
  refine ⟨E, A, fun i j => ((min i j + 1 : ℕ) : ℚ), List.range 15, _, h1, h2, h3, rfl, h4, h6, fun i hi j hj => ?_, by decide +kernel⟩
  have g : ∀ k < 12, (List.range 15).getD k 0 = k := by decide
  rw [h7, g i hi, g j hj, Nat.zero_add, Nat.zero_add]

/-- The hypotheses of the Cholesky theorem hold for the H-matrix of `exChol_operand`. -/
example : ∃ (E : LinOps ℚ) (S : OvBlocks (List ℕ) ℚ) (M : ℕ → ℕ → ℚ), E.Exact ∧ TrsmOK E ∧ PotrfOK E ∧ OvSizes 12 0 S ∧
    CholOperand .L .lower (fun p q => p.iv ≠ q.iv) M S.A ∧ 3 ≤ S.A.ht := by
  obtain ⟨E, A, perm, h1, h2, h3, h4, -, h5, h6, h7, -⟩ := exChol_operand
  exact ⟨E, ⟨A, Mat.mk' 12 0 0, Mat.mk' 0 12 0, Mat.mk' 0 0 0, []⟩, _, h1, h2, h3, ⟨h6, ⟨rfl, rfl⟩, ⟨rfl, rfl⟩, ⟨rfl, rfl⟩⟩, h4, h5⟩

/-! ## With overlap, the Cholesky solves are wrong -/

/-- Exact operations over the rational numbers, with direct formulas for 1 x 1 blocks. -/
noncomputable def exEov : LinOps ℚ :=
  { exE with
    potrf := fun u D => if D.nr = 1 ∧ D.nc = 1 ∧ D.get 0 0 = 4 then ⟨1, 1, fun _ => 2⟩ else exE.potrf u D
    trsm := fun side u tr unit α A B => if A.nr = 1 ∧ A.nc = 1 ∧ A.get 0 0 = 2 then (if unit then B.scale α else B.scale (α / 2)) else exE.trsm side u tr unit α A B }

theorem exEov_ok : exEov.Exact ∧ TrsmOK exEov ∧ PotrfOK exEov := by
  refine ⟨⟨exE_ok.1.real, exE_ok.1.rc, exE_ok.1.cmp⟩, ?_, ?_⟩
  · intro side u tr unit α A B n m hu h1 h2 h3 h4
    have e : exEov.trsm side u tr unit α A B = if A.nr = 1 ∧ A.nc = 1 ∧ A.get 0 0 = 2 then B.scale (if unit then α else α / 2) else exE.trsm side u tr unit α A B := by
      cases unit <;> rfl
    rw [e]
    by_cases hc : A.nr = 1 ∧ A.nc = 1 ∧ A.get 0 0 = 2
    · simp only [if_pos hc]
      obtain rfl : n = 1 := by omega
      refine ⟨rfl, rfl, fun i hi k hk => ?_⟩
      obtain rfl : i = 0 := by omega
      rw [sum_range_one]
      have t1 : tv side tr (tri u unit A.get) 0 0 = if unit then 1 else 2 := by
        rw [tv_eq]
        unfold tri
        by_cases ht : tr = .C <;> simp [hc.2.2, ht]
      rw [t1]
      have g : ∀ β : ℚ, ∀ i j, i < B.nr → j < B.nc → (B.scale β).get i j = β * B.get i j :=
        fun β i j hi hj => if_pos ((mat_idx_lt hi hj).trans_eq (Nat.mul_comm _ _))
      have fin : ∀ x : ℚ, (if unit = true then (1 : ℚ) else 2) * ((if unit = true then α else α / 2) * x) = α * x := by
        intro x; cases unit <;> simp; ring
      cases side with
      | L =>
        rw [if_pos rfl] at h3
        show _ * (B.scale _).get 0 k = α * B.get 0 k
        rw [g _ 0 k (by rw [(Prod.mk.inj h3).1]; omega) (by rw [(Prod.mk.inj h3).2]; omega)]
        exact fin _
      | R =>
        rw [if_neg (by simp)] at h3
        show _ * (B.scale _).get k 0 = α * B.get k 0
        rw [g _ k 0 (by rw [(Prod.mk.inj h3).1]; omega) (by rw [(Prod.mk.inj h3).2]; omega)]
        exact fin _
    · simp only [if_neg hc]
      exact exE_ok.2.1 side u tr unit α A B n m hu h1 h2 h3 h4
  · intro u D n hu h1 h2 hF
    have e : exEov.potrf u D = if D.nr = 1 ∧ D.nc = 1 ∧ D.get 0 0 = 4 then ⟨1, 1, fun _ => 2⟩ else exE.potrf u D := rfl
    rw [e]
    by_cases hc : D.nr = 1 ∧ D.nc = 1 ∧ D.get 0 0 = 4
    · simp only [if_pos hc]
      obtain rfl : n = 1 := by omega
      refine ⟨rfl, rfl, fun i hi => ?_, fun i hi j hj _ => ?_⟩
      · exact isUnit_iff_ne_zero.2 (show (2 : ℚ) ≠ 0 by norm_num)
      · obtain rfl : i = 0 := by omega
        obtain rfl : j = 0 := by omega
        rw [sum_range_one, hc.2.2]
        unfold lowF tri Mat.get
        norm_num
    · simp only [if_neg hc]
      exact exE_ok.2.2 u D n hu h1 h2 hF

/-- One point. -/
def exBuild1 : Option (CTree (List ℕ) × CState (List ℕ)) := createClusterTree exStrategies3 Nat.log 16 1 2 (.auto 1)

theorem exBuild1_built : ∃ t st, exBuild1 = some (t, st) ∧ Built exStrategies3 Nat.log 16 1 2 (.auto 1) t st := by
  have h : exBuild1.isSome := by decide +kernel
  obtain ⟨⟨t, st⟩, hr⟩ := Option.isSome_iff_exists.1 h
  refine ⟨t, st, hr, strategies_ok_of_regular _ 0 (fun _ l => List.Perm.refl l) rfl, flogOK_log, by omega, (show (1 : ℕ) ≤ 1 by omega), trivial, hr, ?_⟩
  have h2 : ∀ r ∈ exBuild1, ∀ l ∈ r.1.leaves, 0 ≤ l.label.rank := by decide +kernel
  exact h2 (t, st) hr

/-- The H-matrix containing the 1 x 1 matrix with entry 1. -/
def exA1 : Option (FTree (List ℕ) ℚ) := exBuild1.bind fun r => (buildBlockTree (exEnv r.1 r.2 none none .N .N) 100 r.1 r.1).map fun b =>
  b.map (fun n => ⟨⟨n.t, (clusterTreeOf r.1 r.2).parts⟩, ⟨n.s, (clusterTreeOf r.1 r.2).parts⟩, .N, .N, .N, .N, match n.kind with
        | .dense => .dense (matFun n.t.sz n.s.sz (fun _ _ => 1)) []
        | .adm => .dense (matFun n.t.sz n.s.sz (fun _ _ => 1)) []
        | .hier => .hier⟩)

/-- The blocks of the matrix diag(1, 4) with an overlap of size 1. -/
def exS1 (A : FTree (List ℕ) ℚ) : OvBlocks (List ℕ) ℚ := ⟨A, ⟨1, 1, fun _ => 0⟩, ⟨1, 1, fun _ => 0⟩, ⟨1, 1, fun _ => 4⟩, []⟩

/-- What the solver returns for the right-hand side (0, 1). -/
noncomputable def exY1 (u : UploType) : Option (Buf ℚ) := exA1.bind fun A => (ovNumfact exEov 10 .S u (exS1 A)).bind fun S' =>
  ovSolve exEov 10 .S u S' (fun q => if q = 1 then 1 else 0) (fun _ => 0) 1

theorem exY1_L : (exY1 .L).map (fun y => y 1) = some (1 / 2) := by decide +kernel

theorem exY1_U : (exY1 .U).map (fun y => y 1) = some 1 := by decide +kernel

/-- **C48 is false for Cholesky with overlap**, for both triangles: for the positive definite matrix diag(1, 4), one index inside and one in the overlap, the
solver does not return the solution. With the lower triangle the first solve with the factor of the overlap block takes its diagonal for 1
(local_hmatrix_plus_overlap_solvers.hpp 101); with the upper triangle there is only one solve with it, also with unit diagonal (113). -/
theorem C48_cholesky_overlap_wrong (u : UploType) (hu : u ≠ .N) : ∃ (E : LinOps ℚ) (S S' : OvBlocks (List ℕ) ℚ) (M : ℕ → ℕ → ℚ) (b y : Buf ℚ), E.Exact ∧ TrsmOK E ∧
    PotrfOK E ∧ OvSizes 1 1 S ∧ CholOperand u .full (fun _ _ => False) M S.A ∧ S.A.label.t.off = 0 ∧ HasChol (blockK 1 M S.B.get S.C.get S.D.get) 0 2 ∧
    ovNumfact E 10 .S u S = some S' ∧ ovSolve E 10 .S u S' b (fun _ => 0) 1 = some y ∧
    ¬ ∀ i < 2, ∑ l ∈ range 2, blockK 1 M S.B.get S.C.get S.D.get i l * y l = b i := by
  obtain ⟨t, st, hr, hb⟩ := exBuild1_built
  have w := create_wf hb.strategies hb.hflog hb.hnc hb.harg hb.hpos hb.build hb.ranks
  have s := create_shape hb.strategies hb.hflog hb.hnc hb.harg hb.build
  have good : (exEnv t st none none .N .N).Good := ⟨w.1, w.2, s.2.2.2.2, w.1, w.2, s.2.2.2.2, rfl, rfl, rfl⟩
  have h1 : ∀ r ∈ exBuild1, (buildBlockTree (exEnv r.1 r.2 none none .N .N) 100 r.1 r.1).isSome = true := by decide +kernel
  have h2 : ∀ r ∈ exBuild1, ∀ x ∈ Tree.pre r.1, (clList (decide ((⟨x, (clusterTreeOf r.1 r.2).parts⟩ : ClusterTree (List ℕ)).rk < 0)) ⟨x, (clusterTreeOf r.1 r.2).parts⟩).length ≤ 2 := by
    decide +kernel
  obtain ⟨b, hbb⟩ := Option.isSome_iff_exists.1 (h1 (t, st) hr)
  have hbb : buildBlockTree (exEnv t st none none .N .N) 100 _ _ = some b := hbb
  have hm : (exEnv t st none none .N .N).mask = .full := rfl
  obtain ⟨A, a1, a2, a3, a4, a5, a6, a7⟩ := rep_exists' good hbb (fun _ _ => (1 : ℚ)) (fun _ _ => False)
  simp only [if_false] at a7
  have eA : exA1 = some A := by
    unfold exA1
    rw [hr]
    show (buildBlockTree (exEnv t st none none .N .N) 100 t t).map _ = some A
    rw [show buildBlockTree (exEnv t st none none .N .N) 100 t t = some b from hbb, a7]
    rfl
  have lp := localPerm_root hb.strategies hb.hflog hb.hnc hb.harg hb.build
  have o0 : A.label.t.off = 0 := by rw [a2]; exact lp.1
  have o1 : A.label.t.sz = 1 := by rw [a2]; exact lp.2.1
  obtain ⟨y, v, hy, hv, hne⟩ : ∃ (y : Buf ℚ) (v : ℚ), exY1 u = some y ∧ y 1 = v ∧ v ≠ 1 / 4 := by
    cases u with
    | N => exact absurd rfl hu
    | L => obtain ⟨y, y1, y2⟩ := Option.map_eq_some_iff.1 exY1_L; exact ⟨y, _, y1, y2, by norm_num⟩
    | U => obtain ⟨y, y1, y2⟩ := Option.map_eq_some_iff.1 exY1_U; exact ⟨y, _, y1, y2, by norm_num⟩
  unfold exY1 at hy
  rw [eA] at hy
  obtain ⟨S', s1, s2⟩ := Option.bind_eq_some_iff.1 (show (ovNumfact exEov 10 .S u (exS1 A)).bind _ = some y from hy)
  refine ⟨exEov, exS1 A, S', fun _ _ => 1, _, y, exEov_ok.1, exEov_ok.2.1, exEov_ok.2.2, ⟨o1, ⟨rfl, rfl⟩, ⟨rfl, rfl⟩, ⟨rfl, rfl⟩⟩,
    ⟨by rw [← hm]; exact a1, hu, Or.inl rfl, a5, a2.trans a3.symm, by show A.label.t.Top; rw [a2]; exact hb.clOK.2, ?_, fun _ h => h, ?_⟩, o0, ?_, s1, s2, fun h => ?_⟩
  · show A.label.t.Bin
    rw [a2]
    intro d hd
    have := h2 (t, st) hr d.root hd.1
    have e : d = ⟨d.root, (clusterTreeOf t st).parts⟩ := by rw [show (clusterTreeOf t st).parts = d.parts from hd.2.symm]
    rw [e]
    exact this
  · have e : (exS1 A).A.label.t.fin = 1 := by show A.label.t.off + A.label.t.sz = 1; omega
    rw [e, show (exS1 A).A.label.t.off = 0 from o0]
    refine ⟨fun _ _ => 1, fun i hi j hj h => absurd h ?_, fun i _ => isUnit_one, fun i _ j _ => by simp⟩
    have := mem_Ico.1 hi; have := mem_Ico.1 hj; omega
  · refine ⟨fun i l => if i = l then (if i = 0 then 1 else 2) else 0, fun i _ j _ h => if_neg (by omega), fun i _ => ?_, ?_⟩
    · by_cases h : i = 0
      · simp [h]
      · simp only [if_true, if_neg h]
        exact isUnit_iff_ne_zero.2 (by norm_num)
    · show ∀ i ∈ Ico 0 2, ∀ j ∈ Ico 0 2, ∑ l ∈ Ico 0 2, (fun i l : ℕ => if i = l then (if i = 0 then (1 : ℚ) else 2) else 0) i l *
        star ((fun i l : ℕ => if i = l then (if i = 0 then (1 : ℚ) else 2) else 0) j l) =
        blockK 1 (fun _ _ => 1) (Mat.get ⟨1, 1, fun _ => 0⟩) (Mat.get ⟨1, 1, fun _ => 0⟩) (Mat.get ⟨1, 1, fun _ => 4⟩) i j
      decide +kernel
  · have := h 1 (by omega)
    rw [sum_range_succ, sum_range_one, show blockK 1 (fun _ _ => (1 : ℚ)) (exS1 A).B.get (exS1 A).C.get (exS1 A).D.get 1 0 = 0 from rfl,
      show blockK 1 (fun _ _ => (1 : ℚ)) (exS1 A).B.get (exS1 A).C.get (exS1 A).D.get 1 1 = 4 from rfl, hv, if_pos rfl] at this
    apply hne
    linarith

end Htool
