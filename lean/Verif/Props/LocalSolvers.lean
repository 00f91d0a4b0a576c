import Verif.LocalSolvers
import Verif.Props.Overlap

/-! # C58, C59: local solvers without overlap blocks, dense local matrices -/

namespace Htool
variable {G R : Type*}
open Finset

section hm
variable [CommRing R] [StarRing R] [DecidableEq R] {E : LinOps R} {ad : ClusterTree G → ClusterTree G → Prop} {u : UploType} {m : Mask} {M K : ℕ → ℕ → R}
  {A : FTree G R} {perm : List ℕ} {n : ℕ}

omit [CommRing R] [StarRing R] [DecidableEq R] in
/-- The copy into user numbering does not write after the last column. -/
theorem permOut_frame {perm : List ℕ} {off size : ℕ} (hp : LocalPerm perm off size) {P X : Mat R} {q : ℕ} (hq : size * X.nc ≤ q) :
    (permOut perm off size P X).data q = X.data q := by
  have hs := fun j hj => userIdx_surj hp (k := j) hj
  have ex : ∃ r : ℕ → ℕ, ∀ j < size, r j < size ∧ userIdx perm off (r j) = j := by
    classical
    refine ⟨fun j => if h : j < size then (hs j h).choose else 0, fun j hj => ?_⟩
    simp only [dif_pos hj]
    exact (hs j hj).choose_spec
  obtain ⟨r, hr⟩ := ex
  exact (colLoopAt (size := size) (fun c => clusterToUser perm off size (P.data.from' (size * c)))
    (fun c j => P.data (size * c + r j)) (fun c d j hj => by
      have := (clusterToUser_spec hp (P.data.from' (size * c)) d).1 (r j) (hr j hj).1
      rw [(hr j hj).2] at this
      exact this) (fun c d i hi => (clusterToUser_spec hp (P.data.from' (size * c)) d).2 i hi) X.nc X.data).2 q hq

/-- The system solved: in user numbering with permutation, in cluster numbering without. -/
def hmSystem (usePerm : Bool) (M K : ℕ → ℕ → R) (off : ℕ) (i l : ℕ) : R := if usePerm then K i l else M (off + i) (off + l)

/-- `LocalHMatrixSolver::solve` with a factorization which solves the system in cluster numbering. -/
theorem hmSolve_of {A' : FTree G R} {sym : HSym} {f : ℕ} (et : A'.label.t = A.label.t) (es : A'.label.s = A.label.t) (hn : A.label.t.sz = n)
    (hp : LocalPerm perm A.label.t.off n)
    (hK : ∀ i < n, ∀ j < n, M (A.label.t.off + i) (A.label.t.off + j) = K (userIdx perm A.label.t.off i) (userIdx perm A.label.t.off j))
    (hsol : ∀ (X : Mat R) (mu : ℕ), X.nr = n → X.nc = mu →
      ∃ Y, (if sym = .N then luSolveH E f .N A' X else if sym = .S ∨ sym = .H then cholSolveH E f u A' X else some X) = some Y ∧ Y.nr = n ∧ Y.nc = mu ∧
        ∀ i < n, ∀ k < mu, ∑ l ∈ range n, M (A.label.t.off + i) (A.label.t.off + l) * Y.get l k = X.get i k)
    (usePerm : Bool) (b x : Buf R) (mu : ℕ) :
    ∃ y, hmSolve E f sym u usePerm perm perm A' b x mu = some y ∧
      (∀ k < mu, ∀ i < n, ∑ l ∈ range n, hmSystem usePerm M K A.label.t.off i l * y (k * n + l) = b (k * n + i)) ∧ ∀ q, mu * n ≤ q → y q = x q := by
  unfold hmSolve
  rw [es, et, hn]
  cases usePerm with
  | true =>
    simp only [if_true]
    obtain ⟨Y, y1, y2, y3, y4⟩ := hsol (permIn perm A.label.t.off n ⟨n, mu, b⟩) mu rfl rfl
    rw [y1]
    refine ⟨_, rfl, fun k hk v hv => ?_, fun q hq => permOut_frame hp (by rw [Nat.mul_comm]; exact hq)⟩
    obtain ⟨i, hi, rfl⟩ := userIdx_surj hp hv
    have key := y4 i hi k hk
    rw [permIn_get (X := ⟨n, mu, b⟩) rfl hi hk] at key
    have kb : Mat.get ⟨n, mu, b⟩ (userIdx perm A.label.t.off i) k = b (k * n + userIdx perm A.label.t.off i) := congrArg b (Nat.add_comm _ _)
    rw [← kb, ← key, ← sum_userIdx hp]
    refine sum_congr rfl fun l hl => ?_
    have hl := mem_range.1 hl
    have := permOut_get hp (P := Y) (X := ⟨n, mu, x⟩) y2 rfl hl hk
    rw [← this, hK i hi l hl]
    show K _ _ * _ = K _ _ * _
    congr 1
    exact congrArg _ (Nat.add_comm _ _)
  | false =>
    simp only [Bool.false_eq_true, if_false]
    obtain ⟨Y, y1, y2, y3, y4⟩ := hsol ⟨n, mu, copyN (mu * n) b x⟩ mu rfl rfl
    rw [y1]
    have lt : ∀ {k i}, k < mu → i < n → k * n + i < mu * n := fun {k i} hk hi => by
      have : (k + 1) * n ≤ mu * n := Nat.mul_le_mul_right _ hk
      rw [Nat.succ_mul] at this
      omega
    refine ⟨_, rfl, fun k hk i hi => ?_, fun q hq => if_neg (by omega)⟩
    have key := y4 i hi k hk
    have kb : Mat.get ⟨n, mu, copyN (mu * n) b x⟩ i k = b (k * n + i) := by
      unfold Mat.get copyN
      simp only
      rw [Nat.add_comm i, if_pos (lt hk hi)]
    rw [← kb, ← key]
    refine sum_congr rfl fun l hl => ?_
    show M _ _ * _ = _
    congr 1
    unfold copyN Mat.get
    beta_reduce
    rw [if_pos (lt hk (mem_range.1 hl)), y2, Nat.add_comm]

/-- **C58**, unsymmetric matrices: `LocalHMatrixSolver::numfact` followed by `solve` solves the system with the matrix of the H-matrix for every number of
right-hand sides, in user numbering when the solver uses the permutation and in cluster numbering otherwise, and writes nothing after the solution. `x = b` is
the version in place. -/
theorem C58_lu (hEx : E.Exact) (hT : TrsmOK E) (hG : GetrfOK E) (hA : LUOperand ad M A) {f : ℕ} (hf : 2 * A.ht ≤ f) (hn : A.label.t.sz = n)
    (hp : LocalPerm perm A.label.t.off n)
    (hK : ∀ i < n, ∀ j < n, M (A.label.t.off + i) (A.label.t.off + j) = K (userIdx perm A.label.t.off i) (userIdx perm A.label.t.off j)) :
    ∃ A', hmNumfact E f .N u A = some A' ∧ ∀ (usePerm : Bool) (b x : Buf R) (mu g : ℕ), A.ht ≤ g → ∃ y, hmSolve E g .N u usePerm perm perm A' b x mu = some y ∧
      (∀ k < mu, ∀ i < n, ∑ l ∈ range n, (if usePerm then K i l else M (A.label.t.off + i) (A.label.t.off + l)) * y (k * n + l) = b (k * n + i)) ∧
      ∀ q, mu * n ≤ q → y q = x q := by
  obtain ⟨A', e1, e2⟩ := C37_solve_cluster_numbering hEx hT hG hA hf hn
  obtain ⟨A'', -, -, e1', e3, e4, -⟩ := C37_factorization hEx hT hG hA hf
  obtain rfl : A'' = A' := Option.some.inj (e1'.symm.trans e1)
  refine ⟨A'', (if_pos rfl).trans e1, fun usePerm b x mu g hg => ?_⟩
  refine hmSolve_of (M := M) (K := K) e3 (e4.trans hA.square.symm) hn hp hK (fun X mu h1 h2 => ?_) usePerm b x mu
  rw [if_pos rfl]
  exact e2 .N X mu g hg h1 h2

/-- **C58**, symmetric and Hermitian matrices (Cholesky). Missing: what is missing in C38 (clusters with more than two children). -/
theorem C58_cholesky_partial (hEx : E.Exact) (hT : TrsmOK E) (hP : PotrfOK E) (hA : CholOperand u m ad M A) {f : ℕ} (hf : 2 * A.ht ≤ f) (hn : A.label.t.sz = n)
    (hp : LocalPerm perm A.label.t.off n)
    (hK : ∀ i < n, ∀ j < n, M (A.label.t.off + i) (A.label.t.off + j) = K (userIdx perm A.label.t.off i) (userIdx perm A.label.t.off j))
    {sym : HSym} (hs : sym = .S ∨ sym = .H) :
    ∃ A', hmNumfact E f sym u A = some A' ∧ ∀ (usePerm : Bool) (b x : Buf R) (mu g : ℕ), A.ht ≤ g → ∃ y, hmSolve E g sym u usePerm perm perm A' b x mu = some y ∧
      (∀ k < mu, ∀ i < n, ∑ l ∈ range n, (if usePerm then K i l else M (A.label.t.off + i) (A.label.t.off + l)) * y (k * n + l) = b (k * n + i)) ∧
      ∀ q, mu * n ≤ q → y q = x q := by
  have hN : ¬ sym = .N := by rcases hs with rfl | rfl <;> simp
  obtain ⟨A', e1, e2⟩ := C38_solve_cluster_numbering_partial hEx hT hP hA hf hn
  obtain ⟨A'', -, e1', e3, e4, -⟩ := C38_factorization_partial hEx hT hP hA hf
  obtain rfl : A'' = A' := Option.some.inj (e1'.symm.trans e1)
  refine ⟨A'', (if_neg hN).trans ((if_pos hs).trans e1), fun usePerm b x mu g hg => ?_⟩
  refine hmSolve_of (M := M) (K := K) e3 (e4.trans hA.square.symm) hn hp hK (fun X mu h1 h2 => ?_) usePerm b x mu
  rw [if_neg hN, if_pos hs]
  exact e2 X mu g hg h1 h2

end hm

/-- The hypotheses of C58 hold for the H-matrix of `exLU_operand`: every matrix in cluster numbering is a matrix in user numbering. -/
example : ∃ (E : LinOps ℚ) (A : FTree (List ℕ) ℚ) (perm : List ℕ) (K : ℕ → ℕ → ℚ), E.Exact ∧ TrsmOK E ∧ GetrfOK E ∧
    LUOperand (fun p q => p.iv ≠ q.iv) (fun i j => ((min i j + 1 : ℕ) : ℚ)) A ∧ A.label.t.sz = 12 ∧ LocalPerm perm A.label.t.off 12 ∧
    ∀ i < 12, ∀ j < 12, (((min (A.label.t.off + i) (A.label.t.off + j) + 1 : ℕ) : ℚ)) = K (userIdx perm A.label.t.off i) (userIdx perm A.label.t.off j) := by
  obtain ⟨E, A, perm, h1, h2, h3, h4, -, h5, h6, h7, h8⟩ := exLU_operand
  have hs := fun j hj => userIdx_surj h8 (k := j) hj
  have ex : ∃ r : ℕ → ℕ, ∀ i < 12, r (userIdx perm A.label.t.off i) = i := by
    classical
    refine ⟨fun j => if h : j < 12 then (hs j h).choose else 0, fun i hi => ?_⟩
    have hu := (userIdx_eq h8 hi).2.2.2
    simp only [dif_pos hu]
    have := (hs _ hu).choose_spec
    exact userIdx_inj h8 this.1 hi this.2
  obtain ⟨r, hr⟩ := ex
  refine ⟨E, A, perm, fun i j => ((min (r i) (r j) + 1 : ℕ) : ℚ), h1, h2, h3, h4, h6, h8, fun i hi j hj => ?_⟩
  beta_reduce
  rw [hr i hi, hr j hj, h7, Nat.zero_add, Nat.zero_add]

/-! ## C59 -/

section dense
variable [CommRing R] [StarRing R]

/-- The dense local matrix, entry by entry, for an H-matrix which contains the coefficients of the subdomain where it has leaves. -/
theorem denseAddOverlap_get {cplx : Bool} {sym : HSym} {A : HTree R} {M : ℕ → ℕ → R} (h : A.Holds M) {gen : ℕ → ℕ → R} {num : List ℕ} {n : ℕ}
    (hn : A.label.tsz = n) (hs : A.label.ssz = n) (hN : n ≤ num.length) {i j : ℕ} (hi : i < num.length) (hj : j < num.length) :
    (denseAddOverlap cplx sym A gen num).get i j =
      if i < n ∧ j < n then (if ∃ l ∈ A.leaves, l.label.Has (A.label.toff + i) (A.label.soff + j) then M (A.label.toff + i) (A.label.soff + j) else 0)
      else if i < n ∧ (sym = .S ∨ (sym = .H ∧ cplx = true)) then 0 else gen (num.getD i 0) (num.getD j 0) := by
  have t : (num.take n).length = n := by rw [List.length_take]; omega
  have d : (num.drop n).length = num.length - n := by rw [List.length_drop]
  have gt : ∀ i < n, (num.take n).getD i 0 = num.getD i 0 := fun i hi => by
    rw [List.getD_eq_getElem?_getD, List.getD_eq_getElem?_getD, List.getElem?_take_of_lt hi]
  have gd : ∀ i, n ≤ i → (num.drop n).getD (i - n) 0 = num.getD i 0 := fun i hi => by
    rw [List.getD_eq_getElem?_getD, List.getD_eq_getElem?_getD, List.getElem?_drop, show n + (i - n) = i by omega]
  have zero : ∀ k, (Mat.mk' num.length num.length (0 : R)).data k = 0 := fun k => ite_self 0
  have hin := fun i (hi : i < n) j (hj : j < n) => (C23_copy_to_dense h (Mat.mk' n n (0 : R)).data).1 i (by omega) j (by omega)
  unfold denseAddOverlap Mat.get
  simp only [hn]
  have c1 := fun (D : Buf R) => copyCols_spec (ld := num.length) (r0 := 0) (c0 := 0) (len := n) (by omega) (copyToDense A (Mat.mk' n n (0 : R)).data) D n i j hi
  have c2 := fun (D : Buf R) => copyCols_spec (ld := num.length) (r0 := n) (c0 := 0) (len := num.length - n) (by omega) (genSub gen (num.drop n) (num.take n)).data D n i j hi
  have c3 := fun (D : Buf R) => copyCols_spec (ld := num.length) (r0 := n) (c0 := n) (len := num.length - n) (by omega) (genSub gen (num.drop n) (num.drop n)).data D
    (num.length - n) i j hi
  have c4 := fun (D : Buf R) => copyCols_spec (ld := num.length) (r0 := 0) (c0 := n) (len := n) (by omega) (genSub gen (num.take n) (num.drop n)).data D
    (num.length - n) i j hi
  have hb : (!(decide (sym = .S) || (decide (sym = .H) && cplx))) = true ↔ ¬ (sym = .S ∨ (sym = .H ∧ cplx = true)) := by
    cases sym <;> cases cplx <;> simp
  have split : ∀ (P : Prop) [Decidable P] (f g : Buf R) (q : ℕ), (if P then f else g) q = if P then f q else g q := by
    intro P _ f g q; split <;> rfl
  rw [split, c4, c3, c2, c1]
  by_cases h1 : i < n
  · by_cases h2 : j < n
    · rw [if_neg (show ¬ ((0 ≤ i ∧ i < 0 + n) ∧ n ≤ j ∧ j < n + (num.length - n)) by omega),
        if_neg (show ¬ ((n ≤ i ∧ i < n + (num.length - n)) ∧ n ≤ j ∧ j < n + (num.length - n)) by omega),
        if_neg (show ¬ ((n ≤ i ∧ i < n + (num.length - n)) ∧ 0 ≤ j ∧ j < 0 + n) by omega),
        if_pos (show (0 ≤ i ∧ i < 0 + n) ∧ 0 ≤ j ∧ j < 0 + n by omega), ite_self, if_pos ⟨h1, h2⟩]
      have := hin i h1 j h2
      rw [hn, show (Mat.mk' n n (0 : R)).data (i + j * n) = 0 from ite_self 0] at this
      exact this
    · rw [if_pos (show (0 ≤ i ∧ i < 0 + n) ∧ n ≤ j ∧ j < n + (num.length - n) by omega),
        if_neg (show ¬ ((n ≤ i ∧ i < n + (num.length - n)) ∧ n ≤ j ∧ j < n + (num.length - n)) by omega),
        if_neg (show ¬ ((n ≤ i ∧ i < n + (num.length - n)) ∧ 0 ≤ j ∧ j < 0 + n) by omega),
        if_neg (show ¬ ((0 ≤ i ∧ i < 0 + n) ∧ 0 ≤ j ∧ j < 0 + n) by omega), if_neg (show ¬ (i < n ∧ j < n) by omega)]
      have e : (genSub gen (num.take n) (num.drop n)).data (i - 0 + (j - n) * n) = gen (num.getD i 0) (num.getD j 0) := by
        have := genSub_data (gen := gen) (rows := num.take n) (cols := num.drop n) (i := i) (j := j - n) (by omega)
        rw [t, gt i h1, gd j (by omega)] at this
        exact this
      rw [e, zero]
      by_cases hc : sym = .S ∨ (sym = .H ∧ cplx = true)
      · rw [if_neg (fun h => hb.1 h hc), if_pos ⟨h1, hc⟩]
      · rw [if_pos (hb.2 hc), if_neg (fun h => hc h.2)]
  · rw [if_neg (show ¬ ((0 ≤ i ∧ i < 0 + n) ∧ n ≤ j ∧ j < n + (num.length - n)) by omega), ite_self, if_neg (show ¬ (i < n ∧ j < n) by omega),
      if_neg (show ¬ (i < n ∧ (sym = .S ∨ (sym = .H ∧ cplx = true))) from fun h => h1 h.1)]
    by_cases h2 : j < n
    · rw [if_neg (show ¬ ((n ≤ i ∧ i < n + (num.length - n)) ∧ n ≤ j ∧ j < n + (num.length - n)) by omega),
        if_pos (show (n ≤ i ∧ i < n + (num.length - n)) ∧ 0 ≤ j ∧ j < 0 + n by omega)]
      have := genSub_data (gen := gen) (rows := num.drop n) (cols := num.take n) (i := i - n) (j := j) (by omega)
      rw [d, gt j h2, gd i (by omega)] at this
      exact this
    · rw [if_pos (show (n ≤ i ∧ i < n + (num.length - n)) ∧ n ≤ j ∧ j < n + (num.length - n) by omega)]
      have := genSub_data (gen := gen) (rows := num.drop n) (cols := num.drop n) (i := i - n) (j := j - n) (by omega)
      rw [d, gd i (by omega), gd j (by omega)] at this
      exact this

/-- **C59**, unsymmetric operators: the dense local matrix contains the coefficients between all the unknowns of the subdomain, in its numbering. -/
theorem C59_unsymmetric {cplx : Bool} {sym : HSym} (hsym : ¬ (sym = .S ∨ (sym = .H ∧ cplx = true))) {A : HTree R} {M : ℕ → ℕ → R} (h : A.Holds M)
    {gen : ℕ → ℕ → R} {num : List ℕ} {n : ℕ} (hn : A.label.tsz = n) (hs : A.label.ssz = n) (hN : n ≤ num.length)
    (hM : ∀ i < n, ∀ j < n, M (A.label.toff + i) (A.label.soff + j) = gen (num.getD i 0) (num.getD j 0))
    (hcov : ∀ i < n, ∀ j < n, ∃ l ∈ A.leaves, l.label.Has (A.label.toff + i) (A.label.soff + j)) :
    (denseAddOverlap cplx sym A gen num).nr = num.length ∧ (denseAddOverlap cplx sym A gen num).nc = num.length ∧
      ∀ i < num.length, ∀ j < num.length, (denseAddOverlap cplx sym A gen num).get i j = gen (num.getD i 0) (num.getD j 0) := by
  refine ⟨rfl, rfl, fun i hi j hj => ?_⟩
  rw [denseAddOverlap_get h hn hs hN hi hj]
  by_cases h1 : i < n ∧ j < n
  · rw [if_pos h1, if_pos (hcov i h1.1 j h1.2), hM i h1.1 j h1.2]
  · rw [if_neg h1, if_neg (fun h => hsym h.2)]

/-- **C59**, symmetric operators whose H-matrix stores the lower triangle: the lower triangle of the dense local matrix, which HPDDM reads, contains the
coefficients between all the unknowns of the subdomain. -/
theorem C59_symmetric {cplx : Bool} {sym : HSym} {A : HTree R} {M : ℕ → ℕ → R} (h : A.Holds M)
    {gen : ℕ → ℕ → R} {num : List ℕ} {n : ℕ} (hn : A.label.tsz = n) (hs : A.label.ssz = n) (hN : n ≤ num.length)
    (hM : ∀ i < n, ∀ j < n, M (A.label.toff + i) (A.label.soff + j) = gen (num.getD i 0) (num.getD j 0))
    (hcov : ∀ i < n, ∀ j ≤ i, ∃ l ∈ A.leaves, l.label.Has (A.label.toff + i) (A.label.soff + j)) :
    ∀ i < num.length, ∀ j ≤ i, (denseAddOverlap cplx sym A gen num).get i j = gen (num.getD i 0) (num.getD j 0) := by
  intro i hi j hj
  rw [denseAddOverlap_get h hn hs hN hi (by omega)]
  by_cases h1 : i < n ∧ j < n
  · rw [if_pos h1, if_pos (hcov i h1.1 j hj), hM i h1.1 j h1.2]
  · rw [if_neg h1, if_neg (fun h => h1 ⟨h.1, by omega⟩)]

omit [StarRing R] in
/-- **C59**, coefficients given to the local H-matrix: those of the global generator at the global numbers. -/
theorem C59_local_generator (gen : ℕ → ℕ → R) (tnum snum rows cols : List ℕ) :
    (localGen gen tnum snum rows cols).nr = rows.length ∧ (localGen gen tnum snum rows cols).nc = cols.length ∧
      ∀ i < rows.length, ∀ j < cols.length, (localGen gen tnum snum rows cols).get i j = gen (tnum.getD (rows.getD i 0) 0) (snum.getD (cols.getD j 0) 0) := by
  have g : ∀ (l m : List ℕ) (i : ℕ), i < m.length → (m.map fun i => l.getD i 0).getD i 0 = l.getD (m.getD i 0) 0 := by
    intro l m i hi
    rw [List.getD_eq_getElem _ _ (by rw [List.length_map]; exact hi), List.getElem_map, List.getD_eq_getElem _ _ hi]
  refine ⟨List.length_map _, List.length_map _, fun i hi j hj => ?_⟩
  unfold localGen
  rw [genSub_get (by rw [List.length_map]; exact hi), g _ _ _ hi, g _ _ _ hj]

/-- **C59**, local H-matrix with overlap: its conversion to a dense matrix contains the coefficients between all the unknowns of the subdomain, in its
numbering. `M` is the matrix of the local generator, permuted by the local cluster tree. -/
theorem C59_local_hmatrix {A : HTree R} {M : ℕ → ℕ → R} (h : A.Holds M) {perm num : List ℕ} {gen : ℕ → ℕ → R} (hs : A.label.ssz = A.label.tsz)
    (ho : A.label.soff = A.label.toff) (hp : LocalPerm perm A.label.toff A.label.tsz)
    (hsame : (getLeavesH A).2 ≠ [] → A.label.symL ≠ .N)
    (hmir : ∀ l ∈ (getLeavesH A).2, Inside (l.label.soff, l.label.ssz) (A.label.toff, A.label.tsz) ∧
      Inside (l.label.toff, l.label.tsz) (A.label.soff, A.label.ssz))
    (hM : ∀ l ∈ (getLeavesH A).2, ∀ i j, l.label.Has i j → M j i = if A.label.symL = .S then M i j else star (M i j))
    (hcov : ∀ i j, A.label.Has i j → (∃ l ∈ (getLeavesH A).1, l.label.Has i j) ∨ ∃ l ∈ (getLeavesH A).2, l.label.Has j i)
    (hgen : ∀ i < A.label.tsz, ∀ j < A.label.tsz, M (A.label.toff + i) (A.label.toff + j) =
      gen (num.getD (userIdx perm A.label.toff i) 0) (num.getD (userIdx perm A.label.toff j) 0)) :
    (denseWithOverlap perm A).nr = A.label.tsz ∧ (denseWithOverlap perm A).nc = A.label.tsz ∧
      ∀ i < A.label.tsz, ∀ j < A.label.tsz, (denseWithOverlap perm A).get i j = gen (num.getD i 0) (num.getD j 0) := by
  refine ⟨rfl, rfl, fun i hi j hj => ?_⟩
  have key := (C23_copy_to_dense_in_user_numbering h hp (by rw [hs, ho]; exact hp) (fun h => ⟨rfl, hsame h⟩) hmir hM hcov (Mat.mk' A.label.tsz A.label.tsz (0 : R)).data).1
  obtain ⟨a, ha, rfl⟩ := userIdx_surj hp hi
  obtain ⟨b, hb, rfl⟩ := userIdx_surj hp hj
  have := key a ha b (by rw [hs]; exact hb)
  rw [ho] at this
  rw [← hgen a ha b hb]
  exact this

end dense

section solver
variable [CommRing R] [StarRing R]

/-- Contract of LAPACK `getrf` followed by `getrs` for an invertible matrix: the result has the size of `B` and solves `op(A) X = B`. -/
def DenseLU.OK (E : DenseLU R) : Prop := ∀ (tr : Trans) (A B : Mat R) (n m : ℕ), A.nr = n → A.nc = n → B.nr = n → B.nc = m → Nonsing A.get 0 n →
  (E.getrf A).1.nr = n ∧ (E.getrf A).1.nc = n ∧ (∀ q, n * m ≤ q → (E.getrs tr (E.getrf A).1 (E.getrf A).2 B).data q = B.data q) ∧
  ∀ i < n, ∀ k < m, ∑ l ∈ range n, opE tr A.get i l * (E.getrs tr (E.getrf A).1 (E.getrf A).2 B).data (l + k * n) = B.get i k

/-- **C59**, `LocalDenseSolver`: `numfact` followed by `solve` solves the system for every number of right-hand sides and writes nothing after the solution. -/
theorem C59_dense_solver {E : DenseLU R} (hE : E.OK) {A : Mat R} {n : ℕ} (h1 : A.nr = n) (h2 : A.nc = n) (hA : Nonsing A.get 0 n) (b x : Buf R) (mu : ℕ) :
    (∀ k < mu, ∀ i < n, ∑ l ∈ range n, A.get i l * denseSolve E (E.getrf A) b x mu (k * n + l) = b (k * n + i)) ∧
      ∀ q, mu * n ≤ q → denseSolve E (E.getrf A) b x mu q = x q := by
  obtain ⟨e1, e2, e3, e4⟩ := hE .N A ⟨n, mu, copyN (n * mu) b x⟩ n mu h1 h2 rfl rfl hA
  unfold denseSolve
  rw [e2]
  refine ⟨fun k hk i hi => ?_, fun q hq => ?_⟩
  · have := e4 i hi k hk
    have kb : Mat.get ⟨n, mu, copyN (n * mu) b x⟩ i k = b (k * n + i) := by
      unfold Mat.get copyN
      simp only
      have : (k + 1) * n ≤ mu * n := Nat.mul_le_mul_right _ hk
      rw [Nat.succ_mul] at this
      rw [if_pos (by rw [Nat.mul_comm n]; omega), Nat.add_comm]
    rw [← kb, ← this]
    exact sum_congr rfl fun l _ => by rw [Nat.add_comm (k * n)]; rfl
  · rw [e3 q (by rw [Nat.mul_comm]; exact hq)]
    exact if_neg (by rw [Nat.mul_comm n]; omega)

/-- Operations which satisfy the contract exist over every ring. -/
theorem denseLU_exists : ∃ E : DenseLU R, E.OK := by
  classical
  have ex : ∀ (tr : Trans) (A B : Mat R), ∃ Y : Mat R, ∀ n m, A.nr = n → A.nc = n → B.nr = n → B.nc = m → Nonsing A.get 0 n →
      (∀ q, n * m ≤ q → Y.data q = B.data q) ∧ ∀ i < n, ∀ k < m, ∑ l ∈ range n, opE tr A.get i l * Y.data (l + k * n) = B.get i k := by
    intro tr A B
    by_cases hA : A.nc = A.nr ∧ B.nr = A.nr ∧ Nonsing A.get 0 A.nr
    · obtain ⟨a1, a2, a3⟩ := hA
      generalize hn : A.nr = n at a1 a2 a3
      have hdet : IsUnit (Matrix.of fun i j : Fin n => opE tr A.get i j).det := by
        have a4 : IsUnit (Matrix.of fun i j : Fin n => A.get i j).det := by
          unfold Nonsing at a3
          have e : subM A.get 0 (n - 0) = Matrix.of fun i j : Fin n => A.get i j := by
            ext i j
            show A.get (0 + i) (0 + j) = A.get i j
            rw [Nat.zero_add, Nat.zero_add]
          exact e ▸ a3
        cases tr with
        | N => exact a4
        | T => rw [← Matrix.det_transpose] at a4; exact a4
        | C =>
          have := (Matrix.det_conjTranspose (Matrix.of fun i j : Fin n => A.get i j)) ▸ a4.star
          exact this
      set Q := Matrix.of fun i j : Fin n => opE tr A.get i j with hQ
      let Y := Q⁻¹ * Matrix.of fun (i : Fin n) (k : Fin B.nc) => B.get i k
      have hY : Q * Y = Matrix.of fun (i : Fin n) (k : Fin B.nc) => B.get i k := by
        rw [← Matrix.mul_assoc, Matrix.mul_nonsing_inv _ hdet, Matrix.one_mul]
      refine ⟨⟨n, B.nc, fun q => if h : q % n < n ∧ q / n < B.nc then Y ⟨q % n, h.1⟩ ⟨q / n, h.2⟩ else B.data q⟩, fun n' m h1 h2 h3 h4 _ => ?_⟩
      obtain rfl : n = n' := h1
      subst h4
      refine ⟨fun q hq => ?_, fun i hi k hk => ?_⟩
      · refine dif_neg fun h => ?_
        have : q < n * B.nc := by
          rcases Nat.eq_zero_or_pos n with rfl | hp
          · exact absurd h.1 (by omega)
          · have := (Nat.div_lt_iff_lt_mul hp).1 h.2
            rw [Nat.mul_comm]; exact this
        omega
      · have := congrFun (congrFun hY ⟨i, hi⟩) ⟨k, hk⟩
        rw [Matrix.mul_apply] at this
        refine Eq.trans ?_ this
        rw [sum_range]
        refine sum_congr rfl fun l _ => ?_
        show _ * dite _ _ _ = opE tr A.get i l * Y l ⟨k, hk⟩
        have q1 : ((l : ℕ) + k * n) % n = l := by rw [Nat.add_mul_mod_self_right, Nat.mod_eq_of_lt l.2]
        have q2 : ((l : ℕ) + k * n) / n = k := by rw [Nat.add_mul_div_right _ _ (by omega), Nat.div_eq_of_lt l.2, Nat.zero_add]
        rw [dif_pos ⟨by rw [q1]; exact l.2, by rw [q2]; exact hk⟩]
        congr 2
        · exact Fin.ext q1
        · exact Fin.ext q2
    · refine ⟨B, fun n m h1 h2 h3 h4 h5 => absurd ⟨h2.trans h1.symm, h3.trans h1.symm, h1 ▸ h5⟩ hA⟩
  choose Y hY using ex
  refine ⟨⟨fun A => (A, []), fun tr A _ B => Y tr A B⟩, fun tr A B n m h1 h2 h3 h4 h5 => ?_⟩
  obtain ⟨y1, y2⟩ := hY tr A B n m h1 h2 h3 h4 h5
  exact ⟨h1, h2, y1, y2⟩

/-- The hypotheses of the dense solver hold for `min(i, j) + 1`. -/
example : ∃ (E : DenseLU ℚ) (A : Mat ℚ), E.OK ∧ A.nr = 5 ∧ A.nc = 5 ∧ Nonsing A.get 0 5 := by
  obtain ⟨E, hE⟩ := denseLU_exists (R := ℚ)
  refine ⟨E, matFun 5 5 (fun i j => ((min i j + 1 : ℕ) : ℚ)), hE, rfl, rfl, (nonsing_congr fun i hi j hj => ?_).2 (min_nonsing ℚ 5)⟩
  rw [matFun_get _ _ _ (by have := (mem_Ico.1 hi).2; omega)]

end solver

/-- A generator whose coefficients on the subdomain 10, ..., 15 are those of `exHermM` inside. -/
def exGen59 (a b : ℕ) : GaussianInt := if a < 14 ∧ b < 14 then exHermM (a - 10) (b - 10) else ⟨a, b⟩

/-- The hypotheses of the theorem about symmetric operators hold for the Hermitian H-matrix `exHerm` of size 4 with an overlap of size 2. -/
example : ∀ i < 6, ∀ j ≤ i, (denseAddOverlap true .H exHerm exGen59 [10, 11, 12, 13, 14, 15]).get i j = exGen59 (10 + i) (10 + j) := by
  intro i hi j hj
  have g : ∀ k < 6, [10, 11, 12, 13, 14, 15].getD k 0 = 10 + k := by decide
  rw [C59_symmetric exHerm_holds (num := [10, 11, 12, 13, 14, 15]) (n := 4) rfl rfl (by decide) (by decide +kernel) (by decide +kernel) i hi j hj, g i hi,
    g j (by omega)]

/-- An H-matrix with one dense leaf. -/
def exFull59 : HTree GaussianInt := .node ⟨0, 2, 0, 2, .N, .N, .N, .N, .dense (fun i j => ⟨i, 3 * j⟩)⟩ []

example : ∀ i < 3, ∀ j < 3, (denseAddOverlap false .N exFull59 (fun a b => ⟨a - 7, 3 * (b - 7)⟩) [7, 8, 9]).get i j = ⟨i, 3 * j⟩ := by
  intro i hi j hj
  have g : ∀ k < 3, [7, 8, 9].getD k 0 = 7 + k := by decide
  have hh : exFull59.Holds fun i j => ⟨i, 3 * j⟩ := by
    have hl : ∀ l ∈ exFull59.leaves, l = exFull59 := fun l hl => by
      simp only [exFull59, Tree.leaves, List.mem_singleton] at hl ⊢
      exact hl
    refine ⟨fun l h => ?_, fun l h i j _ => ?_⟩
    · rw [hl l h]; exact ⟨⟨le_rfl, le_rfl⟩, le_rfl, le_rfl⟩
    · rw [hl l h]; rfl
  rw [(C59_unsymmetric (by decide) hh (num := [7, 8, 9]) (n := 2) rfl rfl (by decide) (by decide +kernel) (by decide +kernel)).2.2 i hi j hj, g i hi, g j hj]
  simp
end Htool
