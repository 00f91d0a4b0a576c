import Verif.IntRange
import Mathlib.Tactic.NormNum

/-! # C77: matrices of every size -/

namespace Htool.IntRange
variable {R : Type*}

/-! ## Specification: a matrix is a function of the row and of the column -/

/-- What an assignment to the entries of an `nr × nc` matrix may be: positions inside, vectors of the right length. -/
def Op.InRange (nr nc : ℤ) : Op R → Prop
  | .put j k _ => 0 ≤ j ∧ j < nr ∧ 0 ≤ k ∧ k < nc
  | .setRow r a => 0 ≤ r ∧ r < nr ∧ (a.length : ℤ) = nc
  | .setCol c a => 0 ≤ c ∧ c < nc ∧ (a.length : ℤ) = nr
  | .fill _ => True

/-- The matrix after an assignment. -/
def Op.spec (M : ℤ → ℤ → R) : Op R → ℤ → ℤ → R
  | .put j k x => fun i l => if i = j ∧ l = k then x else M i l
  | .setRow r a => fun i l => if i = r then a.getD l.toNat (M i l) else M i l
  | .setCol c a => fun i l => if l = c then a.getD i.toNat (M i l) else M i l
  | .fill v => fun _ _ => v

/-- The storage holds the matrix `M`. -/
structure Holds (A : IMat R) (nr nc : ℤ) (M : ℤ → ℤ → R) : Prop where
  rows : A.nr = nr
  cols : A.nc = nc
  len : (A.data.length : ℤ) = nr * nc
  val : ∀ j k, 0 ≤ j → j < nr → 0 ≤ k → k < nc → A.data[(j + k * nr).toNat]? = some (M j k)

theorem int_some {x : ℤ} (h0 : 0 ≤ x) (h : x < 2147483648) : int x = some x := by
  unfold int; rw [if_pos (by omega)]

theorem pos_lt {nr nc j k : ℤ} (h1 : 0 ≤ j) (h2 : j < nr) (h3 : 0 ≤ k) (h4 : k < nc) : 0 ≤ j + k * nr ∧ j + k * nr < nr * nc ∧ 0 ≤ k * nr := by
  refine ⟨by nlinarith, by nlinarith, by nlinarith⟩

theorem pos_inj {nr j k j' k' : ℤ} (h1 : 0 ≤ j) (h2 : j < nr) (h1' : 0 ≤ j') (h2' : j' < nr) (h : j + k * nr = j' + k' * nr) : j = j' ∧ k = k' := by
  have hk : k = k' := by
    rcases lt_trichotomy k k' with hlt | he | hlt
    · exfalso; nlinarith
    · exact he
    · exfalso; nlinarith
  subst hk
  exact ⟨by linarith, rfl⟩

theorem idx_some {A : IMat R} {nr nc : ℤ} (hA : A.nr = nr) (hs : nr * nc < 2147483648) {j k : ℤ} (h1 : 0 ≤ j) (h2 : j < nr) (h3 : 0 ≤ k) (h4 : k < nc) :
    idx A j k = some (j + k * nr) := by
  obtain ⟨a, b, c⟩ := pos_lt h1 h2 h3 h4
  unfold idx
  rw [hA, int_some c (by omega)]
  exact int_some a (by omega)

theorem Holds.get {A : IMat R} {nr nc : ℤ} {M : ℤ → ℤ → R} (h : Holds A nr nc M) (hs : nr * nc < 2147483648) {j k : ℤ}
    (h1 : 0 ≤ j) (h2 : j < nr) (h3 : 0 ≤ k) (h4 : k < nc) : get A j k = some (M j k) := by
  obtain ⟨a, -, -⟩ := pos_lt h1 h2 h3 h4
  unfold IntRange.get
  rw [idx_some h.rows hs h1 h2 h3 h4]
  show load A _ = _
  unfold load
  rw [if_neg (by omega), h.val j k h1 h2 h3 h4]

/-- Storing at the position of `(j, k)`. -/
theorem Holds.store {A : IMat R} {nr nc : ℤ} {M : ℤ → ℤ → R} (h : Holds A nr nc M) {j k : ℤ}
    (h1 : 0 ≤ j) (h2 : j < nr) (h3 : 0 ≤ k) (h4 : k < nc) (x : R) :
    ∃ B, store A (j + k * nr) x = some B ∧ Holds B nr nc (fun i l => if i = j ∧ l = k then x else M i l) := by
  obtain ⟨a, b, -⟩ := pos_lt h1 h2 h3 h4
  refine ⟨{ A with data := A.data.set (j + k * nr).toNat x }, ?_, h.rows, h.cols, by simpa using h.len, ?_⟩
  · unfold IntRange.store; rw [if_neg (by rw [h.len]; omega)]
  · intro i l g1 g2 g3 g4
    obtain ⟨a', b', -⟩ := pos_lt g1 g2 g3 g4
    show (A.data.set _ x)[_]? = _
    rw [List.getElem?_set]
    have hl := h.len
    by_cases he : i = j ∧ l = k
    · obtain ⟨rfl, rfl⟩ := he
      rw [if_pos rfl, if_pos (by omega), if_pos ⟨rfl, rfl⟩]
    · rw [if_neg, if_neg he, h.val i l g1 g2 g3 g4]
      intro hp
      refine he ?_
      have : j + k * nr = i + l * nr := by omega
      obtain ⟨e1, e2⟩ := pos_inj h1 h2 g1 g2 this
      exact ⟨e1.symm, e2.symm⟩

theorem Holds.congr {A : IMat R} {nr nc : ℤ} {M N : ℤ → ℤ → R} (h : Holds A nr nc M)
    (he : ∀ j k, 0 ≤ j → j < nr → 0 ≤ k → k < nc → M j k = N j k) : Holds A nr nc N :=
  ⟨h.rows, h.cols, h.len, fun j k h1 h2 h3 h4 => by rw [h.val j k h1 h2 h3 h4, he j k h1 h2 h3 h4]⟩

theorem setRow_loop {nr nc : ℤ} {r : ℤ} (h1 : 0 ≤ r) (h2 : r < nr) : ∀ (a : List R) (k : ℤ) (A : IMat R) (M : ℤ → ℤ → R), Holds A nr nc M → 0 ≤ k →
    k + a.length = nc → ∃ B, setStrided nr a (r + k * nr) A = some B ∧
      Holds B nr nc (fun i l => if i = r ∧ k ≤ l then a.getD (l - k).toNat (M i l) else M i l)
  | [], k, A, M, h, hk, hl => by
    refine ⟨A, rfl, h.congr ?_⟩
    intro j l g1 g2 g3 g4
    simp
  | x :: a, k, A, M, h, hk, hl => by
    simp only [List.length_cons, Nat.cast_add, Nat.cast_one] at hl
    obtain ⟨B, hB, hB'⟩ := h.store h1 h2 hk (by omega) x
    obtain ⟨C, hC, hC'⟩ := setRow_loop h1 h2 a (k + 1) B _ hB' (by omega) (by omega)
    refine ⟨C, ?_, hC'.congr ?_⟩
    · show (store A (r + k * nr) x).bind _ = _
      rw [hB]
      have : r + k * nr + nr = r + (k + 1) * nr := by ring
      show setStrided nr a (r + k * nr + nr) B = _
      rw [this, hC]
    · intro i l g1 g2 g3 g4
      by_cases hi : i = r
      · subst hi
        rcases lt_trichotomy l k with hlt | rfl | hlt
        · simp only [show ¬ k + 1 ≤ l by omega, show ¬ k ≤ l by omega, show l ≠ k by omega, and_false, if_false]
        · simp
        · have : (l - k).toNat = (l - (k + 1)).toNat + 1 := by omega
          simp only [show k + 1 ≤ l by omega, show k ≤ l by omega, show l ≠ k by omega, and_false, true_and, if_true, if_false, this, List.getD_cons_succ]
      · simp only [hi, false_and, if_false]

theorem setCol_loop {nr nc : ℤ} {c : ℤ} (h1 : 0 ≤ c) (h2 : c < nc) : ∀ (a : List R) (j : ℤ) (A : IMat R) (M : ℤ → ℤ → R), Holds A nr nc M → 0 ≤ j →
    j + a.length = nr → ∃ B, setStrided 1 a (j + c * nr) A = some B ∧
      Holds B nr nc (fun i l => if l = c ∧ j ≤ i then a.getD (i - j).toNat (M i l) else M i l)
  | [], j, A, M, h, hk, hl => by
    refine ⟨A, rfl, h.congr ?_⟩
    intro j l g1 g2 g3 g4
    simp
  | x :: a, j, A, M, h, hk, hl => by
    simp only [List.length_cons, Nat.cast_add, Nat.cast_one] at hl
    obtain ⟨B, hB, hB'⟩ := h.store hk (by omega) h1 h2 x
    obtain ⟨C, hC, hC'⟩ := setCol_loop h1 h2 a (j + 1) B _ hB' (by omega) (by omega)
    refine ⟨C, ?_, hC'.congr ?_⟩
    · show (store A (j + c * nr) x).bind _ = _
      rw [hB]
      have : j + c * nr + 1 = j + 1 + c * nr := by ring
      show setStrided 1 a (j + c * nr + 1) B = _
      rw [this, hC]
    · intro i l g1 g2 g3 g4
      by_cases hl' : l = c
      · subst hl'
        rcases lt_trichotomy i j with hlt | rfl | hlt
        · simp only [show ¬ j + 1 ≤ i by omega, show ¬ j ≤ i by omega, show i ≠ j by omega, and_false, false_and, if_false]
        · simp
        · have : (i - j).toNat = (i - (j + 1)).toNat + 1 := by omega
          simp only [show j + 1 ≤ i by omega, show j ≤ i by omega, show i ≠ j by omega, false_and, true_and, if_true, if_false, this, List.getD_cons_succ]
      · simp only [hl', false_and, and_false, if_false]

theorem Holds.step {A : IMat R} {nr nc : ℤ} {M : ℤ → ℤ → R} (h : Holds A nr nc M) (hn : 0 ≤ nr) (hm : 0 ≤ nc) (hs : nr * nc < 2147483648) {o : Op R}
    (ho : o.InRange nr nc) : ∃ B, step A o = some B ∧ Holds B nr nc (o.spec M) := by
  cases o with
  | put j k x =>
    obtain ⟨h1, h2, h3, h4⟩ := ho
    obtain ⟨B, hB, hB'⟩ := h.store h1 h2 h3 h4 x
    refine ⟨B, ?_, hB'⟩
    show (idx A j k).bind _ = _
    rw [idx_some h.rows hs h1 h2 h3 h4]; exact hB
  | setRow r a =>
    obtain ⟨h1, h2, h3⟩ := ho
    obtain ⟨B, hB, hB'⟩ := setRow_loop h1 h2 a 0 A M h (le_refl _) (by omega)
    refine ⟨B, ?_, hB'.congr ?_⟩
    · show setRow A r a = _
      unfold setRow
      rw [if_pos (by rw [h3, h.cols]), h.rows]
      simpa using hB
    · intro i l g1 g2 g3 g4
      simp only [Op.spec, g3, and_true, sub_zero]
  | setCol c a =>
    obtain ⟨h1, h2, h3⟩ := ho
    obtain ⟨B, hB, hB'⟩ := setCol_loop h1 h2 a 0 A M h (le_refl _) (by omega)
    refine ⟨B, ?_, hB'.congr ?_⟩
    · show setCol A c a = _
      unfold setCol
      rw [if_pos (by rw [h3, h.rows]), h.rows, int_some (by positivity) (by nlinarith)]
      simpa using hB
    · intro i l g1 g2 g3 g4
      simp only [Op.spec, g1, and_true, sub_zero]
  | fill v =>
    have hl := h.len
    show ∃ B, fillAll A v = some B ∧ _
    unfold fillAll
    rw [h.rows, h.cols, int_some (by positivity) hs]
    show ∃ B, (if 0 < nr * nc then _ else _) = some B ∧ _
    by_cases h0 : 0 < nr * nc
    · rw [if_pos h0, if_pos (by omega)]
      have e : A.data.drop (nr * nc).toNat = [] := List.drop_eq_nil_of_le (by omega)
      refine ⟨_, rfl, rfl, rfl, ?_, ?_⟩
      · simp only [e, List.append_nil, List.length_replicate]; omega
      · intro j k h1 h2 h3 h4
        obtain ⟨a, b, -⟩ := pos_lt h1 h2 h3 h4
        simp only [e, List.append_nil]
        rw [List.getElem?_replicate, if_pos (by omega)]; rfl
    · rw [if_neg h0]
      refine ⟨A, rfl, h.congr ?_⟩
      intro j k h1 h2 h3 h4
      exact absurd (pos_lt h1 h2 h3 h4).2.1 (by have := (pos_lt h1 h2 h3 h4).1; omega)

theorem Holds.run {nr nc : ℤ} (hn : 0 ≤ nr) (hm : 0 ≤ nc) (hs : nr * nc < 2147483648) : ∀ (os : List (Op R)) {A : IMat R} {M : ℤ → ℤ → R}, Holds A nr nc M →
    (∀ o ∈ os, o.InRange nr nc) → ∃ B, run A os = some B ∧ Holds B nr nc (os.foldl Op.spec M)
  | [], A, M, h, _ => ⟨A, rfl, h⟩
  | o :: os, A, M, h, ho => by
    obtain ⟨B, h1, h2⟩ := h.step hn hm hs (ho o (by simp))
    obtain ⟨C, h3, h4⟩ := Holds.run hn hm hs os h2 (fun o' h' => ho o' (by simp [h']))
    refine ⟨C, ?_, h4⟩
    show (IntRange.step A o).bind _ = _
    rw [h1]; exact h3

theorem Holds.strided_row {A : IMat R} {nr nc : ℤ} {M : ℤ → ℤ → R} (h : Holds A nr nc M) {r : ℤ} (h1 : 0 ≤ r) (h2 : r < nr) :
    ∀ (n : ℕ) (k : ℤ), 0 ≤ k → k + n = nc → strided A nr n (r + k * nr) = some ((List.range n).map fun l : ℕ => M r (k + (l : ℤ)))
  | 0, _, _, _ => rfl
  | n + 1, k, hk, hn => by
    obtain ⟨a, -, -⟩ := pos_lt h1 h2 hk (show k < nc by omega)
    have e : r + k * nr + nr = r + (k + 1) * nr := by ring
    show (load A (r + k * nr)).bind _ = _
    unfold load
    rw [if_neg (by omega), h.val r k h1 h2 hk (by omega)]
    show (strided A nr n (r + k * nr + nr)).map _ = _
    rw [e, h.strided_row h1 h2 n (k + 1) (by omega) (by push_cast at hn ⊢; omega), List.range_succ_eq_map, List.map_cons, List.map_map]
    simp only [Option.map_some, Nat.cast_zero, add_zero, Option.some.injEq, List.cons.injEq, true_and]
    refine List.map_congr_left fun l _ => ?_
    simp only [Function.comp, Nat.cast_succ]
    congr 1; ring

theorem Holds.strided_col {A : IMat R} {nr nc : ℤ} {M : ℤ → ℤ → R} (h : Holds A nr nc M) {c : ℤ} (h1 : 0 ≤ c) (h2 : c < nc) :
    ∀ (n : ℕ) (j : ℤ), 0 ≤ j → j + n = nr → strided A 1 n (j + c * nr) = some ((List.range n).map fun i : ℕ => M (j + (i : ℤ)) c)
  | 0, _, _, _ => rfl
  | n + 1, j, hj, hn => by
    obtain ⟨a, -, -⟩ := pos_lt hj (show j < nr by omega) h1 h2
    have e : j + c * nr + 1 = j + 1 + c * nr := by ring
    show (load A (j + c * nr)).bind _ = _
    unfold load
    rw [if_neg (by omega), h.val j c hj (by omega) h1 h2]
    show (strided A 1 n (j + c * nr + 1)).map _ = _
    rw [e, h.strided_col h1 h2 n (j + 1) (by omega) (by push_cast at hn ⊢; omega), List.range_succ_eq_map, List.map_cons, List.map_map]
    simp only [Option.map_some, Nat.cast_zero, add_zero, Option.some.injEq, List.cons.injEq, true_and]
    refine List.map_congr_left fun l _ => ?_
    simp only [Function.comp, Nat.cast_succ]
    congr 1; ring

/-- The property for dimensions `nr × nc`: the matrix can be created, and after every sequence of assignments (entries, rows, columns, all entries) every entry,
row and column read back is the one of the mathematical matrix. -/
def WorksFor (R : Type*) (nr nc : ℤ) : Prop :=
  ∀ (v : R) (os : List (Op R)), (∀ o ∈ os, o.InRange nr nc) → ∃ A B, mk nr nc v = some A ∧ run A os = some B ∧
    (∀ j k, 0 ≤ j → j < nr → 0 ≤ k → k < nc → get B j k = some (os.foldl Op.spec (fun _ _ => v) j k)) ∧
    (∀ r, 0 ≤ r → r < nr → getRow B r = some ((List.range nc.toNat).map fun l : ℕ => os.foldl Op.spec (fun _ _ => v) r (l : ℤ))) ∧
    ∀ c, 0 ≤ c → c < nc → getCol B c = some ((List.range nr.toNat).map fun i : ℕ => os.foldl Op.spec (fun _ _ => v) (i : ℤ) c)

/-- **C77 (exact range).** A `Matrix` works exactly for the dimensions whose product is less than 2³¹: then no index expression overflows and every history of
assignments is right; from 2³¹ entries on the constructor already has undefined behaviour, although both dimensions are valid `int`s. -/
theorem C77_exact_range_partial [Nonempty R] {nr nc : ℤ} (hn : 0 ≤ nr) (hm : 0 ≤ nc) : WorksFor R nr nc ↔ nr * nc < 2147483648 := by
  constructor
  · intro h
    obtain ⟨v⟩ := ‹Nonempty R›
    obtain ⟨A, B, h1, -⟩ := h v [] (by simp)
    by_contra hc
    unfold mk int at h1
    rw [if_neg (by omega)] at h1
    simp at h1
  · intro hs v os ho
    have h0 : 0 ≤ nr * nc := by positivity
    have hA : mk nr nc v = some ⟨nr, nc, List.replicate (nr * nc).toNat v⟩ := by
      unfold mk; rw [int_some h0 hs]
      show (if nr * nc < 0 then _ else _) = _
      rw [if_neg (by omega)]
    have hH : Holds (⟨nr, nc, List.replicate (nr * nc).toNat v⟩ : IMat R) nr nc (fun _ _ => v) := by
      refine ⟨rfl, rfl, by simp only [List.length_replicate]; omega, ?_⟩
      intro j k h1 h2 h3 h4
      obtain ⟨a, b, -⟩ := pos_lt h1 h2 h3 h4
      show (List.replicate _ v)[_]? = _
      rw [List.getElem?_replicate, if_pos (by omega)]
    obtain ⟨B, hB, hB'⟩ := Holds.run hn hm hs os hH ho
    refine ⟨_, B, hA, hB, fun j k h1 h2 h3 h4 => hB'.get hs h1 h2 h3 h4, ?_, ?_⟩
    · intro r h1 h2
      unfold getRow
      have := hB'.strided_row h1 h2 nc.toNat 0 (le_refl _) (by omega)
      rw [hB'.rows, hB'.cols]
      simpa using this
    · intro c h1 h2
      unfold getCol
      have := hB'.strided_col h1 h2 nr.toNat 0 (le_refl _) (by omega)
      rw [hB'.rows, int_some (by positivity) (by nlinarith)]
      simpa using this

/-- The full property: a `Matrix` works for all valid dimensions. -/
def C77_statement : Prop := ∀ nr nc : ℤ, 0 ≤ nr → nr ≤ 2147483647 → 0 ≤ nc → nc ≤ 2147483647 → WorksFor ℤ nr nc

/-- **C77 is false of the code**, for instance for a square matrix of dimension 46341 (all smaller square matrices work). -/
theorem C77_false : ¬ C77_statement ∧ (∀ n : ℤ, 0 ≤ n → (WorksFor ℤ n n ↔ n ≤ 46340)) := by
  constructor
  · intro h
    have := (C77_exact_range_partial (R := ℤ) (nr := 46341) (nc := 46341) (by norm_num) (by norm_num)).1 (h _ _ (by norm_num) (by norm_num) (by norm_num) (by norm_num))
    norm_num at this
  · intro n hn
    rw [C77_exact_range_partial hn hn]
    constructor
    · intro h; by_contra hc; nlinarith
    · intro h; nlinarith

/-- A history on a 3×2 matrix: its hypotheses are met and the entries are as expected. -/
example : (∀ o ∈ [Op.setRow 1 [7, 8], .put 2 1 9, .setCol 0 [1, 2, 3]], o.InRange (R := ℤ) 3 2) ∧
    ((mk 3 2 (0 : ℤ)).bind fun A => (run A [Op.setRow 1 [7, 8], .put 2 1 9, .setCol 0 [1, 2, 3]]).map IMat.data) = some [1, 2, 3, 0, 8, 9] := by
  refine ⟨?_, by decide +kernel⟩
  intro o ho
  simp only [List.mem_cons, List.not_mem_nil, or_false] at ho
  rcases ho with rfl | rfl | rfl <;> simp [Op.InRange]

end Htool.IntRange
