import Verif.Vectors
import Verif.Props.ClusterIO
import Verif.Props.Dense

/-! # Property C67: text exports -/

namespace Htool
namespace Text
open ClusterIO (Str getLines getLines_lines)

/-! ## `find` and `split` -/

theorem find_some {d : Str} : ∀ {s : Str} {p : ℕ}, find d s = some p → p ≤ s.length ∧ d <+: s.drop p ∧ ∀ q < p, ¬ d <+: s.drop q
  | [], p, h => by
    unfold find at h
    split_ifs at h with hd
    obtain rfl : 0 = p := by injection h
    rw [List.isEmpty_iff] at hd
    subst hd
    exact ⟨le_rfl, List.nil_prefix, fun q hq => absurd hq (Nat.not_lt_zero q)⟩
  | c :: s, p, h => by
    unfold find at h
    split_ifs at h with hd
    · obtain rfl : 0 = p := by injection h
      exact ⟨Nat.zero_le _, List.isPrefixOf_iff_prefix.1 hd, fun q hq => absurd hq (Nat.not_lt_zero q)⟩
    · cases hf : find d s with
      | none => rw [hf] at h; simp at h
      | some r =>
        rw [hf] at h
        obtain rfl : r + 1 = p := by simpa using h
        obtain ⟨h1, h2, h3⟩ := find_some hf
        refine ⟨by simpa using h1, by simpa using h2, fun q hq => ?_⟩
        cases q with
        | zero => exact fun hp => hd (List.isPrefixOf_iff_prefix.2 hp)
        | succ q => simpa using h3 q (by omega)

theorem find_none {d : Str} : ∀ {s : Str}, find d s = none → ∀ q ≤ s.length, ¬ d <+: s.drop q
  | [], h, q, hq => by
    unfold find at h
    split_ifs at h with hd
    intro hp
    rw [List.drop_nil] at hp
    exact hd (List.isEmpty_iff.2 (List.prefix_nil.1 hp))
  | c :: s, h, q, hq => by
    unfold find at h
    split_ifs at h with hd
    have hf : find d s = none := by simpa using h
    cases q with
    | zero => exact fun hp => hd (List.isPrefixOf_iff_prefix.2 hp)
    | succ q => simpa using find_none hf q (by simpa using hq)

theorem infix_drop {d x : Str} (h : d <:+: x) : ∃ q ≤ x.length, d <+: x.drop q := by
  obtain ⟨a, b, e⟩ := h
  refine ⟨a.length, by rw [← e]; simp, ⟨b, ?_⟩⟩
  rw [← e, List.append_assoc, List.drop_left]

/-- **C67.** For a nonempty delimiter `split` terminates; joining the pieces with the delimiter gives the text back and no piece contains the
delimiter. -/
theorem C67_split {d : Str} (hd : d ≠ []) (s : Str) :
    ∃ l, (∀ fuel, s.length < fuel → splitLoop d fuel s = some l) ∧ l ≠ [] ∧ List.intercalate d l = s ∧ ∀ x ∈ l, ¬ d <:+: x := by
  induction hn : s.length using Nat.strong_induction_on generalizing s with
  | _ n ih =>
    subst hn
    cases hf : find d s with
    | none =>
      refine ⟨[s], fun fuel h => ?_, by simp, by simp, ?_⟩
      · obtain ⟨f, rfl⟩ : ∃ f, fuel = f + 1 := ⟨fuel - 1, by omega⟩
        simp only [splitLoop, hf]
      · intro x hx hin
        rw [List.mem_singleton] at hx
        subst hx
        obtain ⟨q, hq, hp⟩ := infix_drop hin
        exact find_none hf q hq hp
    | some p =>
      obtain ⟨h1, ⟨r, h2⟩, h3⟩ := find_some hf
      have hdl : 0 < d.length := List.length_pos_iff.2 hd
      have hr : s.drop (p + d.length) = r := by
        rw [← List.drop_drop, ← h2, List.drop_left]
      have hlen : r.length + d.length + p = s.length := by
        have := congrArg List.length h2
        simp at this
        omega
      obtain ⟨l, k1, k2, k3, k4⟩ := ih r.length (by omega) r rfl
      refine ⟨s.take p :: l, fun fuel h => ?_, by simp, ?_, ?_⟩
      · obtain ⟨f, rfl⟩ : ∃ f, fuel = f + 1 := ⟨fuel - 1, by omega⟩
        simp only [splitLoop, hf]
        rw [hr, k1 f (by omega)]
        rfl
      · rw [List.intercalate_cons_of_ne_nil k2, k3, List.append_assoc, h2, List.take_append_drop]
      · intro x hx
        rcases List.mem_cons.1 hx with rfl | hx
        · intro hin
          obtain ⟨q, hq, hp⟩ := infix_drop hin
          have e : s.drop q = (s.take p).drop q ++ s.drop p := by
            conv_lhs => rw [← List.take_append_drop p s]
            rw [List.drop_append_of_le_length hq]
          have hq' : q ≤ p := by simp at hq; omega
          rcases Nat.lt_or_ge q p with hlt | hge
          · exact h3 q hlt (e ▸ hp.trans (List.prefix_append _ _))
          · obtain rfl : q = p := le_antisymm hq' hge
            have : (s.take q).drop q = [] := List.drop_eq_nil_of_le (by simp)
            rw [this] at hp
            exact hd (List.prefix_nil.1 hp)
        · exact k4 x hx

/-- **C67 fails for an empty delimiter.** `split` never returns. -/
theorem C67_split_empty_delimiter_never_returns (s : Str) (fuel : ℕ) : splitLoop [] fuel s = none := by
  induction fuel generalizing s with
  | zero => rfl
  | succ f ih =>
    have : find [] s = some 0 := by cases s <;> rfl
    simp only [splitLoop, this, ih]
    rfl

/-! ## `join` -/

/-- **C67.** `join` puts the delimiter between the texts, but leaves out the empty texts at the beginning. -/
theorem C67_join_drops_leading_empty (d : Str) (x : List Str) : join d x = List.intercalate d (x.dropWhile List.isEmpty) := by
  have tail : ∀ (x : List Str) (ss : Str), ss ≠ [] → x.foldl (fun ss s => if ss.isEmpty then s else ss ++ d ++ s) ss = List.intercalate d (ss :: x) := by
    intro x
    induction x with
    | nil => intro ss _; simp
    | cons y x ih =>
      intro ss hss
      have hf : ss.isEmpty = false := by simpa using hss
      rw [List.foldl_cons, hf, if_neg (by simp), ih _ (by simp [hss]), List.intercalate_cons_cons]
      cases x with
      | nil => simp
      | cons z x => simp [List.intercalate_cons_cons]
  unfold join
  induction x with
  | nil => simp [List.intercalate]
  | cons y x ih =>
    rw [List.foldl_cons]
    simp only [List.isEmpty_nil, if_true]
    cases y with
    | nil => simpa using ih
    | cons c y => rw [tail x (c :: y) (by simp)]; simp

/-- Full statement: `join` undoes `split`. -/
def C67_join_split_statement : Prop :=
  ∀ (d s : Str) (fuel : ℕ) (l : List Str), d ≠ [] → splitLoop d fuel s = some l → join d l = s

/-- **C67 fails for a text which begins with the delimiter.** -/
theorem C67_join_split_fails : ¬ C67_join_split_statement := by
  intro h
  have := h [','] [',', 'a'] 5 [[], ['a']] (by simp) (by decide)
  exact absurd this (by decide)

theorem splitLoop_mono {d : Str} : ∀ {f : ℕ} {s : Str} {l : List Str}, splitLoop d f s = some l → ∀ g, f ≤ g → splitLoop d g s = some l
  | 0, s, l, h, g, _ => by simp [splitLoop] at h
  | f + 1, s, l, h, g, hg => by
    obtain ⟨g, rfl⟩ : ∃ k, g = k + 1 := ⟨g - 1, by omega⟩
    unfold splitLoop at h ⊢
    cases hf : find d s with
    | none => rw [hf] at h; exact h
    | some p =>
      rw [hf] at h
      simp only at h ⊢
      cases hk : splitLoop d f (s.drop (p + d.length)) with
      | none => rw [hk] at h; simp at h
      | some k =>
        rw [hk] at h
        rw [splitLoop_mono hk g (by omega)]
        exact h

/-- **C67 (what holds).** `join` undoes `split` on every text which does not begin with the delimiter. -/
theorem C67_join_split_partial (d s : Str) (fuel : ℕ) (l : List Str) (hd : d ≠ []) (hs : ¬ d <+: s) (h : splitLoop d fuel s = some l) : join d l = s := by
  obtain ⟨k, h1, h2, h3, h4⟩ := C67_split hd s
  obtain rfl : l = k := by
    have a := splitLoop_mono h (max fuel (s.length + 1)) (le_max_left _ _)
    rw [h1 _ (lt_of_lt_of_le (Nat.lt_succ_self _) (le_max_right _ _))] at a
    injection a with a
    exact a.symm
  rw [C67_join_drops_leading_empty]
  cases l with
  | nil => exact absurd rfl h2
  | cons y x =>
    cases y with
    | cons c y => rw [← h3]; simp
    | nil =>
      cases x with
      | nil => simpa [List.intercalate] using h3
      | cons z x =>
        rw [List.intercalate_cons_cons] at h3
        exact absurd ⟨_, by simpa using h3⟩ hs

/-! ## Matrices -/

theorem find_eq {d s : Str} {p : ℕ} (hp : p ≤ s.length) (h : d <+: s.drop p) (h' : ∀ q < p, ¬ d <+: s.drop q) : find d s = some p := by
  cases hf : find d s with
  | none => exact absurd h (find_none hf p hp)
  | some q =>
    obtain ⟨-, h2, h3⟩ := find_some hf
    rcases Nat.lt_trichotomy p q with hlt | rfl | hlt
    · exact absurd h (h3 p hlt)
    · rfl
    · exact absurd h2 (h' q hlt)

theorem not_prefix_of_head {c : Char} {d x r : Str} {q : ℕ} (hq : q < x.length) (hx : c ∉ x) : ¬ (c :: d) <+: (x ++ r).drop q := by
  rw [List.drop_append_of_le_length hq.le, List.drop_eq_getElem_cons hq, List.cons_append]
  intro hp
  have := List.cons_prefix_cons.1 hp
  exact hx (this.1 ▸ List.getElem_mem hq)

/-- Texts without the first character of the delimiter are recovered by `split`. -/
theorem split_intercalate {c : Char} {d : Str} : ∀ {xs : List Str}, xs ≠ [] → (∀ x ∈ xs, c ∉ x) → ∀ fuel, (List.intercalate (c :: d) xs).length < fuel →
    splitLoop (c :: d) fuel (List.intercalate (c :: d) xs) = some xs
  | [], h, _, _, _ => absurd rfl h
  | [x], _, hx, fuel, hf => by
    obtain ⟨f, rfl⟩ : ∃ f, fuel = f + 1 := ⟨fuel - 1, by omega⟩
    have e : List.intercalate (c :: d) [x] = x := by simp
    rw [e]
    have : find (c :: d) x = none := by
      cases hf : find (c :: d) x with
      | none => rfl
      | some q =>
        obtain ⟨h1, h2, -⟩ := find_some hf
        rcases Nat.lt_or_ge q x.length with hlt | hge
        · have := not_prefix_of_head (d := d) (r := []) hlt (hx x (by simp))
          rw [List.append_nil] at this
          exact absurd h2 this
        · rw [List.drop_eq_nil_of_le hge] at h2
          exact absurd (List.prefix_nil.1 h2) (by simp)
    simp only [splitLoop, this]
  | x :: y :: ys, _, hx, fuel, hf => by
    obtain ⟨f, rfl⟩ : ∃ f, fuel = f + 1 := ⟨fuel - 1, by omega⟩
    rw [List.intercalate_cons_cons, List.append_assoc] at hf ⊢
    have : find (c :: d) (x ++ ((c :: d) ++ List.intercalate (c :: d) (y :: ys))) = some x.length := by
      refine find_eq (by simp) ?_ fun q hq => not_prefix_of_head hq (hx x (by simp))
      rw [List.drop_left]
      exact List.prefix_append _ _
    simp only [splitLoop, this]
    rw [← List.drop_drop, List.drop_left, List.drop_left, List.take_left,
      split_intercalate (by simp) (fun z hz => hx z (by simp [hz])) f (by simp only [List.length_append, List.length_cons] at hf; omega)]
    rfl

theorem printRow_eq {R : Type*} (fmt : R → Str) (d : Str) {row : List R} (h : row ≠ []) :
    printRow fmt d row = List.intercalate d (row.map fmt) ++ ['\n'] := by
  unfold printRow
  congr 1
  induction row with
  | nil => exact absurd rfl h
  | cons x row ih =>
    cases row with
    | nil => simp
    | cons y row =>
      have := ih (by simp)
      rw [List.map_cons, List.map_cons, List.intercalate_cons_cons, ← List.map_cons, ← this]
      simp

/-- **C67.** The file written by `csv_save` (and the text of `print`) of a matrix with at least one column has one line per row; splitting a line at the delimiter
gives the printed entries of the row, in order. The printed numbers contain no end of line and not the first character of the delimiter. -/
theorem C67_csv_round_trip {R : Type*} (fmt : R → Str) (c : Char) (d : Str) (hd : '\n' ∉ c :: d) (A : Mat R) (hc : 0 < A.nc)
    (hf : ∀ i < A.nr, ∀ j < A.nc, '\n' ∉ fmt (A.get i j) ∧ c ∉ fmt (A.get i j)) :
    (getLines (printMat fmt (c :: d) A)).length = A.nr ∧
    ∀ i < A.nr, ∃ line, (getLines (printMat fmt (c :: d) A))[i]? = some line ∧
      ∀ fuel, line.length < fuel → splitLoop (c :: d) fuel line = some ((List.range A.nc).map fun j => fmt (A.get i j)) := by
  have row : ∀ i, A.getRow i = (List.range A.nc).map fun j => A.get i j := by
    intro i
    obtain ⟨h1, h2⟩ := C33_get_row A i
    apply List.ext_getElem?
    intro j
    by_cases hj : j < A.nc
    · rw [h2 j hj]; simp [hj]
    · rw [List.getElem?_eq_none (by omega), List.getElem?_eq_none (by simp; omega)]
  have ne : ∀ i, A.getRow i ≠ [] := by
    intro i h
    have := (C33_get_row A i).1
    rw [h] at this
    simp at this
    omega
  have e : printMat fmt (c :: d) A = ((List.range A.nr).map fun i => List.intercalate (c :: d) ((A.getRow i).map fmt) ++ ['\n']).flatten := by
    unfold printMat
    rw [if_pos hc]
    congr 1
    exact List.map_congr_left fun i _ => printRow_eq fmt _ (ne i)
  have free : ∀ xs : List Str, (∀ x ∈ xs, '\n' ∉ x) → '\n' ∉ List.intercalate (c :: d) xs := by
    intro xs h hin
    induction xs with
    | nil => simp [List.intercalate] at hin
    | cons x xs ih =>
      cases xs with
      | nil => simp at hin; exact h x (by simp) hin
      | cons y ys =>
        rw [List.intercalate_cons_cons, List.mem_append, List.mem_append] at hin
        rcases hin with (hin | hin) | hin
        · exact h x (by simp) hin
        · exact hd hin
        · exact ih (fun z hz => h z (by simp [hz])) hin
  have lines : getLines (printMat fmt (c :: d) A) = (List.range A.nr).map fun i => List.intercalate (c :: d) ((A.getRow i).map fmt) := by
    have e2 : (List.range A.nr).map (fun i => List.intercalate (c :: d) ((A.getRow i).map fmt) ++ ['\n']) =
        ((List.range A.nr).map fun i => List.intercalate (c :: d) ((A.getRow i).map fmt)).map (fun r => r ++ ['\n']) := by
      rw [List.map_map]; rfl
    rw [e, e2]
    apply getLines_lines
    intro r hr
    obtain ⟨i, hi, rfl⟩ := List.mem_map.1 hr
    apply free
    intro x hx
    rw [row, List.map_map] at hx
    obtain ⟨j, hj, rfl⟩ := List.mem_map.1 hx
    exact (hf i (List.mem_range.1 hi) j (List.mem_range.1 hj)).1
  rw [lines]
  refine ⟨by simp, fun i hi => ⟨List.intercalate (c :: d) ((A.getRow i).map fmt), by simp [hi], fun fuel hl => ?_⟩⟩
  rw [split_intercalate (by simpa using ne i) ?_ fuel hl, row, List.map_map]
  · rfl
  · intro x hx
    rw [row, List.map_map] at hx
    obtain ⟨j, hj, rfl⟩ := List.mem_map.1 hx
    exact (hf i hi j (List.mem_range.1 hj)).2

/-- **C67.** A matrix without columns gives an empty file. -/
theorem C67_csv_no_columns {R : Type*} (fmt : R → Str) (d : Str) (A : Mat R) (hc : A.nc = 0) : printMat fmt d A = [] := by
  unfold printMat; rw [if_neg (by omega)]

/-! ## Printing a vector -/

/-- Full statement: `out << v` writes the entries of the vector to the stream `out`, whatever this stream is: some text before, the printed entries in order
each followed by a comma, some text after; and nothing else is written to another stream. -/
def C67_print_vector_statement : Prop :=
  ∀ (v : List ℕ) (outIsCout : Bool), (∃ a b, (printVec ClusterIO.natStr outIsCout v).1 = a ++ (v.map fun x => ClusterIO.natStr x ++ [',']).flatten ++ b) ∧
    (printVec ClusterIO.natStr outIsCout v).2 = []

/-- **C67 fails for a stream other than `std::cout`**: the entries go to `std::cout`. -/
theorem C67_print_vector_fails : ¬ C67_print_vector_statement := by
  intro h
  exact absurd (h [7] false).2 (by decide)

/-- **C67 (what is written instead).** Another stream never receives the entries, whatever they are. -/
theorem C67_print_vector_other_stream {R : Type*} (fmt : R → Str) (v : List R) (h : v ≠ []) :
    printVec fmt false v = (['[', '\x08', ']'], (v.map fun x => fmt x ++ [',']).flatten) := by
  cases v with
  | nil => exact absurd rfl h
  | cons x v => rfl

/-- **C67 (what holds).** On `std::cout` the entries are printed in order between brackets. -/
theorem C67_print_vector_partial {R : Type*} (fmt : R → Str) (v : List R) (h : v ≠ []) :
    printVec fmt true v = (['['] ++ (v.map fun x => fmt x ++ [',']).flatten ++ ['\x08', ']'], []) := by
  cases v with
  | nil => exact absurd rfl h
  | cons x v => rfl

/-- Non-vacuity: a 2 × 3 matrix written with the delimiter `, ` and read back. -/
example : printMat ClusterIO.intStr ", ".toList exMat = "1, 3, -7\n-2, 4, 6\n".toList ∧
    splitLoop ", ".toList 20 "1, 3, -7".toList = some ["1".toList, "3".toList, "-7".toList] ∧
    join ", ".toList ["1".toList, "3".toList, "-7".toList] = "1, 3, -7".toList := by decide +kernel

example : (∀ i < exMat.nr, ∀ j < exMat.nc, '\n' ∉ ClusterIO.intStr (exMat.get i j) ∧ ',' ∉ ClusterIO.intStr (exMat.get i j)) ∧ 0 < exMat.nc ∧
    '\n' ∉ ", ".toList := by decide +kernel

/-! ## `matlab_save` -/

/-- A sign character. -/
def IsSign (c : Char) : Prop := c = '+' ∨ c = '-'

instance (c : Char) : Decidable (IsSign c) := by unfold IsSign; infer_instance

/-- Where the imaginary part of a line begins: the first sign after the first character which is not the sign of an exponent. `prev` is the character before. -/
def cutSign (prev : Char) : Str → Str × Str
  | [] => ([], [])
  | c :: s => if IsSign c ∧ prev ≠ 'e' then ([], c :: s) else (c :: (cutSign c s).1, (cutSign c s).2)

/-- How a line is read back: the text of the real part and the text of the imaginary part without the sign '+' and without "i" and the tabulation. -/
def readMatlabLine : Str → Str × Str
  | [] => ([], [])
  | c :: s => (c :: (cutSign c s).1, let t := (cutSign c s).2.dropLast.dropLast
      if t.head? = some '+' then t.tail else t)

/-- What `operator<<` writes for a number: a sign only for negative numbers, then digits with a point and an exponent `e` with its sign, "0" for zero. -/
structure NumText {K : Type*} [Zero K] [LT K] (fmt : K → Str) : Prop where
  neg : ∀ x, x < 0 → ∃ c b, fmt x = '-' :: c :: b ∧ ¬ IsSign c
  nonneg : ∀ x, ¬ x < 0 → ∃ c b, fmt x = c :: b ∧ ¬ IsSign c
  zero : fmt 0 = ['0']
  exp : ∀ x a c b, fmt x = a ++ c :: b → IsSign c → a = [] ∨ a.getLast? = some 'e'
  last : ∀ x, (fmt x).getLast? ≠ some 'e'
  line : ∀ x, '\n' ∉ fmt x

theorem cutSign_append : ∀ (s : Str) (prev c : Char) (t : Str), IsSign c →
    (∀ a d b, s = a ++ d :: b → IsSign d → a.getLast?.getD prev = 'e') → s.getLast?.getD prev ≠ 'e' → cutSign prev (s ++ c :: t) = (s, c :: t)
  | [], prev, c, t, hc, _, hl => by
    simp only [List.getLast?_nil, Option.getD_none] at hl
    simp [cutSign, hc, hl]
  | d :: s, prev, c, t, hc, hs, hl => by
    have h1 : ¬ (IsSign d ∧ prev ≠ 'e') := fun h => h.2 (by simpa using hs [] d s rfl h.1)
    rw [List.cons_append]
    unfold cutSign
    rw [if_neg h1, cutSign_append s d c t hc]
    · intro a e b he hsg
      have := hs (d :: a) e b (by rw [he]; rfl) hsg
      rw [List.getLast?_cons] at this
      simpa using this
    · rw [List.getLast?_cons] at hl
      simpa using hl

theorem readMatlabLine_line {K : Type*} [Zero K] [LT K] [DecidableEq K] [DecidableLT K] {fmt : K → Str} (h : NumText fmt) (z : K × K) :
    readMatlabLine (matlabLine fmt z) = (fmt z.1, fmt z.2) := by
  -- the imaginary part, with its sign
  obtain ⟨c, t, hc, hi, hr⟩ : ∃ c t, IsSign c ∧ matlabLine fmt z = fmt z.1 ++ c :: t ++ "i\t".toList ∧
      (if c = '+' then t else c :: t) = fmt z.2 := by
    unfold matlabLine
    by_cases h1 : z.2 < 0
    · obtain ⟨d, b, h2, -⟩ := h.neg _ h1
      exact ⟨'-', d :: b, Or.inr rfl, by rw [if_pos h1, h2, List.append_assoc], by simp [h2]⟩
    · by_cases h2 : z.2 = 0
      · exact ⟨'+', ['0'], Or.inl rfl, by rw [if_neg h1, if_pos h2]; simp, by rw [h2, h.zero]; simp⟩
      · exact ⟨'+', fmt z.2, Or.inl rfl, by rw [if_neg h1, if_neg h2]; simp, by simp⟩
  have hcut : ∃ d s, fmt z.1 = d :: s ∧ cutSign d (s ++ c :: (t ++ "i\t".toList)) = (s, c :: (t ++ "i\t".toList)) := by
    have key : ∀ d s, fmt z.1 = d :: s → cutSign d (s ++ c :: (t ++ "i\t".toList)) = (s, c :: (t ++ "i\t".toList)) := by
      intro d s hs
      refine cutSign_append s d c _ hc ?_ ?_
      · intro a e b he hsg
        rcases h.exp z.1 (d :: a) e b (by rw [hs, he]; rfl) hsg with h' | h'
        · simp at h'
        · rw [List.getLast?_cons] at h'; simpa using h'
      · intro hl
        refine h.last z.1 ?_
        rw [hs, List.getLast?_cons, hl]
    by_cases h1 : z.1 < 0
    · obtain ⟨d, b, h2, -⟩ := h.neg _ h1
      exact ⟨_, _, h2, key _ _ h2⟩
    · obtain ⟨d, b, h2, -⟩ := h.nonneg _ h1
      exact ⟨_, _, h2, key _ _ h2⟩
  obtain ⟨d, s, hs, hk⟩ := hcut
  rw [hi, List.append_assoc, hs, List.cons_append, List.cons_append]
  show (d :: (cutSign d (s ++ c :: (t ++ "i\t".toList))).1, if ((cutSign d (s ++ c :: (t ++ "i\t".toList))).2.dropLast.dropLast).head? = some '+'
    then ((cutSign d (s ++ c :: (t ++ "i\t".toList))).2.dropLast.dropLast).tail else (cutSign d (s ++ c :: (t ++ "i\t".toList))).2.dropLast.dropLast) = _
  rw [hk]
  have e : (c :: (t ++ "i\t".toList)).dropLast.dropLast = c :: t := by
    have : c :: (t ++ "i\t".toList) = (c :: t ++ ['i']) ++ ['\t'] := by simp
    rw [this, List.dropLast_concat, List.dropLast_concat]
  simp only [e]
  rw [← hr]
  by_cases hp : c = '+'
  · simp [hp]
  · simp [hp]

/-- **C67 (`matlab_save`).** The file has one line per entry of the vector, in order, and the texts of the real and of the imaginary part are recovered from the line:
nothing is lost or mixed up, whatever the signs and the exponents. -/
theorem C67_matlab_save {K : Type*} [Zero K] [LT K] [DecidableEq K] [DecidableLT K] {fmt : K → Str} (h : NumText fmt) (v : List (K × K)) :
    (getLines (matlabSave fmt v)).map readMatlabLine = v.map fun z => (fmt z.1, fmt z.2) := by
  have e : matlabSave fmt v = ((v.map (matlabLine fmt)).map fun r => r ++ ['\n']).flatten := by
    unfold matlabSave; rw [List.map_map]; rfl
  rw [e, getLines_lines, List.map_map]
  · exact List.map_congr_left fun z _ => readMatlabLine_line h z
  · intro r hr
    obtain ⟨z, -, rfl⟩ := List.mem_map.1 hr
    have := h.line z.1
    have := h.line z.2
    unfold matlabLine
    split_ifs <;> simp_all

/-- **C67 (`matlab_save`).** If different numbers have different texts, the file determines the vector. -/
theorem C67_matlab_save_injective {K : Type*} [Zero K] [LT K] [DecidableEq K] [DecidableLT K] {fmt : K → Str} (h : NumText fmt) (hf : Function.Injective fmt)
    {v w : List (K × K)} (he : matlabSave fmt v = matlabSave fmt w) : v = w := by
  have := C67_matlab_save h v
  rw [he, C67_matlab_save h w] at this
  refine (List.map_injective_iff.2 ?_ this).symm
  rintro ⟨a, b⟩ ⟨c, d⟩ h'
  simp only [Prod.mk.injEq] at h'
  rw [hf h'.1, hf h'.2]

/-- Integers written in decimal satisfy the hypothesis. -/
theorem numText_intStr : NumText ClusterIO.intStr := by
  have dig : ∀ (n : ℕ) (c : Char), c ∈ ClusterIO.natStr n → ¬ IsSign c ∧ c ≠ 'e' := by
    intro n c hc
    have h := ClusterIO.natStr_digit hc
    refine ⟨?_, ?_⟩
    · rintro (rfl | rfl) <;> revert h <;> decide
    · rintro rfl; revert h; decide
  have cons : ∀ n : ℕ, ∃ c b, ClusterIO.natStr n = c :: b ∧ ¬ IsSign c := by
    intro n
    cases hn : ClusterIO.natStr n with
    | nil => exact absurd hn (ClusterIO.natStr_ne n)
    | cons c b => exact ⟨c, b, rfl, (dig n c (by rw [hn]; simp)).1⟩
  refine ⟨?_, ?_, rfl, ?_, ?_, fun x => ClusterIO.intStr_free (by decide) (by decide)⟩
  · intro x hx
    cases x with
    | ofNat n => exact absurd hx (not_lt.2 (Int.natCast_nonneg n))
    | negSucc n =>
      obtain ⟨c, b, h1, h2⟩ := cons (n + 1)
      exact ⟨c, b, by show '-' :: ClusterIO.natStr (n + 1) = _; rw [h1], h2⟩
  · intro x hx
    cases x with
    | ofNat n => exact cons n
    | negSucc n => exact absurd (Int.negSucc_lt_zero n) hx
  · intro x a c b h hc
    cases x with
    | ofNat n =>
      have h' : ClusterIO.natStr n = a ++ c :: b := h
      exact absurd hc (dig n c (by rw [h']; simp)).1
    | negSucc n =>
      have h' : '-' :: ClusterIO.natStr (n + 1) = a ++ c :: b := h
      cases a with
      | nil => exact Or.inl rfl
      | cons d a =>
        rw [List.cons_append] at h'
        injection h' with _ h'
        exact absurd hc (dig (n + 1) c (by rw [h']; simp)).1
  · intro x h
    have := List.mem_of_getLast? h
    exact ClusterIO.intStr_free (by decide) (by decide) this

example : matlabSave ClusterIO.intStr [(-3, 4), (5, 0), (0, -12)] = "-3+4i\t\n5+0i\t\n0-12i\t\n".toList ∧
    readMatlabLine "-1.5e-05+2e+30i\t".toList = ("-1.5e-05".toList, "2e+30".toList) := by decide +kernel

end Text
end Htool
