import Verif.ClusterIO
import Verif.HMat
import Verif.ClusterWF
import Mathlib.Tactic.IntervalCases

/-! # Property C11: saved cluster trees are read back unchanged -/

namespace Htool.ClusterIO
variable {K : Type*}

/-! ### Strings -/

theorem splitStr_ne (d : Char) (s : Str) : splitStr d s ≠ [] := by
  induction s with
  | nil => simp [splitStr]
  | cons c s ih =>
    unfold splitStr
    split_ifs
    · simp
    · split <;> simp

theorem splitStr_free {d : Char} {s : Str} (h : d ∉ s) : splitStr d s = [s] := by
  induction s with
  | nil => rfl
  | cons c s ih =>
    simp only [List.mem_cons, not_or] at h
    unfold splitStr
    rw [if_neg (fun e => h.1 e.symm), ih h.2]

theorem splitStr_append {d : Char} {a : Str} (h : d ∉ a) (s : Str) :
    splitStr d (a ++ d :: s) = a :: splitStr d s := by
  induction a with
  | nil => simp [splitStr]
  | cons c a ih =>
    simp only [List.mem_cons, not_or] at h
    rw [List.cons_append]
    simp only [splitStr, ih h.2, if_neg (fun e : c = d => h.1 e.symm)]

/-- Texts separated by a delimiter. -/
def sepBy (d : Char) : List Str → Str
  | [] => []
  | [x] => x
  | x :: y :: xs => x ++ d :: sepBy d (y :: xs)

theorem splitStr_sepBy {d : Char} {xs : List Str} (hne : xs ≠ []) (h : ∀ x ∈ xs, d ∉ x) :
    splitStr d (sepBy d xs) = xs := by
  induction xs with
  | nil => exact absurd rfl hne
  | cons x xs ih =>
    cases xs with
    | nil => exact splitStr_free (h x (by simp))
    | cons y ys =>
      show splitStr d (x ++ d :: sepBy d (y :: ys)) = _
      rw [splitStr_append (h x (by simp)), ih (by simp) (fun z hz => h z (by simp [hz]))]

theorem commas_eq (xs : List Str) : commas xs = sepBy ',' xs := by
  induction xs with
  | nil => rfl
  | cons x xs ih =>
    cases xs with
    | nil => rfl
    | cons y ys => show x ++ ',' :: commas (y :: ys) = x ++ ',' :: sepBy ',' (y :: ys); rw [ih]

theorem sepBy_append (d : Char) (x : Str) (xs : List Str) :
    sepBy d (x :: xs) = x ++ (xs.map (d :: ·)).flatten := by
  induction xs generalizing x with
  | nil => simp [sepBy]
  | cons y ys ih =>
    show x ++ d :: sepBy d (y :: ys) = _
    rw [ih]; simp

theorem joinStr_eq {d : Char} {x : Str} (hx : x ≠ []) (xs : List Str) :
    joinStr d (x :: xs) = sepBy d (x :: xs) := by
  rw [sepBy_append]
  unfold joinStr
  have : ∀ (ys : List Str) (acc : Str), acc ≠ [] →
      ys.foldl (fun ss s => if ss.isEmpty then s else ss ++ d :: s) acc = acc ++ (ys.map (d :: ·)).flatten := by
    intro ys
    induction ys with
    | nil => intro acc _; simp
    | cons y ys ih =>
      intro acc hacc
      have he : acc.isEmpty = false := by cases acc with
        | nil => exact absurd rfl hacc
        | cons _ _ => rfl
      rw [List.foldl_cons, he]
      simp only [Bool.false_eq_true, if_false]
      rw [ih _ (by simp)]
      simp
  rw [List.foldl_cons]
  simp only [List.isEmpty_nil, if_true]
  exact this xs x hx

theorem mem_sepBy {d c : Char} {xs : List Str} (h : c ∈ sepBy d xs) : c = d ∨ ∃ x ∈ xs, c ∈ x := by
  cases xs with
  | nil => simp [sepBy] at h
  | cons x xs =>
    rw [sepBy_append] at h
    simp only [List.mem_append, List.mem_flatten, List.mem_map] at h
    rcases h with h | ⟨l, ⟨y, hy, rfl⟩, h⟩
    · exact Or.inr ⟨x, by simp, h⟩
    · rcases List.mem_cons.1 h with h | h
      · exact Or.inl h
      · exact Or.inr ⟨y, by simp [hy], h⟩

theorem splitStr_lines (rows : List Str) (h : ∀ r ∈ rows, '\n' ∉ r) :
    splitStr '\n' ((rows.map fun r => r ++ ['\n']).flatten) = rows ++ [[]] := by
  induction rows with
  | nil => rfl
  | cons r rows ih =>
    have : ((r :: rows).map fun r => r ++ ['\n']).flatten = r ++ '\n' :: (rows.map fun r => r ++ ['\n']).flatten := by
      simp
    rw [this, splitStr_append (h r (by simp)), ih (fun x hx => h x (by simp [hx]))]; rfl

theorem getLines_lines (rows : List Str) (h : ∀ r ∈ rows, '\n' ∉ r) :
    getLines ((rows.map fun r => r ++ ['\n']).flatten) = rows := by
  unfold getLines
  rw [splitStr_lines rows h]
  simp

/-! ### Numbers -/

theorem digitChar_toNat {k : ℕ} (h : k < 10) : (digitChar k).toNat = 48 + k := by
  interval_cases k <;> rfl

theorem digitVal_digitChar {k : ℕ} (h : k < 10) : digitVal (digitChar k) = some k := by
  unfold digitVal
  rw [digitChar_toNat h, if_pos ⟨by omega, by omega⟩]
  simp

theorem digitPrefix_map (l : List ℕ) (h : ∀ k ∈ l, k < 10) : digitPrefix (l.map digitChar) = l := by
  induction l with
  | nil => rfl
  | cons k l ih =>
    rw [List.map_cons]
    unfold digitPrefix
    rw [digitVal_digitChar (h k (by simp))]
    show k :: digitPrefix (l.map digitChar) = _
    rw [ih (fun m hm => h m (by simp [hm]))]

/-- Decimal digits, most significant first. -/
def decDigits (n : ℕ) : List ℕ := if n = 0 then [0] else (Nat.digits 10 n).reverse

theorem natStr_eq (n : ℕ) : natStr n = (decDigits n).map digitChar := by
  unfold natStr decDigits
  split_ifs <;> rfl

theorem decDigits_lt (n : ℕ) : ∀ k ∈ decDigits n, k < 10 := by
  unfold decDigits
  split_ifs with h
  · simp
  · intro k hk
    exact Nat.digits_lt_base (by norm_num) (List.mem_reverse.1 hk)

theorem decDigits_ne (n : ℕ) : decDigits n ≠ [] := by
  unfold decDigits
  split_ifs with h
  · simp
  · simp [Nat.digits_ne_nil_iff_ne_zero.2 h]

theorem foldl_digits (l : List ℕ) : l.foldl (fun a k => 10 * a + k) 0 = Nat.ofDigits 10 l.reverse := by
  rw [Nat.ofDigits_eq_foldr, List.foldr_reverse]
  simp only [Nat.cast_id]
  congr 1
  funext a k
  ring

theorem decDigits_val (n : ℕ) : (decDigits n).foldl (fun a k => 10 * a + k) 0 = n := by
  rw [foldl_digits]
  unfold decDigits
  split_ifs with h
  · subst h; rfl
  · rw [List.reverse_reverse, Nat.ofDigits_digits]

theorem natStr_digit {n : ℕ} {c : Char} (h : c ∈ natStr n) : 48 ≤ c.toNat ∧ c.toNat ≤ 57 := by
  rw [natStr_eq, List.mem_map] at h
  obtain ⟨k, hk, rfl⟩ := h
  have := decDigits_lt n k hk
  rw [digitChar_toNat this]; omega

theorem natStr_ne (n : ℕ) : natStr n ≠ [] := by
  rw [natStr_eq]; simp [decDigits_ne]

theorem strtol_natStr (n : ℕ) : strtol (natStr n) = some (n : ℤ) := by
  have hp : digitPrefix (natStr n) = decDigits n := by
    rw [natStr_eq, digitPrefix_map _ (decDigits_lt n)]
  unfold strtol
  split
  · rename_i r heq
    have := natStr_digit (n := n) (c := '-') (by rw [heq]; simp)
    exact absurd this (by decide)
  · rw [hp, if_neg (decDigits_ne n), decDigits_val]

theorem strtol_intStr (z : ℤ) : strtol (intStr z) = some z := by
  cases z with
  | ofNat n => exact strtol_natStr n
  | negSucc n =>
    have hp : digitPrefix (natStr (n + 1)) = decDigits (n + 1) := by
      rw [natStr_eq, digitPrefix_map _ (decDigits_lt _)]
    show strtol ('-' :: natStr (n + 1)) = _
    unfold strtol
    simp only
    rw [hp, if_neg (decDigits_ne _), decDigits_val]
    rfl

theorem stoi_intStr {z : ℤ} (h : FitsInt z) : stoi (intStr z) = some z := by
  unfold stoi
  rw [strtol_intStr]
  simp [h]

theorem stoi_natStr {n : ℕ} (h : FitsInt n) : stoi (natStr n) = some (n : ℤ) := stoi_intStr (z := (n : ℤ)) h

theorem intStr_char {z : ℤ} {c : Char} (h : c ∈ intStr z) : c = '-' ∨ (48 ≤ c.toNat ∧ c.toNat ≤ 57) := by
  cases z with
  | ofNat n => exact Or.inr (natStr_digit h)
  | negSucc n =>
    rcases List.mem_cons.1 h with h | h
    · exact Or.inl h
    · exact Or.inr (natStr_digit h)

theorem intStr_free {z : ℤ} {d : Char} (hd : d ≠ '-') (h : ¬ (48 ≤ d.toNat ∧ d.toNat ≤ 57)) : d ∉ intStr z := by
  intro hc
  rcases intStr_char hc with h' | h'
  · exact hd h'
  · exact h h'

theorem intStr_ne (z : ℤ) : intStr z ≠ [] := by
  cases z with
  | ofNat n => exact natStr_ne n
  | negSucc n => simp [intStr]

theorem intStr_natCast (n : ℕ) : intStr (n : ℤ) = natStr n := rfl

/-! ### Rows -/

/-- Nodes of a forest at a given depth, from left to right. -/
def lev (e : ℕ) (l : List (Tree (CNode (Geo K)))) : List (Tree (CNode (Geo K))) :=
  (Tree.preL l).filter fun s => decide (s.label.depth = e)

theorem foldl_bind_none {α β : Type*} (g : α → β → Option α) (l : List β) :
    l.foldl (fun (o : Option α) x => o.bind fun a => g a x) none = none := by
  induction l with
  | nil => rfl
  | cons x l ih => exact ih

theorem saveStep_foldl (F : NumFmt K) {parts : List (Option (CNode (Geo K)))} {p0 : CNode (Geo K)}
    (hp : parts[0]? = some (some p0)) (l : List (Tree (CNode (Geo K)))) (rows : List (List Str))
    (hd : ∀ s ∈ l, s.label.depth < rows.length) :
    ∃ rows', l.foldl (saveStep F parts) (some rows) = some rows' ∧ rows'.length = rows.length ∧
      ∀ e, e < rows.length → rows'.getD e [] = rows.getD e [] ++
        (l.filter fun s => decide (s.label.depth = e)).map fun s =>
          nodeStr F (decide (s.label.depth = p0.depth)) s := by
  induction l generalizing rows with
  | nil => exact ⟨rows, rfl, rfl, fun e _ => by simp⟩
  | cons s l ih =>
    have hs := hd s (by simp)
    set r1 := rows.set s.label.depth (rows.getD s.label.depth [] ++
      [nodeStr F (decide (s.label.depth = p0.depth)) s]) with hr1
    have e1 : saveStep F parts (some rows) s = some r1 := by
      unfold saveStep isOnPartition
      simp only [hp, Option.join_some, Option.map_some, Option.bind_some]
      rw [if_pos hs]
    have hl : r1.length = rows.length := by simp [hr1]
    obtain ⟨rows', h1, h2, h3⟩ := ih r1 (fun u hu => by rw [hl]; exact hd u (by simp [hu]))
    refine ⟨rows', by rw [List.foldl_cons, e1]; exact h1, by rw [h2, hl], fun e he => ?_⟩
    rw [h3 e (by rw [hl]; exact he), List.filter_cons]
    by_cases hse : s.label.depth = e
    · subst hse
      simp only [decide_true, if_true, List.map_cons]
      have : r1.getD s.label.depth [] = rows.getD s.label.depth [] ++
          [nodeStr F (decide (s.label.depth = p0.depth)) s] := by
        rw [List.getD_eq_getElem _ _ (by rw [hl]; exact he)]
        simp [hr1]
      rw [this, List.append_assoc]; rfl
    · have : r1.getD e [] = rows.getD e [] := by
        rw [List.getD_eq_getElem?_getD, List.getD_eq_getElem?_getD, hr1, List.getElem?_set_ne hse]
      rw [this]; simp [hse]

/-! ### One cluster -/

theorem mapM_some {α β : Type*} {f : α → Option β} {g : α → β} {l : List α} (h : ∀ x ∈ l, f x = some (g x)) :
    l.mapM f = some (l.map g) := by
  induction l with
  | nil => rfl
  | cons x l ih =>
    rw [List.mapM_cons, h x (by simp), ih (fun y hy => h y (by simp [hy]))]; rfl

/-- Radius and center after printing and reading. -/
def roundGeo (F : NumFmt K) (g : Geo K) : Geo K := (F.parse (F.fmt g.1), g.2.map fun x => F.parse (F.fmt x))

/-- The same cluster with its radius and center printed and read; every other member is unchanged. -/
def roundNode (F : NumFmt K) (c : CNode (Geo K)) : CNode (Geo K) := { c with geo := roundGeo F c.geo }

/-- The texts of a cluster. -/
def fields (F : NumFmt K) (flag : Bool) (t : Tree (CNode (Geo K))) : List Str :=
  [intStr t.children.length, intStr t.label.rank, intStr t.label.offset, intStr t.label.size,
    F.fmt t.label.geo.1, intStr t.label.counter, intStr (if flag then 1 else 0)] ++ t.label.geo.2.map F.fmt

/-- Printed coordinates contain no separator. -/
def NumFmt.Free (F : NumFmt K) : Prop := ∀ x, ',' ∉ F.fmt x ∧ '|' ∉ F.fmt x ∧ '\n' ∉ F.fmt x

theorem fields_free {F : NumFmt K} (hF : F.Free) (flag : Bool) (t : Tree (CNode (Geo K))) {d : Char}
    (hd : d = ',' ∨ d = '|' ∨ d = '\n') : ∀ x ∈ fields F flag t, d ∉ x := by
  have hi : ∀ z, d ∉ intStr z := by
    intro z
    rcases hd with rfl | rfl | rfl <;> exact intStr_free (by decide) (by decide)
  have hf : ∀ x, d ∉ F.fmt x := by
    intro x
    rcases hd with rfl | rfl | rfl
    · exact (hF x).1
    · exact (hF x).2.1
    · exact (hF x).2.2
  intro x hx
  unfold fields at hx
  simp only [List.mem_append, List.mem_cons, List.not_mem_nil, or_false, List.mem_map] at hx
  rcases hx with (rfl | rfl | rfl | rfl | rfl | rfl | rfl) | ⟨y, -, rfl⟩
  all_goals first | exact hi _ | exact hf _

theorem nodeStr_eq (F : NumFmt K) (flag : Bool) (t : Tree (CNode (Geo K))) :
    nodeStr F flag t = sepBy '|' (fields F flag t) := by
  unfold nodeStr fields
  rw [List.cons_append, joinStr_eq (intStr_ne _)]

theorem nodeStr_split {F : NumFmt K} (hF : F.Free) (flag : Bool) (t : Tree (CNode (Geo K))) :
    splitStr '|' (nodeStr F flag t) = fields F flag t := by
  rw [nodeStr_eq, splitStr_sepBy (by simp [fields]) (fields_free hF flag t (by simp))]

theorem nodeStr_free {F : NumFmt K} (hF : F.Free) (flag : Bool) (t : Tree (CNode (Geo K))) :
    ',' ∉ nodeStr F flag t ∧ '\n' ∉ nodeStr F flag t := by
  rw [nodeStr_eq]
  constructor
  · intro h
    rcases mem_sepBy h with h | ⟨x, hx, h⟩
    · exact absurd h (by decide)
    · exact fields_free hF flag t (Or.inl rfl) x hx h
  · intro h
    rcases mem_sepBy h with h | ⟨x, hx, h⟩
    · exact absurd h (by decide)
    · exact fields_free hF flag t (Or.inr (Or.inr rfl)) x hx h

/-- The numbers of a cluster are values of type `int`. -/
structure IntNode (t : Tree (CNode (Geo K))) : Prop where
  nch : FitsInt t.children.length
  rank : FitsInt t.label.rank
  offset : FitsInt t.label.offset
  size : FitsInt t.label.size
  counter : FitsInt t.label.counter

theorem fieldNat_int {fs : List Str} {i : ℕ} {n : ℕ} (h : fs[i]? = some (intStr n)) (hn : FitsInt n) :
    fieldNat fs i = some n := by
  unfold fieldNat fieldInt
  rw [h, Option.bind_some, stoi_intStr hn, Option.bind_some, if_pos (Int.natCast_nonneg n)]
  rfl

theorem fieldInt_int {fs : List Str} {i : ℕ} {z : ℤ} (h : fs[i]? = some (intStr z)) (hn : FitsInt z) :
    fieldInt fs i = some z := by
  unfold fieldInt
  rw [h, Option.bind_some, stoi_intStr hn]

theorem fieldCenter_fields (F : NumFmt K) (flag : Bool) (t : Tree (CNode (Geo K))) {dim : ℕ}
    (hd : t.label.geo.2.length = dim) :
    fieldCenter F (fields F flag t) dim = some (t.label.geo.2.map fun x => F.parse (F.fmt x)) := by
  unfold fieldCenter
  subst hd
  cases hc : t.label.geo.2 with
  | nil => rfl
  | cons x0 xs =>
    rw [← hc]
    rw [mapM_some (g := fun l => F.parse (F.fmt (t.label.geo.2.getD l x0)))]
    · congr 1
      apply List.ext_getElem
      · simp
      · intro i h1 h2
        have : i < t.label.geo.2.length := by simpa using h1
        simp [List.getElem?_eq_getElem this]
    · intro l hl
      have hl' : l < t.label.geo.2.length := List.mem_range.1 hl
      unfold fields
      rw [List.getElem?_append_right (by simp)]
      simp [List.getElem?_eq_getElem hl']

theorem parseNode_nodeStr {F : NumFmt K} (hF : F.Free) (flag : Bool) {t : Tree (CNode (Geo K))} (hi : IntNode t)
    {dim : ℕ} (hd : t.label.geo.2.length = dim)
    (hc : F.toInt (F.parse (intStr t.label.counter)) = t.label.counter) :
    parseNode F dim (nodeStr F flag t) = some
      { nch := t.children.length, rank := t.label.rank, offset := t.label.offset, size := t.label.size,
        radius := F.parse (F.fmt t.label.geo.1), counter := t.label.counter, onPart := flag,
        center := t.label.geo.2.map fun x => F.parse (F.fmt x) } := by
  unfold parseNode
  rw [nodeStr_split hF]
  simp only [fieldNat_int (fs := fields F flag t) (i := 0) (n := t.children.length) rfl hi.nch,
    fieldNat_int (fs := fields F flag t) (i := 2) (n := t.label.offset) rfl hi.offset,
    fieldNat_int (fs := fields F flag t) (i := 3) (n := t.label.size) rfl hi.size,
    fieldInt_int (fs := fields F flag t) (i := 1) (z := t.label.rank) rfl hi.rank,
    fieldCenter_fields F flag t hd,
    show (fields F flag t)[4]? = some (F.fmt t.label.geo.1) from rfl,
    show (fields F flag t)[5]? = some (intStr t.label.counter) from rfl,
    show (fields F flag t)[6]? = some (intStr (if flag then 1 else 0)) from rfl, Option.bind_some, hc]
  have : strBool (intStr (if flag then 1 else 0)) = flag := by
    unfold strBool
    rw [strtol_intStr]
    cases flag <;> rfl
  rw [this]

/-! ### The loop of the reader -/

theorem getElem_bind {α : Type*} (rows : List (List α)) (e i : ℕ) :
    ((rows[e]?).bind fun r => r[i]?) = (rows.getD e [])[i]? := by
  rw [List.getD_eq_getElem?_getD]
  cases rows[e]? <;> simp

theorem lev_cons (e : ℕ) (t : Tree (CNode (Geo K))) (ts : List (Tree (CNode (Geo K)))) :
    lev e (t :: ts) = lev e [t] ++ lev e ts := by
  unfold lev
  simp [Tree.preL]

theorem lev_singleton (e : ℕ) (t : Tree (CNode (Geo K))) :
    lev e [t] = (if t.label.depth = e then [t] else []) ++ lev e t.children := by
  unfold lev
  cases t with
  | node a cs =>
    simp only [Tree.preL, Tree.pre, List.append_nil, List.filter_cons, Tree.label_node, Tree.children_node]
    by_cases h : a.depth = e
    · simp [h]
    · simp [h]

theorem lev_eq_nil {t : Tree (CNode (Geo K))} (h : DepthOK t) {e : ℕ} (he : e ≤ t.label.depth) :
    lev e t.children = [] := by
  unfold lev
  rw [List.filter_eq_nil_iff]
  intro s hs
  obtain ⟨u, hu, hs'⟩ := Tree.mem_preL.1 hs
  have h1 := (h.child hu).le s hs'
  have h2 := h t (Tree.mem_pre_self t) u hu
  simp only [decide_eq_true_eq]
  rcases h1 with rfl | h1 <;> omega

/-- Descendants of the trees of a list at a given depth, without the trees themselves. -/
def below (e : ℕ) (ts : List (Tree (CNode (Geo K)))) : List (Tree (CNode (Geo K))) :=
  ts.flatMap fun u => lev e u.children

theorem lev_of_depth {d e : ℕ} {ts : List (Tree (CNode (Geo K)))} (h : ∀ u ∈ ts, u.label.depth = d) (he : e ≠ d) :
    lev e ts = below e ts := by
  induction ts with
  | nil => rfl
  | cons t ts ih =>
    rw [lev_cons, lev_singleton, if_neg (by rw [h t (by simp)]; exact fun x => he x.symm),
      ih (fun u hu => h u (by simp [hu]))]
    rfl

theorem lev_self {d : ℕ} {ts : List (Tree (CNode (Geo K)))} (h : ∀ u ∈ ts, u.label.depth = d)
    (hD : ∀ u ∈ ts, DepthOK u) : lev d ts = ts := by
  induction ts with
  | nil => rfl
  | cons t ts ih =>
    rw [lev_cons, lev_singleton, if_pos (h t (by simp)), ih (fun u hu => h u (by simp [hu]))
      (fun u hu => hD u (by simp [hu])), lev_eq_nil (hD t (by simp)) (by rw [h t (by simp)])]
    rfl

theorem mapM_range {α β : Type*} {f : ℕ → Option β} {P : α → β → Prop} (us : List α) (k : ℕ)
    (h : ∀ p (hp : p < us.length), ∃ i, f (k + p) = some i ∧ P us[p] i) :
    ∃ is, (List.range' k us.length).mapM f = some is ∧ List.Forall₂ P us is := by
  induction us generalizing k with
  | nil => exact ⟨[], rfl, List.Forall₂.nil⟩
  | cons u us ih =>
    obtain ⟨i, h1, h2⟩ := h 0 (by simp)
    obtain ⟨is, h3, h4⟩ := ih (k + 1) (fun p hp => by
      obtain ⟨j, j1, j2⟩ := h (p + 1) (by simpa using hp)
      exact ⟨j, by rw [Nat.add_assoc, Nat.add_comm 1 p]; exact j1, by simpa using j2⟩)
    refine ⟨i :: is, ?_, List.Forall₂.cons h2 h4⟩
    rw [List.length_cons, List.range'_succ, List.mapM_cons, show f k = some i from h1, h3]; rfl

theorem forall₂_map {α β γ : Type*} {P : α → β → Prop} {f : α → γ} {g : β → γ} {us : List α} {is : List β}
    (h : List.Forall₂ P us is) (hfg : ∀ u ∈ us, ∀ i, P u i → f u = g i) : us.map f = is.map g := by
  induction h with
  | nil => rfl
  | cons h1 _ ih =>
    rw [List.map_cons, List.map_cons, hfg _ (by simp) _ h1, ih (fun u hu => hfg u (by simp [hu]))]

/-- What is needed of one saved cluster to read it back: its text in the file, its flag and its depth. -/
def Reads (F : NumFmt K) (dim dp : ℕ) (str : Tree (CNode (Geo K)) → Str) (s : Tree (CNode (Geo K))) : Prop :=
  s.label.onPart = decide (s.label.depth = dp) ∧
  ∃ i, parseNode F dim (str s) = some i ∧ i.nch = s.children.length ∧
    i.node s.label.depth = roundNode F s.label

theorem readNode_spec (F : NumFmt K) (dim dp : ℕ) (str : Tree (CNode (Geo K)) → Str) (rows : List (List Str)) :
    ∀ (f : ℕ) (t : Tree (CNode (Geo K))) (c : CNode (Geo K)) (st : RState K), DepthOK t →
      (∀ u ∈ t.children, ∀ s ∈ u.pre, Reads F dim dp str s) → c.depth = t.label.depth →
      (∀ s ∈ t.pre, s.label.depth < t.label.depth + f) →
      (∀ e, t.label.depth < e → ∃ A B, rows.getD e [] = A ++ (lev e t.children).map str ++ B ∧
        A.length = st.off e) →
      ∃ st', readNode F dim rows f (c, t.children.length) st =
          some (Tree.node c (t.children.map (Tree.map (roundNode F))), st') ∧
        (∀ e, st'.off e = st.off e + (lev e t.children).length) ∧
        st'.parts = setParts st.parts ((lev dp t.children).map fun s => roundNode F s.label) := by
  intro f
  induction f with
  | zero =>
    intro t c st _ _ _ hf
    exact absurd (hf t (Tree.mem_pre_self t)) (by omega)
  | succ f ih =>
    intro t c st hD hR hc hf hrows
    have hdep : ∀ u ∈ t.children, u.label.depth = t.label.depth + 1 := hD t (Tree.mem_pre_self t)
    have hDc : ∀ u ∈ t.children, DepthOK u := fun u hu => hD.child hu
    -- the texts of the children
    have hinfo : ∃ infos : List (NodeInfo K),
        readChildren F dim rows c.depth t.children.length st.off = some infos ∧
        (infos.map fun i => i.node (c.depth + 1)) = t.children.map (fun u => roundNode F u.label) ∧
        infos.map NodeInfo.nch = t.children.map (fun u => u.children.length) := by
      obtain ⟨A, B, h1, h2⟩ := hrows (t.label.depth + 1) (by omega)
      rw [lev_self hdep hDc] at h1
      obtain ⟨infos, i1, i2⟩ := mapM_range (P := fun u i => i.nch = u.children.length ∧
          i.node u.label.depth = roundNode F u.label)
        (f := fun p => (rows[c.depth + 1]?).bind fun row => (row[st.off (c.depth + 1) + p]?).bind (parseNode F dim))
        t.children 0 (by
          intro p hp
          obtain ⟨i, j1, j2⟩ := (hR t.children[p] (List.getElem_mem hp) t.children[p] (Tree.mem_pre_self _)).2
          refine ⟨i, ?_, j2⟩
          rw [show ((rows[c.depth + 1]?).bind fun row => (row[st.off (c.depth + 1) + (0 + p)]?).bind (parseNode F dim)) =
            ((rows[c.depth + 1]?).bind fun row => row[st.off (c.depth + 1) + p]?).bind (parseNode F dim) from by
              rw [Option.bind_assoc, Nat.zero_add]]
          rw [getElem_bind, hc, h1, ← h2, List.append_assoc, List.getElem?_append_right (by omega),
            List.getElem?_append_left (by simpa using hp)]
          simp only [Nat.add_sub_cancel_left, List.getElem?_map, List.getElem?_eq_getElem hp, Option.map_some,
            Option.bind_some]
          exact j1)
      refine ⟨infos, ?_, ?_, ?_⟩
      · unfold readChildren
        rw [List.range_eq_range']; exact i1
      · refine (forall₂_map (f := fun u : Tree (CNode (Geo K)) => roundNode F u.label)
          (g := fun i : NodeInfo K => i.node (c.depth + 1)) i2 ?_).symm
        intro u hu i hi
        rw [hc, ← hdep u hu]; exact hi.2.symm
      · refine (forall₂_map (f := fun u : Tree (CNode (Geo K)) => u.children.length) (g := NodeInfo.nch) i2 ?_).symm
        intro u hu i hi
        exact hi.1.symm
    obtain ⟨infos, hi1, hi2, hi3⟩ := hinfo
    -- the descendants of the children
    have key : ∀ (ts : List (Tree (CNode (Geo K)))) (s1 : RState K), (∀ u ∈ ts, u ∈ t.children) →
        (∀ e, t.label.depth + 1 < e → ∃ A B, rows.getD e [] = A ++ (below e ts).map str ++ B ∧
          A.length = s1.off e) →
        ∃ s2, readList (readNode F dim rows f)
            ((ts.map fun u => roundNode F u.label).zip (ts.map fun u => u.children.length)) s1 =
            some (ts.map (Tree.map (roundNode F)), s2) ∧
          (∀ e, s2.off e = s1.off e + (below e ts).length) ∧
          s2.parts = setParts s1.parts ((below dp ts).map fun s => roundNode F s.label) := by
      intro ts
      induction ts with
      | nil => intro s1 _ _; exact ⟨s1, rfl, fun e => by simp [below], by simp [below, setParts]⟩
      | cons u us ihl =>
        intro s1 hsub hr
        have hu := hsub u (by simp)
        obtain ⟨s2, a1, a2, a3⟩ := ih u (roundNode F u.label) s1 (hDc u hu)
          (fun v hv s hs => hR u hu s (Tree.mem_pre.2 (Or.inr ⟨v, hv, hs⟩))) rfl
          (fun s hs => by
            have := hf s (Tree.mem_pre.2 (Or.inr ⟨u, hu, hs⟩))
            rw [hdep u hu]; omega)
          (fun e he => by
            rw [hdep u hu] at he
            obtain ⟨A, B, b1, b2⟩ := hr e he
            refine ⟨A, (below e us).map str ++ B, ?_, b2⟩
            rw [b1, show below e (u :: us) = lev e u.children ++ below e us from rfl]
            simp)
        obtain ⟨s3, c1, c2, c3⟩ := ihl s2 (fun v hv => hsub v (by simp [hv])) (fun e he => by
          obtain ⟨A, B, b1, b2⟩ := hr e he
          refine ⟨A ++ (lev e u.children).map str, B, ?_, ?_⟩
          · rw [b1, show below e (u :: us) = lev e u.children ++ below e us from rfl]
            simp
          · rw [List.length_append, List.length_map, b2, a2 e])
        refine ⟨s3, ?_, ?_, ?_⟩
        · rw [List.map_cons, List.map_cons, List.zip_cons_cons]
          unfold readList
          rw [a1, Option.bind_some, c1, Option.bind_some]
          congr 2
          rw [List.map_cons]
          congr 1
          cases u with
          | node a cs => rw [Tree.map_node]; rfl
        · intro e
          rw [c2, a2, show below e (u :: us) = lev e u.children ++ below e us from rfl, List.length_append]
          omega
        · rw [c3, a3, show below dp (u :: us) = lev dp u.children ++ below dp us from rfl]
          unfold setParts
          rw [List.map_append, List.foldl_append]
    -- registration of the children
    have hreg : (t.children.map (fun u => roundNode F u.label)).foldl
        (fun ps d => if d.onPart then setPart ps d else ps) st.parts =
        setParts st.parts (if dp = t.label.depth + 1 then t.children.map (fun u => roundNode F u.label) else []) := by
      have hfl : ∀ u ∈ t.children, (roundNode F u.label).onPart = decide (dp = t.label.depth + 1) := by
        intro u hu
        have := (hR u hu u (Tree.mem_pre_self u)).1
        rw [hdep u hu] at this
        show u.label.onPart = _
        rw [this]
        exact decide_eq_decide.2 eq_comm
      have : ∀ (l : List (Tree (CNode (Geo K)))) (ps : List (Option (CNode (Geo K)))),
          (∀ u ∈ l, (roundNode F u.label).onPart = decide (dp = t.label.depth + 1)) →
          (l.map (fun u => roundNode F u.label)).foldl (fun ps d => if d.onPart then setPart ps d else ps) ps =
          setParts ps (if dp = t.label.depth + 1 then l.map (fun u => roundNode F u.label) else []) := by
        intro l
        induction l with
        | nil => intro ps _; simp [setParts]
        | cons u us ihl =>
          intro ps h
          rw [List.map_cons, List.foldl_cons, h u (by simp)]
          by_cases hdp : dp = t.label.depth + 1
          · have := ihl (setPart ps (roundNode F u.label)) (fun v hv => h v (by simp [hv]))
            rw [if_pos hdp] at this ⊢
            simp only [hdp, decide_true, if_true] at this ⊢
            rw [this]; rfl
          · have := ihl ps (fun v hv => h v (by simp [hv]))
            rw [if_neg hdp] at this ⊢
            simp only [hdp, decide_false] at this ⊢
            exact this
      exact this _ _ hfl
    set s1 : RState K := ⟨if t.children.length = 0 then st.off else
        Function.update st.off (c.depth + 1) (st.off (c.depth + 1) + t.children.length),
      setParts st.parts (if dp = t.label.depth + 1 then t.children.map (fun u => roundNode F u.label) else [])⟩
      with hs1
    have hoff : ∀ e, s1.off e = if e = t.label.depth + 1 then st.off e + t.children.length else st.off e := by
      intro e
      show (if t.children.length = 0 then st.off else
        Function.update st.off (c.depth + 1) (st.off (c.depth + 1) + t.children.length)) e = _
      by_cases h0 : t.children.length = 0
      · rw [if_pos h0, h0]; simp
      · rw [if_neg h0, hc]
        by_cases he : e = t.label.depth + 1
        · subst he; rw [if_pos rfl, Function.update_self]
        · rw [if_neg he, Function.update_of_ne he]
    obtain ⟨s2, k1, k2, k3⟩ := key t.children s1 (fun u hu => hu) (fun e he => by
      obtain ⟨A, B, b1, b2⟩ := hrows e (by omega)
      refine ⟨A, B, ?_, ?_⟩
      · rw [b1, lev_of_depth hdep (by omega)]
      · rw [b2, hoff, if_neg (by omega)])
    have hbelow : below (t.label.depth + 1) t.children = [] := by
      unfold below
      rw [List.flatMap_eq_nil_iff]
      intro u hu
      exact lev_eq_nil (hDc u hu) (by rw [hdep u hu])
    refine ⟨s2, ?_, ?_, ?_⟩
    · unfold readNode
      simp only
      rw [hi1, Option.bind_some, hi2, hi3, hreg, k1, Option.bind_some]
    · intro e
      rw [k2, hoff]
      by_cases he : e = t.label.depth + 1
      · subst he
        rw [if_pos rfl, lev_self hdep hDc, hbelow]; simp
      · rw [if_neg he, lev_of_depth hdep he]
    · rw [k3]
      show setParts (setParts st.parts _) _ = _
      by_cases hdp : dp = t.label.depth + 1
      · rw [if_pos hdp]
        subst hdp
        rw [lev_self hdep hDc, hbelow]; rfl
      · rw [if_neg hdp, lev_of_depth hdep hdp]
        rfl

/-! ### The files -/

/-- A cluster tree in the state `create_cluster_tree` leaves it, whose numbers are values of type `int`.
`p0` is the first partition cluster, `dim` the dimension of space. -/
structure Savable (F : NumFmt K) (dim : ℕ) (p0 : CNode (Geo K)) (t : Tree (CNode (Geo K))) (D : TreeData (Geo K)) :
    Prop where
  free : F.Free
  depth0 : t.label.depth = 0
  depths : DepthOK t
  counter0 : t.label.counter = 0
  root : t.label.onPart = false
  first : D.st.parts[0]? = some (some p0)
  flags : ∀ s ∈ t.pre, s.label.onPart = decide (s.label.depth = p0.depth)
  parts : D.st.parts = setParts [] ((lev p0.depth [t]).map Tree.label)
  maxd : ∀ s ∈ t.pre, s.label.depth ≤ D.st.maxDepth
  ints : ∀ s ∈ t.pre, IntNode s
  counters : ∀ s ∈ t.pre, F.toInt (F.parse (intStr s.label.counter)) = s.label.counter
  dims : ∀ s ∈ t.pre, s.label.geo.2.length = dim
  perm : D.st.perm.length = t.label.size
  pos : 0 < t.label.size
  permInts : ∀ i ∈ D.st.perm, FitsInt i
  maxdInt : FitsInt D.st.maxDepth
  mindInt : FitsInt D.st.minDepth

theorem setParts_map (F : NumFmt K) (l : List (CNode (Geo K))) (ps : List (Option (CNode (Geo K)))) :
    setParts (ps.map (Option.map (roundNode F))) (l.map (roundNode F)) =
      (setParts ps l).map (Option.map (roundNode F)) := by
  induction l generalizing ps with
  | nil => rfl
  | cons c l ih =>
    show setParts (setPart (ps.map (Option.map (roundNode F))) (roundNode F c)) (l.map (roundNode F)) =
      (setParts (setPart ps c) l).map _
    rw [← ih]
    congr 1
    unfold setPart
    simp only [List.length_map, show (roundNode F c).rank = c.rank from rfl]
    split_ifs with h
    · simp [List.map_set]
    · simp [List.map_set]

/-- The text between the last space and the end. -/
theorem lastWord_append {a w : Str} (hw : ' ' ∉ w) : lastWord (a ++ ' ' :: w) = w := by
  unfold lastWord
  have : ∀ (a : Str), (splitStr ' ' (a ++ ' ' :: w)).getLast? = some w := by
    intro a
    induction a with
    | nil => simp [splitStr, splitStr_free hw]
    | cons c a ih =>
      rw [List.cons_append]
      have hne := splitStr_ne ' ' (a ++ ' ' :: w)
      unfold splitStr
      split_ifs
      · rw [List.getLast?_cons_of_ne_nil hne]; exact ih
      · cases hx : splitStr ' ' (a ++ ' ' :: w) with
        | nil => exact absurd hx hne
        | cons x xs =>
          simp only
          rw [hx] at ih
          have h2 : xs ≠ [] := by
            rintro rfl
            -- a text with a space splits into at least two pieces
            have : ∀ (b : Str), 2 ≤ (splitStr ' ' (b ++ ' ' :: w)).length := by
              intro b
              induction b with
              | nil => simp [splitStr, splitStr_free hw]
              | cons c b ihb =>
                rw [List.cons_append]
                unfold splitStr
                split_ifs
                · simp only [List.length_cons]; omega
                · cases hy : splitStr ' ' (b ++ ' ' :: w) with
                  | nil => exact absurd hy (splitStr_ne _ _)
                  | cons y ys => rw [hy] at ihb; simpa using ihb
            have := this a
            rw [hx] at this
            simp at this
          rw [List.getLast?_cons_of_ne_nil h2] at ih ⊢
          exact ih
  rw [this a]; rfl

theorem natStr_free {n : ℕ} {d : Char} (h : ¬ (48 ≤ d.toNat ∧ d.toNat ≤ 57)) : d ∉ natStr n :=
  fun hc => h (natStr_digit hc)

/-- The lines of the properties file. -/
def propsLines (D : TreeData (Geo K)) : List Str :=
  ["minclustersize:".toList ++ ' ' :: natStr D.minclustersize, "maximal depth:".toList ++ ' ' :: natStr D.st.maxDepth,
   "minimal depth:".toList ++ ' ' :: natStr D.st.minDepth,
   "permutation:".toList ++ ' ' :: commas (D.st.perm.map natStr),
   "local permutation:".toList ++ ' ' :: natStr (if D.isLocal then 1 else 0)]

theorem savePropsFile_eq {D : TreeData (Geo K)} (h : D.st.perm ≠ []) :
    savePropsFile D = ((propsLines D).map fun r => r ++ ['\n']).flatten := by
  unfold savePropsFile propsLines
  rw [if_neg h]
  simp only [List.map_cons, List.map_nil, List.flatten_cons, List.flatten_nil, List.append_nil]
  have e : ∀ (a b : String) (w : Str), b.toList = a.toList ++ [' '] → b.toList ++ w = a.toList ++ ' ' :: w := by
    intro a b w h; rw [h]; simp
  simp only [List.append_assoc]
  rw [e "minclustersize:" "minclustersize: " _ rfl, e "maximal depth:" "maximal depth: " _ rfl,
    e "minimal depth:" "minimal depth: " _ rfl, e "permutation:" "permutation: " _ rfl,
    e "local permutation:" "local permutation: " _ rfl]
  simp only [List.cons_append, List.nil_append, List.append_assoc]

theorem commas_natStr_free {l : List ℕ} {d : Char} (h : ¬ (48 ≤ d.toNat ∧ d.toNat ≤ 57)) (h' : d ≠ ',') :
    d ∉ commas (l.map natStr) := by
  rw [commas_eq]
  intro hc
  rcases mem_sepBy hc with hc | ⟨x, hx, hc⟩
  · exact h' hc
  · obtain ⟨n, -, rfl⟩ := List.mem_map.1 hx
    exact natStr_free h hc

/-- Reading one complete line. -/
theorem getlineS_line {r : Str} (hr : '\n' ∉ r) (s line : Str) : getlineS (r ++ '\n' :: s, false) line = (r, (s, false)) := by
  unfold getlineS
  have h1 : (r ++ '\n' :: s).dropWhile (fun c => decide (c ≠ '\n')) = '\n' :: s := by
    induction r with
    | nil => simp
    | cons c r ih =>
      have hc : c ≠ '\n' := fun hc => hr (hc ▸ List.mem_cons_self)
      rw [List.cons_append, List.dropWhile_cons, if_pos (by simpa using hc)]
      exact ih fun hc => hr (List.mem_cons_of_mem _ hc)
  have h2 : (r ++ '\n' :: s).takeWhile (fun c => decide (c ≠ '\n')) = r := by
    induction r with
    | nil => simp
    | cons c r ih =>
      have hc : c ≠ '\n' := fun hc => hr (hc ▸ List.mem_cons_self)
      rw [List.cons_append, List.takeWhile_cons, if_pos (by simpa using hc)]
      rw [ih (fun hc => hr (List.mem_cons_of_mem _ hc))]
      rw [List.cons_append, List.dropWhile_cons, if_pos (by simpa using hc)] at h1
      exact h1
  simp only [Bool.false_eq_true, if_false, h1, h2]

/-- Reading complete lines. -/
theorem getLinesS_lines (rows : List Str) (h : ∀ r ∈ rows, '\n' ∉ r) (n : ℕ) (s line : Str) :
    getLinesS (rows.length + n) (((rows.map fun r => r ++ ['\n']).flatten) ++ s, false) line =
      rows ++ getLinesS n (s, false) (rows.getLastD line) := by
  induction rows generalizing line with
  | nil => simp
  | cons r rows ih =>
    rw [List.length_cons, show rows.length + 1 + n = (rows.length + n) + 1 by omega]
    show (getlineS _ line).1 :: getLinesS _ (getlineS _ line).2 (getlineS _ line).1 = _
    have e : ((r :: rows).map fun r => r ++ ['\n']).flatten ++ s = r ++ '\n' :: (((rows.map fun r => r ++ ['\n']).flatten) ++ s) := by
      simp
    rw [e, getlineS_line (h r List.mem_cons_self), ih (fun x hx => h x (List.mem_cons_of_mem _ hx)), List.cons_append]
    congr 3
    cases rows <;> simp [List.getLast?_cons]

theorem propsLines_free (D : TreeData (Geo K)) : ∀ r ∈ propsLines D, '\n' ∉ r := by
  intro r hr
  unfold propsLines at hr
  have hn : ∀ n, '\n' ∉ natStr n := fun n => natStr_free (by decide)
  simp only [List.mem_cons, List.not_mem_nil, or_false] at hr
  rcases hr with rfl | rfl | rfl | rfl | rfl
  all_goals
    rw [List.mem_append, List.mem_cons]
    rintro (hc | hc | hc)
    · revert hc; decide
    · exact absurd hc (by decide)
    · first
        | exact hn _ hc
        | exact commas_natStr_free (by decide) (by decide) hc

theorem getLines_props {D : TreeData (Geo K)} (h : D.st.perm ≠ []) : getLinesS 5 (savePropsFile D, false) [] = propsLines D := by
  rw [savePropsFile_eq h]
  have := getLinesS_lines (propsLines D) (propsLines_free D) 0 [] []
  rw [List.append_nil] at this
  exact this.trans (by simp [getLinesS])

/-- **C11.** Reading the two files written by `save_cluster_tree` succeeds and gives the same tree: same shape, and at
every node the same rank, offset, size, counter, depth and partition flag, with radius and center rounded to the printed
digits; the permutation, its locality, the recorded depths and the leaf size are the same, and the registered partition
clusters are the same clusters. -/
theorem C11_read_saved_tree (F : NumFmt K) {dim : ℕ} {p0 : CNode (Geo K)} {t : Tree (CNode (Geo K))}
    {D : TreeData (Geo K)} (h : Savable F dim p0 t D) :
    ∃ file, saveTreeFile F t D = some file ∧
      readClusterTree F (savePropsFile D) file = some (t.map (roundNode F),
        { D with st := { D.st with parts := D.st.parts.map (Option.map (roundNode F)) } }) := by
  have hpre : t.preorderTraversal = t.pre := Tree.preorderTraversal_eq t
  obtain ⟨rows, r1, r2, r3⟩ := saveStep_foldl F h.first t.pre (List.replicate (D.st.maxDepth + 1) [])
    (fun s hs => by have := h.maxd s hs; simp; omega)
  rw [List.length_replicate] at r2 r3
  have r3' : ∀ e, e < D.st.maxDepth + 1 → rows.getD e [] =
      (lev e [t]).map (fun s => nodeStr F (decide (s.label.depth = p0.depth)) s) := by
    intro e he
    rw [r3 e he]
    have : (List.replicate (D.st.maxDepth + 1) ([] : List Str)).getD e [] = [] := by
      rw [List.getD_eq_getElem _ _ (by simpa using he)]; simp
    rw [this, List.nil_append]
    unfold lev
    simp [Tree.preL]
  set str : Tree (CNode (Geo K)) → Str := fun s => nodeStr F (decide (s.label.depth = p0.depth)) s with hstr
  have hfree : ∀ s, ',' ∉ str s ∧ '\n' ∉ str s := fun s => nodeStr_free h.free _ s
  -- characters of the rows
  have hrowmem : ∀ row ∈ rows, ∀ x ∈ row, ∃ s, x = str s := by
    intro row hr x hx
    obtain ⟨e, he, rfl⟩ := List.getElem_of_mem hr
    have := r3' e (by omega)
    rw [List.getD_eq_getElem _ _ he] at this
    rw [this] at hx
    obtain ⟨s, -, rfl⟩ := List.mem_map.1 hx
    exact ⟨s, rfl⟩
  refine ⟨_, by unfold saveTreeFile saveRows; rw [hpre, r1]; rfl, ?_⟩
  have hout : ((getLines ((rows.map fun r => commas r ++ ['\n']).flatten)).map (splitStr ',')) =
      rows.map fun r => if r = [] then [[]] else r := by
    have e1 : (rows.map fun r => commas r ++ ['\n']) = (rows.map commas).map fun r => r ++ ['\n'] := by
      rw [List.map_map]; rfl
    rw [e1, getLines_lines, List.map_map]
    · apply List.map_congr_left
      intro r hr
      simp only [Function.comp]
      rw [commas_eq]
      by_cases hr0 : r = []
      · subst hr0; rfl
      · rw [if_neg hr0, splitStr_sepBy hr0]
        intro x hx
        obtain ⟨s, rfl⟩ := hrowmem r hr x hx
        exact (hfree s).1
    · intro r hr
      obtain ⟨r', hr', rfl⟩ := List.mem_map.1 hr
      rw [commas_eq]
      intro hc
      rcases mem_sepBy hc with hc | ⟨x, hx, hc⟩
      · exact absurd hc (by decide)
      · obtain ⟨s, rfl⟩ := hrowmem r' hr' x hx
        exact (hfree s).2 hc
  set outputs := rows.map fun r => if r = [] then [[]] else r with houts
  have hog : ∀ e, outputs.getD e [] = (if rows.getD e [] = [] then (if e < rows.length then [[]] else []) else
      rows.getD e []) := by
    intro e
    by_cases he : e < rows.length
    · rw [List.getD_eq_getElem _ _ (by simpa [houts] using he), List.getD_eq_getElem _ _ he]
      simp only [houts, List.getElem_map, if_pos he]
    · rw [List.getD_eq_default _ _ (by simp [houts]; omega), List.getD_eq_default _ _ (by omega)]
      simp [he]
  have hog' : ∀ e, lev e [t] ≠ [] → outputs.getD e [] = (lev e [t]).map str := by
    intro e he
    have hlt : e < D.st.maxDepth + 1 := by
      obtain ⟨s, hs⟩ := List.exists_mem_of_ne_nil _ he
      unfold lev at hs
      rw [List.mem_filter] at hs
      have h1 := h.maxd s (by simpa [Tree.preL] using hs.1)
      have h2 := hs.2
      simp only [decide_eq_true_eq] at h2
      omega
    have hr := r3' e hlt
    have hne : rows.getD e [] ≠ [] := by rw [hr]; simpa using he
    rw [hog, if_neg hne, hr]
  have hroot : lev 0 [t] = [t] := lev_self (fun u hu => by rw [List.mem_singleton.1 hu]; exact h.depth0)
    (fun u hu => by rw [List.mem_singleton.1 hu]; exact h.depths)
  have h0 : ((outputs[0]?).bind fun row => row[0]?) = some (str t) := by
    rw [getElem_bind, hog' 0 (by rw [hroot]; simp), hroot]; rfl
  have hreads : ∀ s ∈ t.pre, Reads F dim p0.depth str s := by
    intro s hs
    refine ⟨h.flags s hs, _, parseNode_nodeStr h.free _ (h.ints s hs) (h.dims s hs) (h.counters s hs), rfl, ?_⟩
    unfold NodeInfo.node roundNode roundGeo
    simp only [h.flags s hs, Int.toNat_natCast]
  have hmem := Tree.mem_pre_self t
  have hlevc : ∀ e, 0 < e → lev e [t] = lev e t.children := by
    intro e he
    rw [lev_singleton, if_neg (by rw [h.depth0]; omega), List.nil_append]
  obtain ⟨st', k1, -, k3⟩ := readNode_spec F dim p0.depth str outputs (outputs.length + 1) t
    (roundNode F t.label) { off := fun _ => 0, parts := [] } h.depths
    (fun u hu s hs => hreads s (Tree.mem_pre.2 (Or.inr ⟨u, hu, hs⟩))) rfl
    (fun s hs => by
      have := h.maxd s hs
      rw [h.depth0]
      simp only [houts, List.length_map]; omega)
    (fun e he => by
      rw [h.depth0] at he
      by_cases hl : lev e t.children = []
      · exact ⟨[], outputs.getD e [], by rw [hl]; simp, rfl⟩
      · refine ⟨[], [], ?_, rfl⟩
        rw [← hlevc e he] at hl ⊢
        rw [hog' e hl]; simp)
  have hperm : D.st.perm ≠ [] := by
    intro h0
    have h1 := h.perm
    have h2 := h.pos
    rw [h0] at h1; simp at h1; omega
  have hw : ∀ n, ' ' ∉ natStr n := fun n => natStr_free (by decide)
  have w0 : lastWord ((propsLines D).getD 0 []) = natStr D.minclustersize := lastWord_append (hw _)
  have w1 : lastWord ((propsLines D).getD 1 []) = natStr D.st.maxDepth := lastWord_append (hw _)
  have w2 : lastWord ((propsLines D).getD 2 []) = natStr D.st.minDepth := lastWord_append (hw _)
  have w3 : lastWord ((propsLines D).getD 3 []) = commas (D.st.perm.map natStr) :=
    lastWord_append (commas_natStr_free (by decide) (by decide))
  have w4 : lastWord ((propsLines D).getD 4 []) = natStr (if D.isLocal then 1 else 0) := lastWord_append (hw _)
  have hp : readPerm t.label.size (splitStr ',' (commas (D.st.perm.map natStr))) = some D.st.perm := by
    rw [commas_eq, splitStr_sepBy (by simpa using hperm)]
    · unfold readPerm
      have : (D.st.perm.map natStr).mapM stoi = some (D.st.perm.map fun i : ℕ => (i : ℤ)) := by
        rw [List.mapM_map]
        refine mapM_some (g := fun i : ℕ => (i : ℤ)) ?_
        intro i hi
        exact stoi_natStr (h.permInts i hi)
      rw [this, Option.bind_some, List.length_map, if_pos (by rw [h.perm]), h.perm,
        List.drop_of_length_le (by simp), List.append_nil, List.map_map]
      congr 1
      conv_rhs => rw [← List.map_id D.st.perm]
      apply List.map_congr_left
      intro i _
      simp
    · intro x hx
      obtain ⟨n, -, rfl⟩ := List.mem_map.1 hx
      exact natStr_free (by decide)
  have hl : stoi (natStr (if D.isLocal then 1 else 0)) = some (if D.isLocal then 1 else 0) := by
    cases D.isLocal <;> decide +kernel
  have hprops : readProps (K := K) t.label.size (getLinesS 5 (savePropsFile D, false) []) =
      some { D with st := { D.st with parts := [] } } := by
    unfold readProps
    rw [getLines_props hperm, w0, w1, w2, w3, w4, strtol_natStr, stoi_natStr h.maxdInt, stoi_natStr h.mindInt, hp, hl]
    simp only [Option.bind_some, Int.toNat_natCast]
    cases D with
    | mk st m l => cases l <;> rfl
  have hi := h.ints t hmem
  set flag := decide (t.label.depth = p0.depth) with hflag
  have hsplit : splitStr '|' (str t) = fields F flag t := nodeStr_split h.free _ t
  have hdim : (fields F flag t).length - 7 = dim := by
    unfold fields
    rw [List.length_append, List.length_map, h.dims t hmem]; simp
  have hrd : readRoot F (fields F flag t) = some (roundNode F t.label, t.children.length) := by
    unfold readRoot
    rw [hdim, fieldNat_int (fs := fields F flag t) (i := 0) (n := t.children.length) rfl hi.nch,
      fieldNat_int (fs := fields F flag t) (i := 2) (n := t.label.offset) rfl hi.offset,
      fieldNat_int (fs := fields F flag t) (i := 3) (n := t.label.size) rfl hi.size,
      fieldInt_int (fs := fields F flag t) (i := 1) (z := t.label.rank) rfl hi.rank,
      fieldInt_int (fs := fields F flag t) (i := 5) (z := t.label.counter) rfl hi.counter,
      fieldCenter_fields F flag t (h.dims t hmem),
      show (fields F flag t)[4]? = some (F.fmt t.label.geo.1) from rfl]
    simp only [Option.bind_some]
    unfold roundNode roundGeo
    rw [h.counter0, h.root, h.depth0]
  unfold readClusterTree
  rw [hout]
  unfold readOutputs
  rw [h0, Option.bind_some, hsplit, hrd, Option.bind_some, show (roundNode F t.label).size = t.label.size from rfl,
    hprops, Option.bind_some, hdim, k1, Option.bind_some]
  have hparts : st'.parts = D.st.parts.map (Option.map (roundNode F)) := by
    rw [k3, h.parts, ← setParts_map]
    have hp0 : 0 < p0.depth := by
      have := h.flags t hmem
      rw [h.root, h.depth0] at this
      have := of_decide_eq_false this.symm
      omega
    rw [hlevc _ hp0, List.map_map]
    rfl
  have htree : Tree.node (roundNode F t.label) (t.children.map (Tree.map (roundNode F))) = t.map (roundNode F) := by
    cases t with
    | node a cs => rw [Tree.map_node]; rfl
  rw [htree, hparts]

/-! ### Trees made by the builder -/

theorem lev_levelTrees {t : Tree (CNode (Geo K))} (hd : DepthOK t) (j : ℕ) :
    lev (t.label.depth + j) [t] = levelTrees j t := by
  induction j generalizing t with
  | zero =>
    exact lev_self (d := t.label.depth) (fun u hu => by rw [List.mem_singleton.1 hu])
      (fun u hu => by rw [List.mem_singleton.1 hu]; exact hd)
  | succ j ih =>
    rw [lev_singleton, if_neg (by omega), List.nil_append]
    show _ = t.children.flatMap (levelTrees j)
    have hdep : ∀ u ∈ t.children, u.label.depth = t.label.depth + 1 := hd t (Tree.mem_pre_self t)
    have : ∀ ts : List (Tree (CNode (Geo K))), (∀ u ∈ ts, u ∈ t.children) →
        lev (t.label.depth + (j + 1)) ts = ts.flatMap (levelTrees j) := by
      intro ts
      induction ts with
      | nil => intro _; rfl
      | cons u us ihl =>
        intro hs
        have hu := hs u (by simp)
        rw [lev_cons, ihl (fun v hv => hs v (by simp [hv])), List.flatMap_cons]
        congr 1
        have := ih (hd.child hu)
        rw [hdep u hu] at this
        rw [← this]; congr 1; omega
    exact this _ (fun u hu => hu)

theorem setParts_range (l : List (CNode (Geo K))) (ps : List (Option (CNode (Geo K))))
    (h : ∀ r (hr : r < l.length), l[r].rank = ((ps.length + r : ℕ) : ℤ)) : setParts ps l = ps ++ l.map some := by
  induction l generalizing ps with
  | nil => simp [setParts]
  | cons c l ih =>
    have h0 := h 0 (by simp)
    simp only [List.getElem_cons_zero, Nat.add_zero] at h0
    have e : setPart ps c = ps ++ [some c] := by
      unfold setPart
      simp only [h0, Int.toNat_natCast]
      rw [if_pos (by omega), show ps.length + 1 - ps.length = 1 from by omega]
      simp
    show setParts (setPart ps c) l = _
    rw [e, ih]
    · simp
    · intro r hr
      have := h (r + 1) (by simpa using hr)
      simp only [List.getElem_cons_succ] at this
      rw [this, List.length_append, List.length_singleton]
      congr 1; omega

theorem exists_leaf_below (t : Tree (CNode (Geo K))) (hd : DepthOK t) :
    ∃ l ∈ t.leaves, t.label.depth ≤ l.label.depth := by
  obtain ⟨l, hl⟩ := List.exists_mem_of_ne_nil _ (Tree.leaves_ne_nil t)
  refine ⟨l, hl, ?_⟩
  rcases hd.le l ((Tree.mem_leaves_iff t l).1 hl).1 with rfl | h
  · exact Nat.le_refl _
  · omega

theorem le_maxDepth {t : Tree (CNode (Geo K))} (hd : DepthOK t) {m : ℕ} (h : ∀ l ∈ t.leaves, l.label.depth ≤ m) :
    ∀ s ∈ t.pre, s.label.depth ≤ m := by
  intro s hs
  have hds : DepthOK s := fun x hx => hd x (Tree.mem_pre_trans hs hx)
  obtain ⟨l, hl, hle⟩ := exists_leaf_below s hds
  have h1 := (Tree.mem_leaves_iff s l).1 hl
  have := h l ((Tree.mem_leaves_iff t l).2 ⟨Tree.mem_pre_trans hs h1.1, h1.2⟩)
  omega

theorem pre_parent {α : Type*} {t s : Tree α} (h : s ∈ t.pre) : s = t ∨ ∃ w ∈ t.pre, s ∈ w.children := by
  induction t using Tree.ind with
  | h a cs ih =>
    rcases Tree.mem_pre.1 h with rfl | ⟨c, hc, hs⟩
    · exact Or.inl rfl
    · refine Or.inr ?_
      rcases ih c hc hs with rfl | ⟨w, hw, hsw⟩
      · exact ⟨_, Tree.mem_pre_self _, hc⟩
      · exact ⟨w, Tree.mem_pre.2 (Or.inr ⟨c, hc, hw⟩), hsw⟩

/-- The recorded tree data of a built tree: the recorded leaf size `m` is arbitrary (it is always 10, see C80), the permutation is local when the
partition is given (recursive_build.hpp 84). -/
def builtData (m : ℕ) (arg : PartArg) (st : CState (Geo K)) : TreeData (Geo K) :=
  { st := st, minclustersize := m, isLocal := match arg with | .auto _ => false | .given _ => true }

variable {D : Type*}

theorem built_partition {S : Strategies D (Geo K)} (hS : S.OK) {flog} (hf : FlogOK flog) {fuel n nc : ℕ}
    (hnc : 2 ≤ nc) {arg : PartArg} (ha : arg.ok n) {t : Tree (CNode (Geo K))} {st : CState (Geo K)}
    (h : createClusterTree S flog fuel n nc arg = some (t, st)) (hranks : ∀ l ∈ t.leaves, 0 ≤ l.label.rank) :
    ∃ (j : ℕ) (p0 : CNode (Geo K)), p0.depth = j + 1 ∧ st.parts[0]? = some (some p0) ∧
      st.parts = setParts [] ((lev (j + 1) [t]).map Tree.label) ∧
      t.label.counter = 0 ∧ t.label.onPart = false ∧
      ∀ s ∈ t.pre, s.label.onPart = decide (s.label.depth = j + 1) := by
  obtain ⟨-, -, hd0, -, hD⟩ := create_shape hS hf hnc ha h
  cases arg with
  | auto sp =>
    obtain ⟨j, hj, -, h1, h2, h3, -, -⟩ := create_parts_auto hS hf hnc ha h hranks
    have hE := simpleEnv_ok hS hf hnc ha
    obtain ⟨hl, hN⟩ := build_nodes hE h
    have hlev := lev_levelTrees hD (j + 1)
    rw [hd0, Nat.zero_add] at hlev
    have hlab : (lev (j + 1) [t]).map Tree.label = levelNodes (j + 1) t := by rw [hlev, levelTrees_label]
    have hsp : 1 ≤ sp := ha
    have hpos : 0 < (levelNodes (j + 1) t).length := by omega
    refine ⟨j, (levelNodes (j + 1) t)[0], ?_, ?_, ?_, by rw [hl]; rfl, by rw [hl]; rfl, ?_⟩
    · have := levelNodes_depth hD (j + 1) _ (List.getElem_mem hpos)
      rw [hd0] at this; omega
    · rw [h1, List.getElem?_map, List.getElem?_eq_getElem hpos]; rfl
    · rw [h1, hlab, setParts_range _ _ (fun r hr => by rw [h3 r hr]; simp)]; rfl
    · -- flags
      have hroot : t.label.onPart = decide (t.label.depth = j + 1) := by
        rw [hd0, hl]
        exact (decide_eq_false (by omega)).symm
      have key : ∀ s ∈ t.pre, ∀ u ∈ s.children, u.label.onPart = decide (u.label.depth = j + 1) := by
        intro s hs u hu
        obtain ⟨-, hch⟩ := hN s hs (List.ne_nil_of_mem hu)
        obtain ⟨p, hp, hpu⟩ := List.getElem_of_mem hu
        obtain ⟨-, q1, q2, q3⟩ := hch p u (List.getElem?_eq_some_iff.2 ⟨hp, hpu⟩)
        have hlv : (simpleEnv S flog nc sp).lvl s.label.depth = decide (s.label.depth + 1 = j + 1) := by
          unfold CEnv.lvl
          rw [hj]; rfl
        rw [q1]
        cases hb : (simpleEnv S flog nc sp).lvl s.label.depth with
        | true => rw [(q2 hb).1, ← hlv, hb]
        | false => rw [(q3 hb).1, ← hlv, hb]
      intro s hs
      rcases pre_parent hs with rfl | ⟨w, hw, hsw⟩
      · exact hroot
      · exact key w hw s hsw
  | given partition =>
    obtain ⟨parts, h1, h2, h3, h4⟩ := C05_given_partition_clusters hS hnc h
    have hE := givenEnv_ok (D := D) (G := Geo K) hS hnc
    obtain ⟨ts, rfl, hb⟩ := createGiven_inv h
    have hN := createGiven_nodes' hS hnc hb
    have hne : ts ≠ [] := by
      rintro rfl
      have := hranks _ (by rw [Tree.leaves]; exact List.mem_singleton.2 rfl)
      simp [rootNode] at this
    have hlev := lev_levelTrees hD 1
    rw [hd0, Nat.zero_add] at hlev
    have hlt : levelTrees 1 (Tree.node (rootNode (givenEnv S nc) n) ts) = ts := by
      show ts.flatMap (fun u => [u]) = ts
      simp
    rw [hlt] at hlev
    have hpos : 0 < parts.length := by
      rw [h2]; simpa [List.length_pos_iff] using hne
    refine ⟨0, parts[0], ?_, ?_, ?_, rfl, rfl, ?_⟩
    · have : parts[0] ∈ ts.map Tree.label := by
        have h5 : parts = ts.map Tree.label := h2
        exact h5 ▸ List.getElem_mem hpos
      obtain ⟨u, hu, hu'⟩ := List.mem_map.1 this
      rw [← hu', hD _ (Tree.mem_pre_self _) u hu]; rfl
    · rw [h1, List.getElem?_map, List.getElem?_eq_getElem hpos]; rfl
    · rw [hlev, h1, setParts_range, h2]
      · rfl
      · intro r hr
        have := h3 r (by rw [h2]; exact hr)
        simp only [h2] at this
        rw [List.length_nil, Nat.zero_add]
        exact this
    · intro s hs
      rcases Tree.mem_pre.1 hs with rfl | ⟨u, hu, hsu⟩
      · rfl
      · have hu1 : u.label.depth = 1 := hD _ (Tree.mem_pre_self _) u hu
        have huP : u.label.onPart = true := by
          have : u.label ∈ givenChildren S n partition := by rw [← hN.1]; exact List.mem_map_of_mem hu
          obtain ⟨p, hp, e⟩ := List.getElem_of_mem this
          rw [← e]; exact (givenChildren_get hp).2.2.2.1
        rcases pre_parent hsu with rfl | ⟨w, hw, hsw⟩
        · rw [huP, hu1]; rfl
        · have hDu : DepthOK u := hD.child hu
          have hNu := hN.2 u hu
          obtain ⟨-, hch⟩ := hNu w hw (List.ne_nil_of_mem hsw)
          obtain ⟨p, hp, hpu⟩ := List.getElem_of_mem hsw
          obtain ⟨-, q1, -, q3⟩ := hch p s (List.getElem?_eq_some_iff.2 ⟨hp, hpu⟩)
          have hlv : (givenEnv S nc).lvl w.label.depth = false := by simp [CEnv.lvl, givenEnv]
          rw [(q3 hlv).1, q1]
          have : u.label.depth ≤ w.label.depth := by
            rcases hDu.le w hw with rfl | hh
            · exact Nat.le_refl _
            · omega
          exact (decide_eq_false (by omega)).symm

/-- A tree made by the builder can be saved. -/
theorem savable_of_built (F : NumFmt K) (hF : F.Free) {S : Strategies D (Geo K)} (hS : S.OK) {flog}
    (hf : FlogOK flog) {fuel n nc dim m : ℕ} (hnc : 2 ≤ nc) (hn : 0 < n) {arg : PartArg} (ha : arg.ok n)
    (hdim : ∀ perm off sz, (S.geo perm off sz).2.length = dim)
    {t : Tree (CNode (Geo K))} {st : CState (Geo K)}
    (h : createClusterTree S flog fuel n nc arg = some (t, st)) (hranks : ∀ l ∈ t.leaves, 0 ≤ l.label.rank)
    (hints : ∀ s ∈ t.pre, IntNode s) (hsize : FitsInt n) (hdep : ∀ l ∈ t.leaves, FitsInt l.label.depth)
    (hcnt : ∀ s ∈ t.pre, F.toInt (F.parse (intStr s.label.counter)) = s.label.counter) :
    ∃ p0, Savable F dim p0 t (builtData m arg st) := by
  obtain ⟨-, hsz, hd0, -, hD⟩ := create_shape hS hf hnc ha h
  obtain ⟨j, p0, a1, a2, a3, a4, a5, a6⟩ := built_partition hS hf hnc ha h hranks
  have hrep : ∀ l ∈ t.leaves, l.label.depth ≤ uintMax := fun l hl => by
    have := (hdep l hl).2
    unfold uintMax; omega
  obtain ⟨⟨⟨l1, hl1, e1⟩, b1⟩, ⟨l2, hl2, e2⟩, -⟩ := C07_recorded_depths h hranks hrep
  obtain ⟨c1, -, c3⟩ := C02_permutation_is_bijection hS hf hnc ha h
  have hs : Savable F dim p0 t (builtData m arg st) :=
    { free := hF, depth0 := hd0, depths := hD, counter0 := a4, root := a5, first := a2,
      flags := by rw [a1]; exact a6
      parts := by rw [a1]; exact a3
      maxd := le_maxDepth hD b1
      ints := hints
      counters := hcnt
      dims := fun s hs => by
        obtain ⟨q, hq, -⟩ := C04_index_set_frozen hS hf hnc ha h s hs
        rw [hq]; exact hdim _ _ _
      perm := by rw [hsz]; exact c1
      pos := by rw [hsz]; exact hn
      permInts := fun i hi => by
        have := (c3 i).1 hi
        unfold FitsInt at hsize ⊢; omega
      maxdInt := by show FitsInt st.maxDepth; rw [← e1]; exact hdep l1 hl1
      mindInt := by show FitsInt st.minDepth; rw [← e2]; exact hdep l2 hl2 }
  exact ⟨p0, hs⟩

/-- **C11 (trees made by the builder).** For every tree returned by `create_cluster_tree` whose leaves all belong to a part
of the partition, saving and reading give the same tree and tree data back. The remaining hypotheses only say that numbers
fit in the C++ types: the integers in `int`, and the counters in a coordinate (cluster_output.hpp 167). -/
theorem C11_read_saved_built_tree (F : NumFmt K) (hF : F.Free) {S : Strategies D (Geo K)} (hS : S.OK) {flog}
    (hf : FlogOK flog) {fuel n nc dim m : ℕ} (hnc : 2 ≤ nc) (hn : 0 < n) {arg : PartArg} (ha : arg.ok n)
    (hdim : ∀ perm off sz, (S.geo perm off sz).2.length = dim)
    {t : Tree (CNode (Geo K))} {st : CState (Geo K)}
    (h : createClusterTree S flog fuel n nc arg = some (t, st)) (hranks : ∀ l ∈ t.leaves, 0 ≤ l.label.rank)
    (hints : ∀ s ∈ t.pre, IntNode s) (hsize : FitsInt n) (hdep : ∀ l ∈ t.leaves, FitsInt l.label.depth)
    (hcnt : ∀ s ∈ t.pre, F.toInt (F.parse (intStr s.label.counter)) = s.label.counter) :
    ∃ file, saveTreeFile F t (builtData m arg st) = some file ∧
      readClusterTree F (savePropsFile (builtData m arg st)) file = some (t.map (roundNode F),
        builtData m arg { st with parts := st.parts.map (Option.map (roundNode F)) }) := by
  obtain ⟨p0, hs⟩ := savable_of_built (m := m) F hF hS hf hnc hn ha hdim h hranks hints hsize hdep hcnt
  exact C11_read_saved_tree F hs

/-! ### Non-vacuity -/

/-- Coordinates that are integers, printed exactly. -/
def exFmt : NumFmt ℤ := { fmt := intStr, parse := fun s => (strtol s).getD 0, toInt := id }

theorem exFmt_free : exFmt.Free := fun _ =>
  ⟨intStr_free (by decide) (by decide), intStr_free (by decide) (by decide), intStr_free (by decide) (by decide)⟩

/-- Concrete strategies in dimension 2. -/
def exIOStrategies : Strategies Unit (Geo ℤ) where
  dir := fun _ _ => ()
  sort := fun _ l => l.reverse
  split := fun _ _ off size k => regularSplitting off size k 1
  geo := fun _ off sz => ((sz : ℤ), [(off : ℤ), -3])

theorem exIOStrategies_ok : exIOStrategies.OK :=
  strategies_ok_of_regular _ 1 (fun _ l => List.reverse_perm l) rfl

/-- The whole round trip for 9 points in two parts. -/
def exRound : Option (Str × Tree (CNode (Geo ℤ)) × TreeData (Geo ℤ)) :=
  (createClusterTree exIOStrategies Nat.log 12 9 2 (.auto 2)).bind fun r =>
    (saveTreeFile exFmt r.1 (builtData 1 (.auto 2) r.2)).bind fun file =>
      (readClusterTree exFmt (savePropsFile (builtData 1 (.auto 2) r.2)) file).map fun q => (file, q.1, q.2)

/-- The text of the tree file. -/
example : exRound.map (fun q => q.1) =
    some ("2|-1|0|9|9|0|0|0|-3\n2|0|0|4|4|0|1|0|-3,2|1|4|5|5|1|1|4|-3\n0|0|0|2|2|0|0|0|-3,0|0|2|2|2|1|0|2|-3,0|1|4|2|2|2|0|4|-3,0|1|6|3|3|3|0|6|-3\n".toList) := by
  unfold exRound
  simp only [saveTreeFile, saveRows, Tree.preorderTraversal_eq]
  decide +kernel

/-- The tree that was read. -/
example : exRound.map (fun q => q.2.1.pre.map (fun s => (s.label.offset, s.label.size, s.label.counter))) =
    some [(0, 9, 0), (0, 4, 0), (0, 2, 0), (2, 2, 1), (4, 5, 1), (4, 2, 2), (6, 3, 3)] := by
  unfold exRound
  simp only [saveTreeFile, saveRows, Tree.preorderTraversal_eq]
  decide +kernel

/-- The hypotheses of `C11_read_saved_built_tree` hold for this tree. -/
example : ∃ t st, createClusterTree exIOStrategies Nat.log 12 9 2 (.auto 2) = some (t, st) ∧
    (∀ l ∈ t.leaves, 0 ≤ l.label.rank) ∧ (∀ s ∈ t.pre, IntNode s) ∧ (∀ l ∈ t.leaves, FitsInt l.label.depth) ∧
    (∀ s ∈ t.pre, exFmt.toInt (exFmt.parse (intStr s.label.counter)) = s.label.counter) ∧
    exFmt.Free ∧ exIOStrategies.OK ∧ ∀ perm off sz, (exIOStrategies.geo perm off sz).2.length = 2 := by
  have h : ((createClusterTree exIOStrategies Nat.log 12 9 2 (.auto 2)).any fun r =>
      r.1.leaves.all (fun l => decide (0 ≤ l.label.rank) && decide (FitsInt l.label.depth)) &&
      r.1.pre.all (fun s => decide (FitsInt s.children.length) && decide (FitsInt s.label.rank) &&
        decide (FitsInt s.label.offset) && decide (FitsInt s.label.size) && decide (FitsInt s.label.counter))) = true := by
    decide +kernel
  rw [Option.any_eq_true] at h
  obtain ⟨⟨t, st⟩, h1, h2⟩ := h
  simp only [Bool.and_eq_true, List.all_eq_true, decide_eq_true_eq] at h2
  refine ⟨t, st, h1, fun l hl => (h2.1 l hl).1, fun s hs => ?_, fun l hl => (h2.1 l hl).2, fun s _ => ?_,
    exFmt_free, exIOStrategies_ok, fun _ _ _ => rfl⟩
  · obtain ⟨⟨⟨⟨a, b⟩, c⟩, d⟩, e⟩ := h2.2 s hs
    exact ⟨a, b, c, d, e⟩
  · show (strtol (intStr s.label.counter)).getD 0 = _
    rw [strtol_intStr]; rfl

end Htool.ClusterIO
