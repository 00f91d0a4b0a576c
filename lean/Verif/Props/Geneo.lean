import Verif.Geneo
import Verif.Props.Ddm
import Mathlib.Data.Finset.Card

/-! # C49, C50: GenEO -/

open Finset

namespace Htool

/-! ## C50: threshold selection -/

section space
variable {F : Type*} [Field F] [LinearOrder F] [IsStrictOrderedRing F]

/-- The two loops with their common shape. -/
def selLoop (keep : ℕ → Prop) [DecidablePred keep] (index : List ℕ) : ℕ → ℕ → Option ℕ
  | 0, _ => none
  | f + 1, nevi =>
    match index[nevi]? with
    | none => none
    | some i => if keep i then selLoop keep index f (nevi + 1) else some nevi

omit [Field F] [IsStrictOrderedRing F] in
theorem gvLoop_eq (w : ℕ → F) (thr : F) (index : List ℕ) (f k : ℕ) : gvLoop w thr index f k = selLoop (fun i => thr < w i) index f k := by
  induction f generalizing k with
  | zero => rfl
  | succ f ih =>
    unfold gvLoop selLoop
    cases h : index[k]? with
    | none => rfl
    | some i =>
      have hk : k < index.length := (List.getElem?_eq_some_iff.1 h).1
      simp only [hk, and_true, ih]

omit [IsStrictOrderedRing F] in
theorem ggevLoop_eq (tiny : F) (al be : ℕ → F) (thr : F) (index : List ℕ) (f k : ℕ) :
    ggevLoop tiny al be thr index f k = selLoop (fun i => be i < tiny ∨ thr < al i / be i) index f k := by
  induction f generalizing k with
  | zero => rfl
  | succ f ih =>
    unfold ggevLoop selLoop
    cases h : index[k]? with
    | none => rfl
    | some i =>
      have hk : k < index.length := (List.getElem?_eq_some_iff.1 h).1
      simp only [hk, and_true, ih]

theorem selLoop_none (keep : ℕ → Prop) [DecidablePred keep] {index : List ℕ} (h : ∀ i ∈ index, keep i) (f k : ℕ) :
    selLoop keep index f k = none := by
  induction f generalizing k with
  | zero => rfl
  | succ f ih =>
    unfold selLoop
    cases hk : index[k]? with
    | none => rfl
    | some i =>
      simp only
      rw [if_pos (h i (List.mem_of_getElem? hk)), ih]

theorem selLoop_some (keep : ℕ → Prop) [DecidablePred keep] {index : List ℕ} {m : ℕ} (hm : m < index.length) (h1 : ¬ keep index[m])
    (h2 : ∀ p (hp : p < m), keep (index[p]'(by omega))) (f k : ℕ) (hk : k ≤ m) (hf : m - k < f) : selLoop keep index f k = some m := by
  induction f generalizing k with
  | zero => omega
  | succ f ih =>
    unfold selLoop
    rw [List.getElem?_eq_getElem (by omega : k < index.length)]
    simp only
    rcases Nat.lt_or_ge k m with h3 | h3
    · rw [if_pos (h2 k h3)]
      exact ih (k + 1) (by omega) (by omega)
    · obtain rfl : k = m := by omega
      rw [if_neg h1]

/-- The loop on a list where the kept indices come first. -/
theorem selLoop_sorted (keep : ℕ → Prop) [DecidablePred keep] {index : List ℕ} (hs : index.Pairwise (fun a b => keep b → keep a))
    (hex : ∃ i ∈ index, ¬ keep i) :
    ∃ k < index.length, selLoop keep index (index.length + 1) 0 = some k ∧ ∀ p (hp : p < index.length), keep index[p] ↔ p < k := by
  classical
  have hex' : ∃ m, ∃ hm : m < index.length, ¬ keep index[m] := by
    obtain ⟨i, hi, hk⟩ := hex
    obtain ⟨m, hm, rfl⟩ := List.getElem_of_mem hi
    exact ⟨m, hm, hk⟩
  obtain ⟨hm, hk⟩ := Nat.find_spec hex'
  set m := Nat.find hex' with hmd
  have hlt : ∀ p (hp : p < m), keep (index[p]'(by omega)) := by
    intro p hp
    by_contra hc
    exact Nat.find_min hex' hp ⟨by omega, hc⟩
  refine ⟨m, hm, selLoop_some keep hm hk hlt _ 0 (by omega) (by omega), fun p hp => ⟨fun h => ?_, fun h => hlt p h⟩⟩
  by_contra hc
  rcases Nat.lt_or_ge m p with h3 | h3
  · exact hk (List.pairwise_iff_getElem.1 hs m p hm hp h3 h)
  · obtain rfl : p = m := by omega
    exact hk h

/-- What the property asks for: the coarse space keeps exactly the eigenvectors selected by `keep`, one per column, and is zero on the
overlap. -/
def Selects {R : Type*} [Zero R] (n nInside : ℕ) (keep : ℕ → Prop) (vec : ℕ → ℕ → R) (Z : ℕ × (ℕ → ℕ → R)) : Prop :=
  ∃ sel : List ℕ, sel.length = Z.1 ∧ sel.Nodup ∧ (∀ e, e ∈ sel ↔ e < n ∧ keep e) ∧
    (∀ j (hj : j < sel.length), ∀ i < nInside, Z.2 i j = vec i sel[j]) ∧ ∀ i, nInside ≤ i → ∀ j, Z.2 i j = 0

theorem selects_take {R : Type*} [Zero R] {n nInside k : ℕ} {keep : ℕ → Prop} (vec : ℕ → ℕ → R) {index : List ℕ}
    (hp : index.Perm (List.range n)) (hk : k ≤ index.length) (h : ∀ p (hp : p < index.length), keep index[p] ↔ p < k) :
    ∃ Z, geneoZ nInside (some k) vec index = some Z ∧ Selects n nInside keep vec Z := by
  unfold geneoZ
  simp only [Option.bind_some]
  rw [if_neg (by omega)]
  refine ⟨_, rfl, index.take k, by simp [hk], (hp.nodup_iff.2 List.nodup_range).sublist (List.take_sublist _ _), ?_, ?_, ?_⟩
  · intro e
    constructor
    · intro he
      obtain ⟨p, hp', rfl⟩ := List.getElem_of_mem he
      rw [List.length_take] at hp'
      rw [List.getElem_take]
      exact ⟨List.mem_range.1 (hp.mem_iff.1 (List.getElem_mem _)), (h p (by omega)).2 (by omega)⟩
    · rintro ⟨he, hke⟩
      obtain ⟨p, hp', rfl⟩ := List.getElem_of_mem (hp.mem_iff.2 (List.mem_range.2 he))
      have := (h p hp').1 hke
      rw [← List.getElem_take (j := k) (h := by rw [List.length_take]; omega)]
      exact List.getElem_mem _
  · intro j hj i hi
    rw [List.length_take] at hj
    simp only
    rw [if_pos ⟨hi, by omega⟩, List.getElem_take, List.getD_eq_getElem _ _ (by omega)]
  · intro i hi j
    simp only
    rw [if_neg (by omega)]

/-- **C50, partial.** Symmetric branch with a positive threshold, when at least one eigenvalue is not above the threshold: the coarse space is
made of the eigenvectors whose eigenvalue has a modulus above the threshold, no read is out of bounds. Missing: the case where all
eigenvalues are above the threshold, for which the claim is false (`C50_out_of_bounds`). -/
theorem C50_threshold_partial {R : Type*} [Zero R] {n nInside nu : ℕ} {w : ℕ → F} {thr : F} (ht : 0 < thr) (vec : ℕ → ℕ → R) {index : List ℕ}
    (hs : SortedIndex n (gvBefore w) index) (hex : ∃ e < n, ¬ thr < w e) :
    ∃ Z, geneoZ nInside (gvNevi w nu thr index) vec index = some Z ∧ Selects n nInside (fun e => thr < w e) vec Z := by
  obtain ⟨hp, hsort⟩ := hs
  obtain ⟨k, hk, h1, h2⟩ := selLoop_sorted (fun e => thr < w e) (index := index)
    (hsort.imp (fun {a b} hab hb => by unfold gvBefore at hab; exact lt_of_lt_of_le hb (not_lt.1 hab)))
    (by obtain ⟨e, he, hk⟩ := hex; exact ⟨e, hp.mem_iff.2 (List.mem_range.2 he), hk⟩)
  unfold gvNevi
  rw [if_pos ht, gvLoop_eq, h1]
  exact selects_take vec hp (by omega) h2

/-- **C50, partial.** The general branch: `alphar` and `beta` have moduli `al` and `be`, and an eigenvalue with a tiny `beta` is infinite. -/
theorem C50_threshold_general_partial {R : Type*} [Zero R] {n nInside nu : ℕ} {tiny : F} {al be : ℕ → F} {thr : F} (ht : 0 < thr)
    (vec : ℕ → ℕ → R) {index : List ℕ} (hs : SortedIndex n (ggevBefore tiny al be) index)
    (hex : ∃ e < n, ¬ be e < tiny ∧ ¬ thr < al e / be e) :
    ∃ Z, geneoZ nInside (ggevNevi tiny al be nu thr index) vec index = some Z ∧
      Selects n nInside (fun e => be e < tiny ∨ thr < al e / be e) vec Z := by
  obtain ⟨hp, hsort⟩ := hs
  obtain ⟨k, hk, h1, h2⟩ := selLoop_sorted (fun e => be e < tiny ∨ thr < al e / be e) (index := index)
    (hsort.imp (fun {a b} hab hb => by
      unfold ggevBefore at hab
      by_contra hc
      rw [not_or] at hc
      refine hab ⟨?_, hc.1⟩
      rcases hb with hb | hb
      · exact Or.inl hb
      · exact Or.inr (lt_of_le_of_lt (not_lt.1 hc.2) hb)))
    (by obtain ⟨e, he, hk⟩ := hex; exact ⟨e, hp.mem_iff.2 (List.mem_range.2 he), not_or.2 hk⟩)
  unfold ggevNevi
  rw [if_pos ht, ggevLoop_eq, h1]
  exact selects_take vec hp (by omega) h2

omit [IsStrictOrderedRing F] in
/-- **C50 (defect).** When all eigenvalues are above the threshold (or there is no unknown), `index` is read out of its bounds, in both
branches. -/
theorem C50_out_of_bounds {R : Type*} [Zero R] {n nInside nu : ℕ} {thr : F} (ht : 0 < thr) (vec : ℕ → ℕ → R) {index : List ℕ}
    (hp : index.Perm (List.range n)) :
    (∀ w : ℕ → F, (∀ e < n, thr < w e) → geneoZ nInside (gvNevi w nu thr index) vec index = none) ∧
    (∀ (tiny : F) (al be : ℕ → F), (∀ e < n, be e < tiny ∨ thr < al e / be e) →
      geneoZ nInside (ggevNevi tiny al be nu thr index) vec index = none) := by
  constructor
  · intro w h
    unfold gvNevi geneoZ
    rw [if_pos ht, gvLoop_eq, selLoop_none _ (fun i hi => h i (List.mem_range.1 (hp.mem_iff.1 hi)))]
    rfl
  · intro tiny al be h
    unfold ggevNevi geneoZ
    rw [if_pos ht, ggevLoop_eq, selLoop_none _ (fun i hi => h i (List.mem_range.1 (hp.mem_iff.1 hi)))]
    rfl

omit [IsStrictOrderedRing F] in
/-- **C50.** Without threshold, `geneo_nu` vectors are kept, and no eigenvalue left out comes before a kept one. If `geneo_nu` is larger than
the number of unknowns, `index` is read out of its bounds. -/
theorem C50_number {R : Type*} [Zero R] {n nInside nu : ℕ} {w : ℕ → F} {thr : F} (ht : ¬ 0 < thr) (vec : ℕ → ℕ → R) {index : List ℕ}
    (hs : SortedIndex n (gvBefore w) index) :
    (nu ≤ n → ∃ Z, geneoZ nInside (gvNevi w nu thr index) vec index = some Z ∧ Z.1 = nu ∧
      ∃ keep : ℕ → Prop, Selects n nInside keep vec Z ∧ ∀ a < n, ∀ b < n, keep a → ¬ keep b → w b ≤ w a) ∧
    (0 < nInside → n < nu → geneoZ nInside (gvNevi w nu thr index) vec index = none) := by
  obtain ⟨hp, hsort⟩ := hs
  have hl : index.length = n := by rw [hp.length_eq, List.length_range]
  have hnd := hp.nodup_iff.2 List.nodup_range
  unfold gvNevi
  rw [if_neg ht]
  constructor
  · intro hn
    have hkeep : ∀ p (hp : p < index.length), index.idxOf index[p] < nu ↔ p < nu := by
      intro p hp
      rw [List.Nodup.idxOf_getElem hnd p hp]
    obtain ⟨Z, h1, h2⟩ := selects_take (nInside := nInside) (keep := fun e => index.idxOf e < nu) vec hp (by omega : nu ≤ index.length) hkeep
    refine ⟨Z, h1, ?_, _, h2, ?_⟩
    · unfold geneoZ at h1
      simp only [Option.bind_some] at h1
      rw [if_neg (by omega)] at h1
      rw [← Option.some.inj h1]
    · intro a ha b hb h3 h4
      have ma := hp.mem_iff.2 (List.mem_range.2 ha)
      have mb := hp.mem_iff.2 (List.mem_range.2 hb)
      have la := List.idxOf_lt_length_of_mem ma
      have lb := List.idxOf_lt_length_of_mem mb
      have := List.pairwise_iff_getElem.1 hsort _ _ la lb (by omega)
      rw [List.getElem_idxOf, List.getElem_idxOf] at this
      exact not_lt.1 this
  · intro h0 hn
    unfold geneoZ
    simp only [Option.bind_some]
    rw [if_pos ⟨h0, by omega⟩]

/-- Eigenvalues 5, 1, 7, 3 with threshold 2: vectors 2, 0, 3 are kept, and nothing is returned with threshold 1/2. -/
example : let w : ℕ → ℚ := fun e => [5, 1, 7, 3].getD e 0
    SortedIndex 4 (gvBefore w) [2, 0, 3, 1] ∧ gvNevi w 0 2 [2, 0, 3, 1] = some 3 ∧ gvNevi w 0 (1 / 2) [2, 0, 3, 1] = none := by
  refine ⟨⟨by decide, ?_⟩, by decide +kernel, by decide +kernel⟩
  unfold gvBefore
  decide +kernel

end space

/-! ## C49: coarse operator -/

variable {R : Type*} [CommRing R] [StarRing R]

/-- Coarse vector `j` of rank `r` as a vector of the whole problem (partition numbering): its values on the unknowns owned by the rank, zero
elsewhere. -/
def coarseVec (D : DOp R) (Z : ℕ → ℕ → Buf R) (r j : ℕ) (a : ℕ) : R :=
  if D.tgt.off r ≤ a ∧ a < D.tgt.off r + D.tgt.size r then Z r j (a - D.tgt.off r) else 0

/-- The sub-matrix products needed by the coarse operator, for the matrix `M` in partition numbering (see
`C43_distributed_sub_matrix_product_partial`). -/
def DOp.SubOK (D : DOp R) (M : ℕ → ℕ → R) : Prop := ∀ r < D.P, ∀ i < D.P, ∀ (mu : ℕ) (x y : Buf R),
  ∃ z, D.subMat r x y mu (D.tgt.off i) (D.tgt.size i) = some z ∧ ∀ c < mu, ∀ k < D.tgt.size r,
    z (k * mu + c) = ∑ l ∈ range (D.tgt.size i), M (D.tgt.off r + k) (D.tgt.off i + l) * x (l * mu + c)

omit [CommRing R] [StarRing R] in
theorem foldl_updE (a b d e : ℕ) (f : ℕ → ℕ → R) (E0 : ℕ → ℕ → R) (p q : ℕ) :
    (List.range a).foldl (fun E j => (List.range b).foldl (fun E jj =>
      Function.update E (d + j) (Function.update (E (d + j)) (e + jj) (f j jj))) E) E0 p q =
      if d ≤ p ∧ p < d + a ∧ e ≤ q ∧ q < e + b then f (p - d) (q - e) else E0 p q := by
  have inner : ∀ (g : ℕ → R) (P : ℕ) (E0 : ℕ → ℕ → R) (p q : ℕ), (List.range b).foldl (fun E jj =>
      Function.update E P (Function.update (E P) (e + jj) (g jj))) E0 p q =
      if p = P ∧ e ≤ q ∧ q < e + b then g (q - e) else E0 p q := by
    intro g P E0
    induction b with
    | zero => intro p q; rw [if_neg (by omega)]; rfl
    | succ b ih =>
      intro p q
      rw [List.range_succ, List.foldl_append]
      simp only [List.foldl_cons, List.foldl_nil]
      by_cases hp : p = P
      · subst hp
        rw [Function.update_self]
        by_cases hq : q = e + b
        · subst hq
          rw [Function.update_self, if_pos (by omega), Nat.add_sub_cancel_left]
        · rw [Function.update_of_ne hq, ih]
          exact if_congr (by omega) rfl rfl
      · rw [Function.update_of_ne hp, ih]
        rw [if_neg (by omega), if_neg (by omega)]
  induction a with
  | zero => rw [if_neg (by omega)]; rfl
  | succ a ih =>
    rw [List.range_succ, List.foldl_append]
    simp only [List.foldl_cons, List.foldl_nil]
    rw [inner, ih]
    by_cases hp : p = d + a
    · subst hp
      by_cases hq : e ≤ q ∧ q < e + b
      · rw [if_pos ⟨rfl, hq⟩, if_pos (by omega), Nat.add_sub_cancel_left]
      · rw [if_neg (by omega), if_neg (by omega), if_neg (by omega)]
    · rw [if_neg (by omega)]
      exact if_congr (by omega) rfl rfl

/-- The value computed by rank `r` for its vector `jj` and vector `j` of rank `i`. -/
def coarseEntry (D : DOp R) (M : ℕ → ℕ → R) (Z : ℕ → ℕ → Buf R) (i j r jj : ℕ) : R :=
  ∑ a ∈ range D.tgt.n, ∑ b ∈ range D.tgt.n, coarseVec D Z r jj a * M a b *
    (if D.sym = .H then star (coarseVec D Z i j b) else coarseVec D Z i j b)

theorem sum_coarseVec {D : DOp R} (h : D.tgt.OK D.P) (Z : ℕ → ℕ → Buf R) {r : ℕ} (hr : r < D.P) (j : ℕ) (G : R → ℕ → R) (h0 : ∀ a, G 0 a = 0) :
    ∑ a ∈ range D.tgt.n, G (coarseVec D Z r j a) a = ∑ k ∈ range (D.tgt.size r), G (Z r j k) (D.tgt.off r + k) := by
  rw [← h.sum (fun a => G (coarseVec D Z r j a) a), Finset.sum_eq_single r]
  · refine Finset.sum_congr rfl (fun k hk => ?_)
    have hk := Finset.mem_range.1 hk
    unfold coarseVec
    rw [if_pos (by omega), Nat.add_sub_cancel_left]
  · intro s hs hne
    have hs := Finset.mem_range.1 hs
    refine Finset.sum_eq_zero (fun k hk => ?_)
    have hk := Finset.mem_range.1 hk
    unfold coarseVec
    rw [if_neg, h0]
    rintro ⟨h1, h2⟩
    rcases Nat.lt_or_ge s r with h3 | h3
    · have := displs_lt D.tgt.size h3
      rw [h.off_eq hs, h.off_eq hr] at this
      omega
    · have := displs_lt D.tgt.size (show r < s by omega)
      rw [h.off_eq hs, h.off_eq hr] at this
      omega
  · intro hn; exact absurd (Finset.mem_range.2 hr) hn

theorem geneoLocal_get {D : DOp R} {M : ℕ → ℕ → R} (h : D.tgt.OK D.P) (hS : D.SubOK M) (nevi : ℕ → ℕ) (Z : ℕ → ℕ → Buf R) {r : ℕ} (hr : r < D.P) :
    ∃ E, geneoLocal D nevi Z r = some E ∧ (∀ i < D.P, ∀ j < nevi i, ∀ jj < nevi r,
      E (displs nevi i + j) (displs nevi r + jj) = coarseEntry D M Z i j r jj) ∧
      ∀ p q, ¬ (displs nevi r ≤ q ∧ q < displs nevi r + nevi r) → E p q = 0 := by
  have key : ∀ m ≤ D.P, ∃ st, (List.range m).foldlM (geneoStep D nevi Z r) ((fun _ => 0), fun _ _ => 0) = some st ∧
      (∀ i < m, ∀ j < nevi i, ∀ jj < nevi r, st.2 (displs nevi i + j) (displs nevi r + jj) = coarseEntry D M Z i j r jj) ∧
      ∀ p q, ¬ (displs nevi r ≤ q ∧ q < displs nevi r + nevi r) → st.2 p q = 0 := by
    intro m
    induction m with
    | zero => intro _; exact ⟨_, rfl, by simp, fun _ _ _ => rfl⟩
    | succ m ih =>
      intro hm
      obtain ⟨st, h1, h2, h3⟩ := ih (by omega)
      rw [List.range_succ, List.foldlM_append, h1]
      show ∃ st', (geneoStep D nevi Z r st m >>= fun s => pure s) = some st' ∧ _
      unfold geneoStep
      by_cases h0 : nevi m = 0
      · rw [if_pos h0]
        refine ⟨st, rfl, fun i hi j hj jj hjj => ?_, h3⟩
        rcases Nat.lt_or_ge i m with h4 | h4
        · exact h2 i h4 j hj jj hjj
        · obtain rfl : i = m := by omega
          omega
      · rw [if_neg h0]
        obtain ⟨az, z1, z2⟩ := hS r hr m (by omega) (nevi m) (geneoBuffer D nevi Z m) (fill0 (nevi m * D.tgt.size r) st.1)
        rw [z1]
        refine ⟨_, rfl, fun i hi j hj jj hjj => ?_, fun p q hq => ?_⟩
        · simp only
          rw [foldl_updE]
          rcases Nat.lt_or_ge i m with h4 | h4
          · have := displs_lt nevi h4
            rw [if_neg (by omega)]
            exact h2 i h4 j hj jj hjj
          · obtain rfl : i = m := by omega
            rw [if_pos (by omega), Nat.add_sub_cancel_left, Nat.add_sub_cancel_left]
            unfold coarseEntry
            have e1 : ∀ a, ∑ b ∈ range D.tgt.n, coarseVec D Z r jj a * M a b *
                (if D.sym = .H then star (coarseVec D Z i j b) else coarseVec D Z i j b) =
                coarseVec D Z r jj a * ∑ l ∈ range (D.tgt.size i), M a (D.tgt.off i + l) * (if D.sym = .H then star (Z i j l) else Z i j l) := by
              intro a
              rw [Finset.mul_sum]
              refine (sum_coarseVec h Z (by omega) j (fun v b => coarseVec D Z r jj a * M a b * (if D.sym = .H then star v else v))
                (fun b => by split_ifs <;> simp)).trans ?_
              exact Finset.sum_congr rfl (fun l _ => by ring)
            rw [Finset.sum_congr rfl (fun a _ => e1 a), sum_coarseVec h Z hr jj
              (fun v a => v * ∑ l ∈ range (D.tgt.size i), M a (D.tgt.off i + l) * (if D.sym = .H then star (Z i j l) else Z i j l)) (by simp)]
            refine Finset.sum_congr rfl (fun k hk => ?_)
            rw [Nat.add_comm j, Nat.mul_comm, z2 j hj k (Finset.mem_range.1 hk)]
            congr 1
            refine Finset.sum_congr rfl (fun l hl => ?_)
            have hl := Finset.mem_range.1 hl
            congr 1
            unfold geneoBuffer
            by_cases hs : D.sym = .H
            · simp only [hs, if_true]
              rw [conjBuf_get, if_pos ((pos_lt hj).2 hl), toRM_get _ _ hj, if_pos hl]
            · simp only [hs, if_false]
              rw [toRM_get _ _ hj, if_pos hl]
        · simp only
          rw [foldl_updE, if_neg (by omega)]
          exact h3 p q hq
  obtain ⟨st, h1, h2, h3⟩ := key D.P (Nat.le_refl _)
  refine ⟨st.2, ?_, h2, h3⟩
  unfold geneoLocal
  rw [h1]; rfl

/-- What `build_geneo_coarse_operator` computes: entry (vector `j` of rank `i`, vector `jj` of rank `r`) of the matrix is
`z_{r,jj}ᵀ A z_{i,j}`, with `z_{i,j}` conjugated for a hermitian operator. Ranks may have different numbers of vectors, possibly 0. -/
theorem C49_entries {D : DOp R} {M : ℕ → ℕ → R} (h : D.tgt.OK D.P) (hS : D.SubOK M) (nevi : ℕ → ℕ) (Z : ℕ → ℕ → Buf R) :
    ∃ E, geneoCoarse D nevi Z = some E ∧ ∀ i < D.P, ∀ j < nevi i, ∀ r < D.P, ∀ jj < nevi r,
      E (displs nevi i + j) (displs nevi r + jj) = coarseEntry D M Z i j r jj := by
  have key : ∀ m ≤ D.P, ∃ E, (List.range m).foldlM (fun E r => (geneoLocal D nevi Z r).map (fun Er p q => E p q + Er p q)) (fun _ _ => (0 : R)) = some E ∧
      (∀ i < D.P, ∀ j < nevi i, ∀ r < m, ∀ jj < nevi r, E (displs nevi i + j) (displs nevi r + jj) = coarseEntry D M Z i j r jj) ∧
      ∀ p q, displs nevi m ≤ q → E p q = 0 := by
    intro m
    induction m with
    | zero => intro _; exact ⟨_, rfl, by simp, fun _ _ _ => rfl⟩
    | succ m ih =>
      intro hm
      obtain ⟨E, h1, h2, h3⟩ := ih (by omega)
      obtain ⟨Er, e1, e2, e3⟩ := geneoLocal_get h hS nevi Z (show m < D.P by omega)
      rw [List.range_succ, List.foldlM_append, h1]
      show ∃ E', ((geneoLocal D nevi Z m).map (fun Er p q => E p q + Er p q) >>= fun s => pure s) = some E' ∧ _
      rw [e1]
      refine ⟨_, rfl, fun i hi j hj r hr jj hjj => ?_, fun p q hq => ?_⟩
      · simp only
        rcases Nat.lt_or_ge r m with h4 | h4
        · have := displs_lt nevi h4
          rw [h2 i hi j hj r h4 jj hjj, e3 _ _ (by omega), add_zero]
        · obtain rfl : r = m := by omega
          rw [h3 _ _ (by omega), e2 i hi j hj jj hjj, zero_add]
      · simp only
        simp only [displs] at hq
        rw [h3 _ _ (by omega), e3 _ _ (by omega), add_zero]
  obtain ⟨E, h1, h2, -⟩ := key D.P (Nat.le_refl _)
  exact ⟨E, h1, h2⟩

/-- **C49, partial.** For a real symmetric operator, the coarse operator is the Galerkin matrix `Z^* A Z`. Missing: for an unsymmetric real
operator the transpose of that matrix is stored (`C49_entries`, `C49_unsymmetric`); for a complex hermitian operator the entries are those of
`Z^* Aᵀ Z`, the Galerkin matrix of the conjugate operator (`C49_hermitian`). -/
theorem C49_coarse_operator_partial {D : DOp R} {M : ℕ → ℕ → R} (h : D.tgt.OK D.P) (hS : D.SubOK M) (hR : RealType R)
    (hsym : ∀ a < D.tgt.n, ∀ b < D.tgt.n, M a b = M b a) (nevi : ℕ → ℕ) (Z : ℕ → ℕ → Buf R) :
    ∃ E, geneoCoarse D nevi Z = some E ∧ ∀ i < D.P, ∀ j < nevi i, ∀ r < D.P, ∀ jj < nevi r,
      E (displs nevi i + j) (displs nevi r + jj) =
        ∑ a ∈ range D.tgt.n, ∑ b ∈ range D.tgt.n, star (coarseVec D Z i j a) * M a b * coarseVec D Z r jj b := by
  obtain ⟨E, h1, h2⟩ := C49_entries h hS nevi Z
  refine ⟨E, h1, fun i hi j hj r hr jj hjj => ?_⟩
  rw [h2 i hi j hj r hr jj hjj, coarseEntry, Finset.sum_comm]
  refine Finset.sum_congr rfl (fun a ha => Finset.sum_congr rfl (fun b hb => ?_))
  have hR' : ∀ x : R, star x = x := hR
  rw [hR', hsym a (Finset.mem_range.1 ha) b (Finset.mem_range.1 hb), ite_self]
  ring

/-- **C49 (defect).** For a hermitian operator (`M b a = star (M a b)`), the matrix is the Galerkin matrix of the conjugate of the operator. -/
theorem C49_hermitian {D : DOp R} {M : ℕ → ℕ → R} (h : D.tgt.OK D.P) (hS : D.SubOK M) (hs : D.sym = .H)
    (hherm : ∀ a < D.tgt.n, ∀ b < D.tgt.n, M b a = star (M a b)) (nevi : ℕ → ℕ) (Z : ℕ → ℕ → Buf R) :
    ∃ E, geneoCoarse D nevi Z = some E ∧ ∀ i < D.P, ∀ j < nevi i, ∀ r < D.P, ∀ jj < nevi r,
      E (displs nevi i + j) (displs nevi r + jj) =
        ∑ a ∈ range D.tgt.n, ∑ b ∈ range D.tgt.n, star (coarseVec D Z i j a) * star (M a b) * coarseVec D Z r jj b := by
  obtain ⟨E, h1, h2⟩ := C49_entries h hS nevi Z
  refine ⟨E, h1, fun i hi j hj r hr jj hjj => ?_⟩
  rw [h2 i hi j hj r hr jj hjj, coarseEntry, Finset.sum_comm]
  refine Finset.sum_congr rfl (fun a ha => Finset.sum_congr rfl (fun b hb => ?_))
  rw [if_pos hs, ← hherm a (Finset.mem_range.1 ha) b (Finset.mem_range.1 hb)]
  ring

/-- The hypothesis `SubOK` holds for one local operator per rank, holding all the columns, without permutation flags. -/
theorem DOp.subOK_of {D : DOp R} {M : ℕ → ℕ → R} (h : D.tgt.OK D.P) (A : ℕ → LocalOp R) (N : ℕ → ℕ → ℕ → R)
    (hD : ∀ r < D.P, D.ops r = [(A r).toVLO]) (hK : ∀ r < D.P, (A r).KernelOK (N r)) (hsym : ∀ r < D.P, (A r).sym ≠ .nul)
    (hfull : ∀ r < D.P, ∀ α x β y mu, 0 < mu → IsRM .N (A r).tsz (A r).ssz (N r) α x β y mu ((A r).K.rm .N α x β y mu))
    (ht : ∀ r < D.P, (A r).tflag = false ∧ (A r).sflag = false ∧ (A r).soff = 0 ∧ (A r).tsz = D.tgt.size r ∧ (A r).ssz = D.tgt.n)
    (hM : ∀ r < D.P, ∀ k < D.tgt.size r, ∀ l < D.tgt.n, M (D.tgt.off r + k) l = N r k l) : D.SubOK M := by
  intro r hr i hi mu x y
  obtain ⟨t1, t2, t3, t4, t5⟩ := ht r hr
  have hb := h.bound hi
  obtain ⟨z, z1, z2⟩ := C43_distributed_sub_matrix_product_partial (mu := mu) (offset := D.tgt.off i) (size := D.tgt.size i) (hD r hr) (hK r hr)
    (hsym r hr) (hfull r hr) t1 t2 t3 (by omega) x y
  refine ⟨z, z1, fun c hc k hk => ?_⟩
  rw [z2 c hc k, if_pos (by omega), Nat.min_eq_left (by omega)]
  refine Finset.sum_congr rfl (fun l hl => ?_)
  have hl := Finset.mem_range.1 hl
  rw [hM r hr k hk _ (by omega)]

/-- `exDdm` satisfies the hypotheses. -/
theorem exDdm_subOK : exDdm.SubOK exDdmMat := by
  refine DOp.subOK_of exDdm_ok.1.tgt (fun r => denseOp 2 0 4 (fun i j => (r : ℤ) + i * j + 1)) (fun r i j => (r : ℤ) + i * j + 1)
    (fun _ _ => rfl) (fun _ _ => (denseOp_ok (by decide) _).1) (fun _ _ => by simp [denseOp]) ?_ ?_ ?_
  · intro r _ α x β y mu _ c hc k
    refine (congrFun (matRM_col (cplx := false) (fun _ x => by simp) .N α 2 4 (fun i j => (r : ℤ) + i * j + 1) x β y hc) k).trans ?_
    rw [add_comm]
    rfl
  · intro r hr
    have hr : r < 2 := hr
    obtain rfl | rfl : r = 0 ∨ r = 1 := by omega
    all_goals exact ⟨rfl, rfl, rfl, rfl, rfl⟩
  · intro r hr k hk l hl
    have hr : r < 2 := hr
    obtain rfl | rfl : r = 0 ∨ r = 1 := by omega
    · have hk : k < 2 := hk
      show exDdmMat (0 + k) l = _
      simp [exDdmMat, hk]
    · show exDdmMat (2 + k) l = _
      unfold exDdmMat
      rw [if_neg (by omega), Nat.add_sub_cancel_left]
      push_cast
      ring

/-- Two coarse vectors on rank 0, one on rank 1. -/
def exZ (r j : ℕ) : Buf ℤ := fun k => (r : ℤ) + 2 * j + k

/-- **C49 (defect).** For an unsymmetric operator the stored matrix is the transpose of the Galerkin matrix: entry (0, 2) of `exDdm` is entry
(2, 0) of `Zᵀ A Z` and not entry (0, 2). -/
theorem C49_unsymmetric :
    (geneoCoarse exDdm (fun r => 2 - r) exZ).map (fun E => E 0 2) = some 8 ∧
    ∑ a ∈ range 4, ∑ b ∈ range 4, coarseVec exDdm exZ 1 0 a * exDdmMat a b * coarseVec exDdm exZ 0 0 b = 8 ∧
    ∑ a ∈ range 4, ∑ b ∈ range 4, coarseVec exDdm exZ 0 0 a * exDdmMat a b * coarseVec exDdm exZ 1 0 b = 11 := by
  decide +kernel

/-- **C49 (defect).** For the hermitian operator `exHermOp` the coarse vector `(1, i)` does not give the Galerkin value `z^* A z`. -/
theorem C49_hermitian_wrong :
    let Z : ℕ → ℕ → Buf GaussianInt := fun _ _ k => if k = 0 then 1 else ⟨0, 1⟩
    let A : ℕ → ℕ → GaussianInt := fun i j => if i = j then 1 else if j < i then ⟨1, 2⟩ else ⟨1, -2⟩
    (geneoCoarse exHermOp (fun _ => 1) Z).map (fun E => E 0 0) ≠
      some (∑ a ∈ range 2, ∑ b ∈ range 2, star (Z 0 0 a) * A a b * Z 0 0 b) := by
  decide +kernel

end Htool
