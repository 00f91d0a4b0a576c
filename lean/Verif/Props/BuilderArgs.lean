import Verif.BuilderArgs
import Verif.Props.Logger

/-! # C81: invalid arguments of the H-matrix builder are reported -/

namespace Htool.BuilderArgs
open Log

/-- The arguments which make sense: no flags, or symmetry 'S' (or 'H' for complex coefficients) with the half which is stored; partition numbers which are `-1` or
designate a cluster of the partition of the target. -/
structure Valid (a : Args) (nparts : ℕ) : Prop where
  flags : (a.sym = 'N' ∧ a.uplo = 'N') ∨ ((a.sym = 'S' ∨ (a.sym = 'H' ∧ a.cplx = true)) ∧ (a.uplo = 'L' ∨ a.uplo = 'U'))
  tp : a.tp = -1 ∨ (0 ≤ a.tp ∧ a.tp < nparts)
  ps : a.ps = -1 ∨ (0 ≤ a.ps ∧ a.ps < nparts)

/-- The range of `int`. -/
abbrev IsInt (z : ℤ) : Prop := -2 ^ 31 ≤ z ∧ z < 2 ^ 31

theorem flagsOK_iff (a : Args) : flagsOK a = true ↔
    (a.sym = 'N' ∧ a.uplo = 'N') ∨ ((a.sym = 'S' ∨ (a.sym = 'H' ∧ a.cplx = true)) ∧ (a.uplo = 'L' ∨ a.uplo = 'U')) := by
  obtain ⟨c, s, u, -, -⟩ := a
  unfold flagsOK
  dsimp only
  by_cases h1 : s = 'N'
  · subst h1
    by_cases h2 : u = 'N'
    · subst h2; cases c <;> decide
    · simp [h2]
  · by_cases h2 : s = 'S'
    · subst h2
      by_cases h3 : u = 'N'
      · subst h3; cases c <;> decide
      · simp [h3]
    · by_cases h3 : s = 'H'
      · subst h3
        by_cases h4 : u = 'N'
        · subst h4; cases c <;> decide
        · simp [h4, and_comm]
      · simp [h1, h2, h3]

theorem part_iff {z : ℤ} (hz : IsInt z) {n : ℕ} (hn : n < 2 ^ 63) : (z ≠ -1 ∧ n ≤ toSize z) ↔ ¬ (z = -1 ∨ (0 ≤ z ∧ z < n)) := by
  obtain ⟨h1, h2⟩ := hz
  unfold toSize
  rcases lt_or_ge z 0 with h | h
  · have e : z % 2 ^ 64 = z + 2 ^ 64 := by omega
    rw [e]
    omega
  · have e : z % 2 ^ 64 = z := by omega
    rw [e]
    omega

theorem configure_eq (a : Args) (nparts : ℕ) (bs : List Bool) :
    configure a nparts bs = (construct a nparts ++ bs.flatMap (fun b => (setConsistency a b).1), bs.getLast?.getD true) := by
  unfold configure
  induction bs using List.reverseRecOn with
  | nil => simp
  | append_singleton l b ih =>
    rw [List.foldl_append, ih]
    simp [setConsistency]

/-- **C81.** With every `int` as partition number and every character as flag: the constructor reports an error exactly for arguments that make no sense, and
afterwards every call `set_block_tree_consistency(false)` is reported exactly when there is a symmetry flag. -/
theorem C81_reported (a : Args) (nparts : ℕ) (bs : List Bool) (ht : IsInt a.tp) (hs : IsInt a.ps) (hn : nparts < 2 ^ 63) :
    (configure a nparts bs).1 = [] ↔ Valid a nparts ∧ (a.sym = 'N' ∨ ∀ b ∈ bs, b = true) := by
  rw [configure_eq]
  simp only [construct, List.append_eq_nil_iff, List.flatMap_eq_nil_iff, part_iff ht hn, part_iff hs hn]
  have f : (if (!flagsOK a) = true then [Call.log error (flagsMessage a)] else []) = [] ↔ flagsOK a = true := by
    cases flagsOK a <;> simp
  rw [f, flagsOK_iff]
  constructor
  · rintro ⟨⟨⟨h1, h2⟩, h3⟩, h4⟩
    refine ⟨⟨h1, ?_, ?_⟩, ?_⟩
    · by_contra h
      rw [if_pos h] at h2
      cases h2
    · by_contra h
      rw [if_pos h] at h3
      cases h3
    · by_cases hN : a.sym = 'N'
      · exact Or.inl hN
      · refine Or.inr fun b hb => ?_
        have := h4 b hb
        unfold setConsistency at this
        dsimp only at this
        by_contra hf
        rw [if_pos ⟨hN, by simpa using hf⟩] at this
        cases this
  · rintro ⟨⟨h1, h2, h3⟩, h4⟩
    refine ⟨⟨⟨h1, if_neg (not_not.2 h2)⟩, if_neg (not_not.2 h3)⟩, fun b hb => ?_⟩
    unfold setConsistency
    dsimp only
    refine if_neg fun hc => ?_
    rcases h4 with h4 | h4
    · exact hc.1 h4
    · have := h4 b hb
      rw [this] at hc
      cases hc.2

/-- All calls of the logger are messages of the level ERROR. -/
theorem calls_are_errors (a : Args) (nparts : ℕ) (bs : List Bool) : ∀ c ∈ (configure a nparts bs).1, ∃ m, c = .log error m := by
  rw [configure_eq]
  intro c hc
  rcases List.mem_append.1 hc with hc | hc
  · unfold construct at hc
    rcases List.mem_append.1 hc with hc | hc
    · rcases List.mem_append.1 hc with hc | hc
      · split at hc
        · exact ⟨_, List.mem_singleton.1 hc⟩
        · cases hc
      · split at hc
        · exact ⟨_, List.mem_singleton.1 hc⟩
        · cases hc
    · split at hc
      · exact ⟨_, List.mem_singleton.1 hc⟩
      · cases hc
  · obtain ⟨b, -, hb⟩ := List.mem_flatMap.1 hc
    unfold setConsistency at hb
    dsimp only at hb
    split at hb
    · exact ⟨_, List.mem_singleton.1 hb⟩
    · cases hb

theorem out_errors : ∀ (cs : List Call), (∀ c ∈ cs, ∃ m, c = .log error m) → ∀ (s : State), error ≤ s.lev s.cur →
    ∃ l, (cs.foldl step s).out = s.out ++ l ∧ l.length = cs.length
  | [], _, s, _ => ⟨[], by simp, rfl⟩
  | c :: cs, h, s, hl => by
    obtain ⟨m, rfl⟩ := h c (List.mem_cons.2 (Or.inl rfl))
    have e : (step s (.log error m)).out = s.out ++ [levelString error ++ m] := by
      show write (s.lev s.cur) error m s.out = _
      unfold write
      rw [if_pos hl]
    obtain ⟨l, h1, h2⟩ := out_errors cs (fun c hc => h c (List.mem_cons.2 (Or.inr hc))) (step s (.log error m)) hl
    exact ⟨(levelString error ++ m) :: l, by rw [List.foldl_cons, h1, e]; simp, by simp [h2]⟩

/-- **C81.** What the user sees, after any earlier use of the logger which left the writer in use at the level ERROR or above (this is so in the beginning): the
configuration of the builder prints nothing exactly when the arguments make sense and consistency is not switched off with a symmetry flag. -/
theorem C81_printed (h : List Call) (hl : error ≤ levelOf (writerOf h.reverse) h.reverse) (a : Args) (nparts : ℕ) (bs : List Bool)
    (ht : IsInt a.tp) (hs : IsInt a.ps) (hn : nparts < 2 ^ 63) :
    (run (h ++ (configure a nparts bs).1)).out = (run h).out ↔ Valid a nparts ∧ (a.sym = 'N' ∨ ∀ b ∈ bs, b = true) := by
  rw [← C81_reported a nparts bs ht hs hn]
  have st := run_state h
  obtain ⟨l, h1, h2⟩ := out_errors _ (calls_are_errors a nparts bs) (run h) (by rw [st.1, st.2]; exact hl)
  have e : run (h ++ (configure a nparts bs).1) = (configure a nparts bs).1.foldl step (run h) := by
    unfold run
    rw [List.foldl_append]
  rw [e, h1]
  constructor
  · intro hh
    have : l = [] := List.append_cancel_left (hh.trans (List.append_nil _).symm)
    rw [this] at h2
    exact List.length_eq_zero_iff.1 h2.symm
  · intro hh
    rw [hh] at h2
    rw [List.length_eq_zero_iff.1 h2, List.append_nil]

/-- **C81.** The arguments which are not reported meet the hypotheses of the results on the H-matrix builder: a symmetry flag comes with the half which is stored and with
a consistent block tree, hermitian storage only with complex coefficients, and the partition numbers designate clusters of the target. -/
theorem C81_silent_is_usable_partial {G : Type*} {E : BEnv G} {a : Args} {bs : List Bool} (hE : Configured a bs E) (ht : IsInt a.tp) (hs : IsInt a.ps)
    (hn : E.tct.parts.length < 2 ^ 63) (hq : (configure a E.tct.parts.length bs).1 = []) :
    (E.sym ≠ .N → E.uplo ≠ .N) ∧ (E.sym = .H → a.cplx = true) ∧ (E.sym ≠ .N → E.consistent = true) ∧
      (∀ p, E.tp = some p → ∃ P, E.tct.parts[p]? = some P) ∧ (∀ p, E.psym = some p → ∃ P, E.tct.parts[p]? = some P) := by
  obtain ⟨e1, e2, e3, e4, e5⟩ := hE
  obtain ⟨⟨v1, v2, v3⟩, v4⟩ := (C81_reported a _ bs ht hs hn).1 hq
  have part : ∀ z : ℤ, (z = -1 ∨ (0 ≤ z ∧ z < E.tct.parts.length)) → IsInt z → ∀ p, partOf z = some p → ∃ P, E.tct.parts[p]? = some P := by
    intro z hz hi p hp
    unfold partOf at hp
    split at hp
    · cases hp
    · rename_i hne
      rcases hz with hz | hz
      · exact absurd hz hne
      · have e : toSize z < E.tct.parts.length := by
          by_contra hc
          exact ((part_iff hi hn).1 ⟨hne, not_lt.1 hc⟩) (Or.inr hz)
        rw [← Option.some.inj hp]
        exact ⟨_, List.getElem?_eq_getElem e⟩
  refine ⟨?_, ?_, ?_, fun p hp => part _ v2 ht p (e3 ▸ hp), fun p hp => part _ v3 hs p (e4 ▸ hp)⟩
  · rw [e1, e2]
    intro h
    rcases v1 with ⟨v, -⟩ | ⟨-, v | v⟩
    · rw [v] at h
      exact absurd rfl h
    · rw [v]; decide
    · rw [v]; decide
  · rw [e1]
    intro h
    rcases v1 with ⟨v, -⟩ | ⟨v | v, -⟩
    · rw [v] at h; exact absurd h (by decide)
    · rw [v] at h; exact absurd h (by decide)
    · exact v.2
  · rw [e1, e5, configure_eq]
    intro h
    rcases v4 with v | v
    · rw [v] at h
      exact absurd rfl h
    · dsimp only
      cases hb : bs.getLast? with
      | none => rfl
      | some b => exact v b (List.mem_of_getLast? hb)

/-- The full claim about the partition number for symmetry: if nothing is reported, the number designates a cluster of both partitions (`is_removed_by_symmetry`
reads both, tree_builder.hpp 76, 83). -/
def C81_both_partitions_statement : Prop :=
  ∀ (E : BEnv ℕ) (a : Args) (bs : List Bool), Configured a bs E → IsInt a.tp → IsInt a.ps → E.tct.parts.length < 2 ^ 63 →
    (configure a E.tct.parts.length bs).1 = [] → ∀ p, E.psym = some p → (∃ P, E.tct.parts[p]? = some P) ∧ ∃ P, E.sct.parts[p]? = some P

/-- **C81 (negation).** Only the partition of the target is checked: with two clusters on the partition of the target, one on the partition of the source, symmetry 'S' and
the number 1, nothing is reported and the partition of the source is read out of bounds. -/
theorem C81_both_partitions_false : ¬ C81_both_partitions_statement := by
  intro h
  let c : CTree ℕ := .node ⟨0, 1, 0, 0, 0, true, 0⟩ []
  let E : BEnv ℕ := ⟨⟨c, [c, c]⟩, ⟨c, [c]⟩, fun _ _ => false, 0, 0, none, .S, .L, some 1, true⟩
  have := (h E ⟨false, 'S', 'L', -1, 1⟩ [] (by refine ⟨rfl, rfl, rfl, rfl, rfl⟩) (by decide) (by decide) (by decide)
    ((C81_reported _ _ _ (by decide) (by decide) (by decide)).2 ⟨⟨by decide, by decide, by decide⟩, Or.inr (by simp)⟩) 1 rfl).2
  obtain ⟨P, hP⟩ := this
  cases hP

/-- Hermitian storage of the lower half for complex coefficients, on the third cluster of a partition of four: silent; for real coefficients: reported. -/
example : (configure ⟨true, 'H', 'L', -1, 2⟩ 4 [true]).1 = [] ∧ (configure ⟨false, 'H', 'L', -1, 2⟩ 4 [true]).1 ≠ [] ∧
    (configure ⟨true, 'H', 'L', -2, 2⟩ 4 [true]).1 ≠ [] ∧ error ≤ levelOf (writerOf []) [] := by
  refine ⟨(C81_reported _ _ _ (by decide) (by decide) (by decide)).2 ⟨⟨by decide, by decide, by decide⟩, by decide⟩, fun h => ?_, fun h => ?_, le_refl _⟩
  · exact absurd ((C81_reported _ _ _ (by decide) (by decide) (by decide)).1 h).1.flags (by decide)
  · exact absurd ((C81_reported _ _ _ (by decide) (by decide) (by decide)).1 h).1.tp (by decide)

end Htool.BuilderArgs
