import Verif.Logger
import Mathlib.Data.List.Induction

/-! # C51: log filtering -/

namespace Htool.Log

/-- The writer in use after the calls `h`, listed from the last to the first: the argument of the last `setWriter`. -/
def writerOf : List Call → ℕ
  | [] => 0
  | .setWriter w :: _ => w
  | _ :: h => writerOf h

/-- The level configured on writer `w` after the calls `h`, listed from the last to the first: the argument of the last `setLevel` made
while `w` was in use. -/
def levelOf (w : ℕ) : List Call → Level
  | [] => error
  | .setLevel l :: h => if writerOf h = w then l else levelOf w h
  | _ :: h => levelOf w h

/-- The line call number `i` of `h` adds to standard output: only for a message whose level is at most the level configured at that
moment on the writer in use at that moment. -/
def lineOf (h : List Call) (i : ℕ) : Option String :=
  match h[i]? with
  | some (.log l msg) =>
    if l ≤ levelOf (writerOf (h.take i).reverse) (h.take i).reverse then some (levelString l ++ msg) else none
  | _ => none

theorem run_state (h : List Call) :
    (run h).cur = writerOf h.reverse ∧ ∀ w, (run h).lev w = levelOf w h.reverse := by
  induction h using List.reverseRecOn with
  | nil => exact ⟨rfl, fun _ => rfl⟩
  | append_singleton h c ih =>
    have e : run (h ++ [c]) = step (run h) c := by simp [run]
    rw [e, List.reverse_append]
    cases c with
    | setLevel l =>
      refine ⟨ih.1, fun w => ?_⟩
      change Function.update (run h).lev (run h).cur l w = if writerOf h.reverse = w then l else levelOf w h.reverse
      by_cases hw : writerOf h.reverse = w
      · rw [if_pos hw, ← hw, ← ih.1]; exact Function.update_self ..
      · rw [if_neg hw, Function.update_of_ne (fun e => hw (by rw [← ih.1, e])), ih.2]
    | log l m => exact ih
    | setWriter w => exact ⟨rfl, ih.2⟩

/-- Main theorem: for every history, standard output is the sequence of the lines of its calls, in order. -/
theorem C51_log_filtering (h : List Call) : (run h).out = (List.range h.length).filterMap (lineOf h) := by
  induction h using List.reverseRecOn with
  | nil => rfl
  | append_singleton h c ih =>
    have e : run (h ++ [c]) = step (run h) c := by simp [run]
    have hold : (List.range h.length).filterMap (lineOf (h ++ [c])) = (List.range h.length).filterMap (lineOf h) := by
      apply List.filterMap_congr
      intro i hi
      have hi' := List.mem_range.1 hi
      unfold lineOf
      rw [List.getElem?_append_left hi', List.take_append_of_le_length (Nat.le_of_lt hi')]
    have hlast : lineOf (h ++ [c]) h.length = match c with
        | .log l msg => if l ≤ levelOf (writerOf h.reverse) h.reverse then some (levelString l ++ msg) else none
        | _ => none := by
      unfold lineOf
      rw [List.getElem?_append_right (Nat.le_refl _)]
      simp only [Nat.sub_self, List.getElem?_cons_zero, List.take_left']
      cases c <;> rfl
    rw [e, List.length_append, List.length_singleton, List.range_succ, List.filterMap_append, hold, ← ih]
    simp only [List.filterMap_cons, List.filterMap_nil, hlast]
    obtain ⟨s1, s2⟩ := run_state h
    cases c with
    | setLevel l => simp [step]
    | setWriter w => simp [step]
    | log l m =>
      change write ((run h).lev (run h).cur) l m (run h).out = _
      rw [s2, s1]
      unfold write
      by_cases hl : l ≤ levelOf (writerOf h.reverse) h.reverse
      · simp [hl]
      · simp [hl]

/-- Later calls never change the lines already written: a new level only acts on later messages. -/
theorem C51_later_calls (h k : List Call) : (run h).out <+: (run (h ++ k)).out := by
  induction k using List.reverseRecOn with
  | nil => simp
  | append_singleton k c ih =>
    have e : run (h ++ (k ++ [c])) = step (run (h ++ k)) c := by simp [run]
    rw [e]
    refine ih.trans ?_
    cases c with
    | setLevel l => exact List.prefix_refl _
    | setWriter w => exact List.prefix_refl _
    | log l m =>
      change _ <+: write _ l m _
      unfold write
      split_ifs
      · exact List.prefix_append ..
      · exact List.prefix_refl _

/-- Errors and critical messages pass by default, warnings do not, until the level is raised; a new writer has its own level. -/
example : (run [.log 10 "a", .log 20 "b", .setLevel 20, .log 20 "c", .setWriter 1, .log 20 "d", .log 0 "e", .setWriter 0, .log 20 "f"]).out =
    ["[Htool error]    a", "[Htool warning]  c", "[Htool critical] e", "[Htool warning]  f"] := by decide +kernel

end Htool.Log
