import Mathlib.Data.List.Basic
import Mathlib.Data.List.Range
import Mathlib.Algebra.BigOperators.Group.List.Basic
import Mathlib.Tactic.Ring
import Mathlib.Tactic.Linarith

/-! # Specification: consecutive intervals tiling a range

Small specification vocabulary, independent of the code. -/

namespace Htool

/-- `Tiles a b l`: the intervals `(offset,size)` of `l`, read from left to right, are consecutive,
the first one starts at `a` and the last one ends at `b`. -/
def Tiles : ℕ → ℕ → List (ℕ × ℕ) → Prop
  | a, b, [] => a = b
  | a, b, (o, s) :: l => o = a ∧ Tiles (a + s) b l

/-- `i` belongs to the interval `(offset,size)`. -/
def InIv (i : ℕ) (iv : ℕ × ℕ) : Prop := iv.1 ≤ i ∧ i < iv.1 + iv.2

instance (i : ℕ) (iv : ℕ × ℕ) : Decidable (InIv i iv) := by unfold InIv; infer_instance

theorem Tiles.le {a b : ℕ} {l : List (ℕ × ℕ)} (h : Tiles a b l) : a ≤ b := by
  induction l generalizing a with
  | nil => exact le_of_eq h
  | cons x l ih => obtain ⟨o, s⟩ := x; have := ih h.2; omega

theorem Tiles.sum {a b : ℕ} {l : List (ℕ × ℕ)} (h : Tiles a b l) :
    a + (l.map Prod.snd).sum = b := by
  induction l generalizing a with
  | nil => exact h
  | cons x l ih => obtain ⟨o, s⟩ := x; have := ih h.2; simp; omega

theorem Tiles.append {a b c : ℕ} {l m : List (ℕ × ℕ)} (h : Tiles a b l) (h' : Tiles b c m) :
    Tiles a c (l ++ m) := by
  induction l generalizing a with
  | nil => cases h; exact h'
  | cons x l ih => obtain ⟨o, s⟩ := x; exact ⟨h.1, ih h.2⟩

theorem Tiles.mem_bounds {a b : ℕ} {l : List (ℕ × ℕ)} (h : Tiles a b l) {iv : ℕ × ℕ}
    (hm : iv ∈ l) : a ≤ iv.1 ∧ iv.1 + iv.2 ≤ b := by
  induction l generalizing a with
  | nil => simp at hm
  | cons x l ih =>
    obtain ⟨o, s⟩ := x
    obtain ⟨rfl, h2⟩ := h
    rcases List.mem_cons.1 hm with rfl | hm
    · exact ⟨le_refl _, h2.le⟩
    · have := ih h2 hm; omega

/-- A tiling covers every index of `[a,b)` exactly once and no other index: this is what `Tiles` means
without reference to the order of the list. -/
theorem Tiles.countP {a b : ℕ} {l : List (ℕ × ℕ)} (h : Tiles a b l) (i : ℕ) :
    l.countP (fun iv => decide (InIv i iv)) = if a ≤ i ∧ i < b then 1 else 0 := by
  induction l generalizing a with
  | nil => cases h; simp
  | cons x l ih =>
    obtain ⟨o, s⟩ := x
    obtain ⟨rfl, h2⟩ := h
    have hle := h2.le
    rw [List.countP_cons, ih h2]
    simp only [InIv]
    by_cases h1 : o ≤ i <;> by_cases h3 : i < o + s <;> by_cases h4 : i < b <;>
      by_cases h5 : o + s ≤ i <;> simp [h1, h3, h4, h5] <;> omega

theorem Tiles.pairwise {a b : ℕ} {l : List (ℕ × ℕ)} (h : Tiles a b l) :
    l.Pairwise (fun x y => x.1 + x.2 ≤ y.1) := by
  induction l generalizing a with
  | nil => simp
  | cons x l ih =>
    obtain ⟨o, s⟩ := x
    obtain ⟨rfl, h2⟩ := h
    exact List.pairwise_cons.2 ⟨fun y hy => (h2.mem_bounds hy).1, ih h2⟩

theorem tiles_flatMap {α : Type*} (cs : List α) (iv : α → ℕ × ℕ) (g : α → List (ℕ × ℕ)) {a b : ℕ}
    (h : Tiles a b (cs.map iv))
    (hg : ∀ c ∈ cs, Tiles (iv c).1 ((iv c).1 + (iv c).2) (g c)) :
    Tiles a b (cs.flatMap g) := by
  induction cs generalizing a with
  | nil => exact h
  | cons c cs ih =>
    rw [List.map_cons] at h
    obtain ⟨h1, h2⟩ : (iv c).1 = a ∧ Tiles (a + (iv c).2) b (cs.map iv) := h
    rw [List.flatMap_cons]
    have := hg c (by simp)
    rw [h1] at this
    exact this.append (ih h2 (fun d hd => hg d (by simp [hd])))

end Htool
