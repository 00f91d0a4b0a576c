import Verif.HLinAcc3

/-! # Accuracy of the product of two hierarchical matrices: bounds and the entries of the result -/

namespace Htool
open Finset
variable {G 𝕜 : Type*} [RCLike 𝕜]

/-! ## Bounds -/

theorem frob_norm (M N : ℕ) (f : ℕ → ℕ → 𝕜) : frob M N (fun i j => (‖f i j‖ : ℝ)) = frob M N f := by
  unfold frob
  simp only [norm_norm]

/-- The Frobenius norm of a product of nonnegative matrices. -/
theorem frob_prod_le (m n p : ℕ) (f g : ℕ → ℕ → 𝕜) :
    frob m n (fun i j => ∑ l ∈ range p, ‖f i l‖ * ‖g l j‖ : ℕ → ℕ → ℝ) ≤ frob m p f * frob p n g := by
  unfold frob
  rw [← Real.sqrt_mul (sum_nonneg fun _ _ => sum_nonneg fun _ _ => sq_nonneg _)]
  apply Real.sqrt_le_sqrt
  have e : ∀ i ∈ range m, ∀ j ∈ range n, ‖∑ l ∈ range p, ‖f i l‖ * ‖g l j‖‖ ^ 2 ≤ (∑ l ∈ range p, ‖f i l‖ ^ 2) * ∑ l ∈ range p, ‖g l j‖ ^ 2 := by
    intro i _ j _
    rw [Real.norm_eq_abs, sq_abs]
    exact sum_mul_sq_le_sq_mul_sq _ _ _
  refine (sum_le_sum fun i hi => sum_le_sum fun j hj => e i hi j hj).trans (le_of_eq ?_)
  rw [sum_mul]
  refine sum_congr rfl fun i _ => ?_
  rw [← mul_sum, sum_comm]

/-- The Frobenius norm of the matrix `M` on the block of `A`. -/
noncomputable def frobOn (M : ℕ → ℕ → 𝕜) (A : FTree G 𝕜) : ℝ := frob A.label.t.sz A.label.s.sz (rel M A.label.t.off A.label.s.off)

theorem frobOn_op (tr : Trans) (M : ℕ → ℕ → 𝕜) (A : FTree G 𝕜) :
    frob (A.outC tr).sz (A.inC tr).sz (fun i l => opE tr M ((A.outC tr).off + i) ((A.inC tr).off + l)) = frobOn M A := by
  have : frob (A.outC tr).sz (A.inC tr).sz (opE tr (rel M A.label.t.off A.label.s.off)) = frobOn M A := by
    rw [← opRows_outC, ← opCols_inC, frob_opE]; rfl
  rw [← this]
  exact frob_congr fun i _ l _ => (opE_rel tr M A i l).symm

/-- The entries bounded by `|beta C| + |alpha| |op(A)| |op(B)|` on the block of `C`. -/
theorem maj_product (ta tb : Trans) (α β : 𝕜) (MA MB MC : ℕ → ℕ → 𝕜) {A X C : FTree G 𝕜} (hin : A.inC ta = X.outC tb)
    (c1 : C.label.t = A.outC ta) (c2 : C.label.s = X.inC tb) :
    Maj (fun i j => if (C.label.t.off ≤ i ∧ i < C.label.t.off + C.label.t.sz) ∧ (C.label.s.off ≤ j ∧ j < C.label.s.off + C.label.s.sz) then
        ‖β * MC i j‖ + ‖α‖ * aprod ta tb MA MB (A.inC ta) i j else 0) (‖β‖ * frobOn MC C + ‖α‖ * (frobOn MA A * frobOn MB X)) := by
  intro o o' m n
  set W : ℕ → ℕ → ℝ := fun i j => ‖β * MC i j‖ + ‖α‖ * aprod ta tb MA MB (A.inC ta) i j with hW
  set V : ℕ → ℕ → ℝ := fun i j => if (C.label.t.off ≤ i ∧ i < C.label.t.off + C.label.t.sz) ∧ (C.label.s.off ≤ j ∧ j < C.label.s.off + C.label.s.sz) then
        W i j else 0 with hV
  have h1 : frob m n (rel V o o') ≤ frob (max (o + m) (C.label.t.off + C.label.t.sz)) (max (o' + n) (C.label.s.off + C.label.s.sz)) V :=
    frob_sub_block (le_max_left _ _) (le_max_left _ _) V
  have h2 : frob (max (o + m) (C.label.t.off + C.label.t.sz)) (max (o' + n) (C.label.s.off + C.label.s.sz)) V =
      frob C.label.t.sz C.label.s.sz (rel W C.label.t.off C.label.s.off) := by
    rw [← frob_ext (le_max_right (o + m) (C.label.t.off + C.label.t.sz)) (le_max_right (o' + n) (C.label.s.off + C.label.s.sz))
      (rel W C.label.t.off C.label.s.off)]
    refine frob_congr fun i _ j _ => ?_
    rw [hV]
    beta_reduce
    by_cases h : (C.label.t.off ≤ i ∧ i < C.label.t.off + C.label.t.sz) ∧ (C.label.s.off ≤ j ∧ j < C.label.s.off + C.label.s.sz)
    · rw [if_pos h, if_pos h]
      unfold rel
      rw [Nat.add_sub_cancel' h.1.1, Nat.add_sub_cancel' h.2.1]
    · rw [if_neg h, if_neg h]
  refine h1.trans (h2.le.trans ?_)
  have h3 := frob_add_le C.label.t.sz C.label.s.sz (fun i j => (‖β * MC (C.label.t.off + i) (C.label.s.off + j)‖ : ℝ))
    (fun i j => ‖α‖ * aprod ta tb MA MB (A.inC ta) (C.label.t.off + i) (C.label.s.off + j))
  refine (le_of_eq ?_).trans (h3.trans (add_le_add (le_of_eq ?_) ?_))
  · rfl
  · rw [frob_norm, frob_smul]; rfl
  · rw [frob_smul, Real.norm_eq_abs, abs_norm]
    refine mul_le_mul_of_nonneg_left ?_ (norm_nonneg _)
    rw [← frobOn_op ta MA A, ← frobOn_op tb MB X]
    rw [hin.symm]
    rw [c1, c2]
    refine (le_of_eq (frob_congr fun i _ j _ => ?_)).trans (frob_prod_le _ _ (A.inC ta).sz _ _)
    unfold aprod
    rw [Finset.sum_Ico_eq_sum_range]
    have : (A.inC ta).fin - (A.inC ta).off = (A.inC ta).sz := by unfold ClusterTree.fin; omega
    rw [this]

/-! ## Scaling first -/

section beta
variable [DecidableEq 𝕜] {E : LinOps 𝕜}

omit [DecidableEq 𝕜] in
theorem fscale_leaf {m : Mask} {P : FNode G 𝕜 → Prop} {C : FTree G 𝕜} (h : Shape m P C) (hC : C.isHier = false) (β : 𝕜) :
    fscale β C = .node (scaleNode β C.label) [] := by
  have hc := (Shape.self h).leaf hC
  rw [fscale_eq]
  cases C with
  | node x l =>
    have : l = [] := hc.1
    subst this
    rfl

/-- `beta` scales the result before the product, unless it is hierarchical and an operand is not. -/
theorem hhH_beta {m : Mask} {P : FNode G 𝕜 → Prop} (ta tb : Trans) (α β : 𝕜) (A X C : FTree G 𝕜) (h : Shape m P C)
    (hβ : β = 1 ∨ C.isHier = false ∨ (A.isHier = true ∧ X.isHier = true)) (n : ℕ) :
    hhH E (n + 1) ta tb α A X β C = hhH E (n + 1) ta tb α A X 1 (if β = 1 then C else fscale β C) := by
  by_cases e : β = 1
  · rw [if_pos e, e]
  rw [if_neg e]
  cases hd : C.label.data with
  | dense D p =>
    have hl := fscale_leaf h (by unfold FTree.isHier; rw [hd]) β
    have hc := ((Shape.self h).leaf (by unfold FTree.isHier; rw [hd])).1
    rw [hl]
    unfold hhH scaleNode
    rw [hd]
    show some _ = some _
    congr 1
    unfold FTree.setData
    rw [hc]
    congr 3
    unfold hhMat
    rw [if_neg e]
    simp
  | lowRank L =>
    have hl := fscale_leaf h (by unfold FTree.isHier; rw [hd]) β
    have hc := ((Shape.self h).leaf (by unfold FTree.isHier; rw [hd])).1
    rw [hl]
    unfold hhH scaleNode
    rw [hd]
    have : hhLR E (n + 1) ta tb α A X β L = hhLR E (n + 1) ta tb α A X 1 (L.scale β) := by
      unfold hhLR
      rw [if_neg e]
      simp
    show Option.map _ _ = Option.map _ _
    rw [this]
    congr 1
    funext L'
    unfold FTree.setData
    rw [hc]
    rfl
  | hier =>
    have hCh : C.isHier = true := isHier_iff.2 hd
    rcases hβ with hβ | hβ | hβ
    · exact absurd hβ e
    · rw [hCh] at hβ; cases hβ
    · have s := (fscale_same β C).2.2.2
      rw [hCh] at s
      unfold hhH
      rw [hd, isHier_iff.1 s]
      simp only [hβ.1, hβ.2, Bool.and_self, if_true]
      rw [if_neg e]

end beta

/-! ## The entries of the result -/

theorem countP_one_eq {α : Type*} {p : α → Bool} {l : List α} (h : l.countP p = 1) {x y : α} (hx : x ∈ l) (hy : y ∈ l) (px : p x = true)
    (py : p y = true) : x = y := by
  rw [List.countP_eq_length_filter] at h
  obtain ⟨z, hz⟩ := List.length_eq_one_iff.1 h
  have h1 : x ∈ l.filter p := List.mem_filter.2 ⟨hx, px⟩
  have h2 : y ∈ l.filter p := List.mem_filter.2 ⟨hy, py⟩
  rw [hz, List.mem_singleton] at h1 h2
  rw [h1, h2]

/-- The value stored in a leaf. -/
def FNode.stored (n : FNode G 𝕜) (i j : ℕ) : 𝕜 :=
  match n.data with
  | .dense D _ => D.get (i - n.t.off) (j - n.s.off)
  | .lowRank L => L.entry (i - n.t.off) (j - n.s.off)
  | .hier => 0

/-- A hierarchical matrix with leaves near `H` contains a matrix, which is near `H` on every leaf. -/
theorem NearT.rep_of {m : Mask} {e : ℝ} {ad : ClusterTree G → ClusterTree G → Prop} {H : ℕ → ℕ → 𝕜} {A : FTree G 𝕜} (h : NearT m e ad H A) :
    ∃ M : ℕ → ℕ → 𝕜, Rep m ad M A ∧ ∀ X ∈ A.leaves, FTree.isHier X = false → ∃ H' : ℕ → ℕ → 𝕜, (∀ i j, X.label.Has i j → m.ok i j → H' i j = H i j) ∧
      frobOn (fun i j => M i j - H' i j) X ≤ e := by
  classical
  set M : ℕ → ℕ → 𝕜 := fun i j => match A.leaves.find? (fun X => decide (X.label.Has i j)) with
    | some X => X.label.stored i j
    | none => 0 with hM
  have key : ∀ X ∈ A.leaves, ∀ i j, X.label.Has i j → M i j = X.label.stored i j := by
    intro X hX i j hi
    have c := Shape.leaves_le h i j
    have hA : A.label.Has i j := Shape.pre_has h ((Tree.mem_leaves_iff _ _).1 hX).1 hi
    rw [if_pos hA] at c
    have c : A.leaves.countP (fun X => decide (X.label.Has i j)) = 1 := by
      have : 0 < A.leaves.countP (fun X => decide (X.label.Has i j)) := List.countP_pos_iff.2 ⟨X, hX, decide_eq_true hi⟩
      omega
    rw [hM]
    beta_reduce
    cases hf : A.leaves.find? (fun X => decide (X.label.Has i j)) with
    | none =>
      rw [List.find?_eq_none] at hf
      exact absurd (decide_eq_true hi) (hf X hX)
    | some Y =>
      have hy := List.find?_some hf
      have : Y = X := countP_one_eq c (List.mem_of_find?_eq_some hf) hX hy (decide_eq_true hi)
      rw [this]
  have leaf : ∀ X ∈ A.pre, FTree.isHier X = false → X ∈ A.leaves := fun X hX hh => (Tree.mem_leaves_iff _ _).2 ⟨hX, ((h X hX).leaf hh).1⟩
  refine ⟨M, Shape.imp h fun X hX hp => ?_, fun X hX hd => ?_⟩
  · refine ⟨hp.1, ?_⟩
    have h2 := hp.2
    have hk : FTree.isHier X = false → ∀ i j, X.label.Has i j → M i j = X.label.stored i j := fun hh => key X (leaf X hX hh)
    unfold FTree.isHier FNode.stored at hk
    revert h2 hk
    cases X.label.data with
    | dense D p => exact fun h2 hk => ⟨h2.1, h2.2.1, fun i j hi _ => (hk rfl i j hi).symm⟩
    | lowRank L => exact fun h2 hk => ⟨h2.1.1, h2.2.1, h2.2.2.1, h2.2.2.2.1, fun i j hi _ => (hk rfl i j hi).symm⟩
    | hier => exact fun _ _ => trivial
  · have hXp := ((Tree.mem_leaves_iff _ _).1 hX).1
    have h2 := (h X hXp).prop.2
    have hk := key X hX
    have e0 : ∀ H : ℕ → ℕ → 𝕜, frobOn (fun i j => M i j - H i j) X = frob X.label.t.sz X.label.s.sz (fun i j =>
        X.label.stored (X.label.t.off + i) (X.label.s.off + j) - rel H X.label.t.off X.label.s.off i j) := by
      intro H
      refine frob_congr fun i hi j hj => ?_
      unfold rel
      beta_reduce
      rw [hk _ _ (by unfold FNode.Has ClusterTree.fin; omega)]
    simp only [e0]
    unfold FNode.stored
    unfold FTree.isHier at hd
    revert hd h2
    cases X.label.data with
    | dense D p =>
      rintro _ ⟨-, -, H', h3, h4⟩
      refine ⟨H', h3, (le_of_eq (frob_congr fun i _ j _ => ?_)).trans h4⟩
      simp only [Nat.add_sub_cancel_left]
    | lowRank L =>
      intro _ h2
      refine ⟨H, fun _ _ _ _ => rfl, (le_of_eq (frob_congr fun i _ j _ => ?_)).trans h2.2.2.2.2⟩
      simp only [Nat.add_sub_cancel_left]
    | hier => exact fun hd => absurd hd (by simp)

theorem NearT.rep {e : ℝ} {ad : ClusterTree G → ClusterTree G → Prop} {H : ℕ → ℕ → 𝕜} {A : FTree G 𝕜} (h : NearT .full e ad H A) :
    ∃ M : ℕ → ℕ → 𝕜, Rep .full ad M A ∧ ∀ X ∈ A.leaves, frobOn (fun i j => M i j - H i j) X ≤ e := by
  obtain ⟨M, h1, h2⟩ := h.rep_of
  refine ⟨M, h1, fun X hX => ?_⟩
  obtain ⟨H', h3, h4⟩ := h2 X hX (Shape.leaf_data h hX)
  refine (le_of_eq (frob_congr fun i hi j hj => ?_)).trans h4
  unfold rel
  beta_reduce
  rw [h3 _ _ (by unfold FNode.Has ClusterTree.fin; omega) trivial]

end Htool
