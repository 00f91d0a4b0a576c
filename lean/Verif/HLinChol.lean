import Verif.HLinPLU
import Mathlib.LinearAlgebra.Matrix.Block

/-! # Cholesky factors: facts on matrices, pivots -/

namespace Htool
variable {G R : Type*}
open Finset

/-! ## The operations which keep a block without pivots -/

/-- A block whose dense data has no pivots. -/
def FNode.NoPiv (n : FNode G R) : Prop := ∀ D piv, n.data = .dense D piv → piv = []

/-- No block has pivots. -/
def FTree.NP (A : FTree G R) : Prop := ∀ X ∈ A.pre, X.label.NoPiv

namespace FTree.NP
variable {A : FTree G R}

theorem of_mem (h : A.NP) {X : FTree G R} (hX : X ∈ A.pre) : X.NP := fun Y hY => h Y (Tree.mem_pre_trans hX hY)

theorem node {n : FNode G R} {cs : List (FTree G R)} (h1 : n.NoPiv) (h : ∀ c ∈ cs, FTree.NP c) : FTree.NP (.node n cs) := by
  intro X hX
  rcases Tree.mem_pre.1 hX with rfl | ⟨c, hc, hX⟩
  · exact h1
  · exact h c hc X hX

theorem setData (h : A.NP) {d : FData R} (hd : ∀ D piv, d = .dense D piv → piv = []) : (A.setData d).NP :=
  node hd fun _ hc => h.of_mem (child_mem_pre hc)

theorem map {g : FNode G R → FNode G R} (hg : ∀ n : FNode G R, n.NoPiv → (g n).NoPiv) (h : A.NP) : FTree.NP (A.map g) := by
  intro X hX
  rw [pre_map, List.mem_map] at hX
  obtain ⟨Y, hY, rfl⟩ := hX
  rw [label_map]
  exact hg _ (h Y hY)

theorem updAt {f : FTree G R → Option (FTree G R)} (hf : ∀ X X' : FTree G R, f X = some X' → X.NP → X'.NP) :
    ∀ (π : List ℕ) (A A' : FTree G R), Tree.updAt f π A = some A' → A.NP → A'.NP
  | [], A, A', h, hA => hf A A' h hA
  | k :: π, A, A', h, hA => by
    unfold Tree.updAt at h
    cases hk : A.children[k]? with
    | none => rw [hk] at h; cases h
    | some c =>
      rw [hk] at h
      obtain ⟨c', h1, rfl⟩ := Option.map_eq_some_iff.1 h
      refine node (hA A (Tree.mem_pre_self A)) fun d hd => ?_
      rcases List.mem_or_eq_of_mem_set hd with hd | rfl
      · exact hA.of_mem (child_mem_pre hd)
      · exact updAt hf π c _ h1 (hA.of_mem (child_mem_pre (List.mem_of_getElem? hk)))

theorem updChild {p q : ClusterTree G} {f : FTree G R → Option (FTree G R)} (hf : ∀ X X' : FTree G R, f X = some X' → X.NP → X'.NP) {A A' : FTree G R}
    (h : Htool.updChild p q f A = some A') (hA : A.NP) : A'.NP := by
  unfold Htool.updChild at h
  by_cases e : A.label.isBlock p q = true
  · rw [if_pos e] at h; exact hf A A' h hA
  · rw [if_neg e] at h
    cases hk : A.children.findIdx? (fun c => c.label.isBlock p q) with
    | none => rw [hk] at h; cases h
    | some k => rw [hk] at h; exact updAt hf [k] A A' h hA

theorem foldlM {α : Type*} {f : FTree G R → α → Option (FTree G R)} (hf : ∀ (X : FTree G R) x (X' : FTree G R), f X x = some X' → X.NP → X'.NP) :
    ∀ (l : List α) (A A' : FTree G R), l.foldlM f A = some A' → A.NP → A'.NP
  | [], A, A', h, hA => by cases h; exact hA
  | x :: l, A, A', h, hA => by
    rw [List.foldlM_cons] at h
    obtain ⟨B, h1, h2⟩ := Option.bind_eq_some_iff.1 h
    exact foldlM hf l B A' h2 (hf A x B h1 hA)

end FTree.NP

section ops
variable [CommRing R] [StarRing R] [DecidableEq R] {E : LinOps R}

omit [StarRing R] [DecidableEq R] in
theorem fscale_np (a : R) {C : FTree G R} (h : C.NP) : (fscale a C).NP := by
  refine FTree.NP.map (fun n hn => ?_) h
  cases hd : n.data with
  | dense D piv => intro D' piv' e; cases e; exact hn D piv hd
  | lowRank L => intro D' piv' e; cases e
  | hier => exact hn

theorem addLRH_np (L : LR R) {C : FTree G R} (h : C.NP) : (addLRH E L C).NP := by
  refine FTree.NP.map (fun n hn => ?_) h
  cases hd : n.data with
  | dense D piv => intro D' piv' e; cases e; exact hn D piv hd
  | lowRank L => intro D' piv' e; cases e
  | hier => exact hn

theorem hhH_np : ∀ (f : ℕ) (ta tb : Trans) (α : R) (A B : FTree G R) (β : R) (C C' : FTree G R), hhH E f ta tb α A B β C = some C' → C.NP → C'.NP
  | 0, _, _, _, _, _, _, _, _, h, _ => by cases h
  | f + 1, ta, tb, α, A, B, β, C, C', h, hC => by
    unfold hhH at h
    cases hd : C.label.data with
    | dense D piv =>
      rw [hd] at h; cases h
      exact hC.setData fun D' piv' e => by cases e; exact hC C (Tree.mem_pre_self C) D piv hd
    | lowRank L =>
      rw [hd] at h
      obtain ⟨L', -, rfl⟩ := Option.map_eq_some_iff.1 h
      exact hC.setData fun D' piv' e => by cases e
    | hier =>
      rw [hd] at h
      simp only at h
      by_cases hh : (A.isHier && B.isHier) = true
      · rw [if_pos hh] at h
        refine FTree.NP.foldlM (fun X x X' hx hX => ?_) _ _ _ h ?_
        · revert hx
          cases getChildOp ta x.1 x.2.2 A with
          | none => intro hx; cases hx; exact hX
          | some Ac =>
            cases getChildOp tb x.2.2 x.2.1 B with
            | none => intro hx; cases hx; exact hX
            | some Bc =>
              cases getChild x.1 x.2.1 X with
              | none => intro hx; cases hx; exact hX
              | some Cc => exact fun hx => FTree.NP.updChild (fun Y Y' hy hY => hhH_np f ta tb α Ac Bc 1 Y Y' hy hY) hx hX
        · by_cases e : β = 1
          · rw [if_pos e]; exact hC
          · rw [if_neg e]; exact fscale_np β hC
      · rw [if_neg hh] at h
        cases h
        exact addLRH_np _ hC

end ops

/-! ## Cholesky factors -/

section num
variable [CommRing R] [StarRing R]

/-- The part of `M` with rows and columns `a, …, b - 1` has a Cholesky factor: it is `F F^*`, `F` lower triangular with an invertible diagonal. -/
def HasChol (M : ℕ → ℕ → R) (a b : ℕ) : Prop := ∃ F : ℕ → ℕ → R, (∀ i ∈ Ico a b, ∀ j ∈ Ico a b, i < j → F i j = 0) ∧ (∀ i ∈ Ico a b, IsUnit (F i i)) ∧
  ∀ i ∈ Ico a b, ∀ j ∈ Ico a b, ∑ l ∈ Ico a b, F i l * star (F j l) = M i j

theorem HasChol.herm {M : ℕ → ℕ → R} {a b : ℕ} (h : HasChol M a b) {i j : ℕ} (hi : i ∈ Ico a b) (hj : j ∈ Ico a b) : star (M i j) = M j i := by
  obtain ⟨F, -, -, h⟩ := h
  rw [← h i hi j hj, ← h j hj i hi, star_sum]
  exact sum_congr rfl fun l _ => by rw [star_mul', star_star, mul_comm]

/-- A rectangular part of a matrix. -/
def blkM (M : ℕ → ℕ → R) (a m b n : ℕ) : Matrix (Fin m) (Fin n) R := Matrix.of fun i j => M (a + i) (b + j)

theorem blkM_mul {F K : ℕ → ℕ → R} {a m b n c k : ℕ} (i : Fin m) (j : Fin n) :
    (blkM F a m c k * (blkM K b n c k).conjTranspose) i j = ∑ l ∈ Ico c (c + k), F (a + i) l * star (K (b + j) l) := by
  have e : c + k - c = k := by omega
  rw [Matrix.mul_apply, Finset.sum_Ico_eq_sum_range, e, Finset.sum_range]
  rfl

theorem chol_cross {n p : Type*} [Fintype n] [DecidableEq n] [Fintype p] {L F : Matrix n n R} {K F2 : Matrix p n R} (hL : IsUnit L.det) (hF : IsUnit F.det)
    (h1 : F * F.conjTranspose = L * L.conjTranspose) (h2 : F2 * F.conjTranspose = K * L.conjTranspose) : F2 * F2.conjTranspose = K * K.conjTranspose := by
  have hLs : IsUnit L.conjTranspose.det := by rw [Matrix.det_conjTranspose]; exact hL.star
  have hFs : IsUnit F.conjTranspose.det := by rw [Matrix.det_conjTranspose]; exact hF.star
  have hK : K = F2 * F.conjTranspose * (L.conjTranspose)⁻¹ := by
    rw [h2, Matrix.mul_assoc, Matrix.mul_nonsing_inv _ hLs, Matrix.mul_one]
  have hKs : K.conjTranspose = L⁻¹ * (F * F2.conjTranspose) := by
    rw [hK, Matrix.conjTranspose_mul, Matrix.conjTranspose_nonsing_inv, Matrix.conjTranspose_conjTranspose, Matrix.conjTranspose_mul,
      Matrix.conjTranspose_conjTranspose]
  have key : F.conjTranspose * ((L.conjTranspose)⁻¹ * L⁻¹) * F = 1 := by
    rw [← Matrix.mul_inv_rev, ← h1, Matrix.mul_inv_rev, ← Matrix.mul_assoc, Matrix.mul_nonsing_inv _ hFs, Matrix.one_mul, Matrix.nonsing_inv_mul _ hF]
  have e : K * K.conjTranspose = F2 * (F.conjTranspose * ((L.conjTranspose)⁻¹ * L⁻¹) * F) * F2.conjTranspose := by
    rw [hKs]
    nth_rewrite 1 [hK]
    simp only [Matrix.mul_assoc]
  rw [e, key, Matrix.mul_one]

theorem lower_det {F : ℕ → ℕ → R} {a n : ℕ} (h1 : ∀ i ∈ Ico a (a + n), ∀ j ∈ Ico a (a + n), i < j → F i j = 0) (h2 : ∀ i ∈ Ico a (a + n), IsUnit (F i i)) :
    IsUnit (blkM F a n a n).det := by
  rw [Matrix.det_of_lowerTriangular]
  · rw [IsUnit.prod_univ_iff]
    intro i
    exact h2 (a + i) (mem_Ico.2 (by have := i.2; omega))
  · intro i j hij
    have hij : i < j := hij
    exact h1 (a + i) (mem_Ico.2 (by have := i.2; omega)) (a + j) (mem_Ico.2 (by have := j.2; omega)) (by have := Fin.lt_def.1 hij; omega)

theorem HasChol.lead {M : ℕ → ℕ → R} {a b c : ℕ} (hbc : b ≤ c) (h : HasChol M a c) : HasChol M a b := by
  obtain ⟨F, h1, h2, h3⟩ := h
  have sub : ∀ i ∈ Ico a b, i ∈ Ico a c := fun i hi => mem_Ico.2 (by have := mem_Ico.1 hi; omega)
  refine ⟨F, fun i hi j hj => h1 i (sub i hi) j (sub j hj), fun i hi => h2 i (sub i hi), fun i hi j hj => ?_⟩
  rw [← h3 i (sub i hi) j (sub j hj)]
  have hi' := mem_Ico.1 hi
  refine sum_subset (fun l hl => sub l hl) fun l hl hl' => ?_
  have hl := mem_Ico.1 hl
  rw [mem_Ico] at hl'
  rw [h1 i (sub i hi) l (mem_Ico.2 hl) (by omega), zero_mul]

/-- The Schur complement of a leading part has a Cholesky factor. -/
theorem HasChol.schur {M L K S : ℕ → ℕ → R} {a b c : ℕ} (hab : a ≤ b) (hbc : b ≤ c) (h : HasChol M a c)
    (l1 : ∀ i ∈ Ico a b, ∀ j ∈ Ico a b, i < j → L i j = 0) (l2 : ∀ i ∈ Ico a b, IsUnit (L i i))
    (l3 : ∀ i ∈ Ico a b, ∀ j ∈ Ico a b, ∑ l ∈ Ico a b, L i l * star (L j l) = M i j)
    (k : ∀ i ∈ Ico b c, ∀ j ∈ Ico a b, ∑ l ∈ Ico a b, K i l * star (L j l) = M i j)
    (s : ∀ i ∈ Ico b c, ∀ j ∈ Ico b c, S i j = M i j - ∑ l ∈ Ico a b, K i l * star (K j l)) : HasChol S b c := by
  obtain ⟨F, h1, h2, h3⟩ := h
  obtain ⟨m, rfl⟩ := Nat.exists_eq_add_of_le hab
  obtain ⟨n, rfl⟩ := Nat.exists_eq_add_of_le hbc
  have s1 : ∀ i ∈ Ico a (a + m), i ∈ Ico a (a + m + n) := fun i hi => mem_Ico.2 (by have := mem_Ico.1 hi; omega)
  have s2 : ∀ i ∈ Ico (a + m) (a + m + n), i ∈ Ico a (a + m + n) := fun i hi => mem_Ico.2 (by have := mem_Ico.1 hi; omega)
  have i1 : ∀ i : Fin m, a + (i : ℕ) ∈ Ico a (a + m) := fun i => mem_Ico.2 (by have := i.2; omega)
  have i2 : ∀ i : Fin n, a + m + (i : ℕ) ∈ Ico (a + m) (a + m + n) := fun i => mem_Ico.2 (by have := i.2; omega)
  have cut : ∀ i ∈ Ico a (a + m + n), ∀ j ∈ Ico a (a + m), ∑ l ∈ Ico a (a + m), F i l * star (F j l) = M i j := by
    intro i hi j hj
    rw [← h3 i hi j (s1 j hj)]
    have hj' := mem_Ico.1 hj
    refine sum_subset (fun l hl => s1 l hl) fun l hl hl' => ?_
    have hl := mem_Ico.1 hl
    rw [mem_Ico] at hl'
    rw [h1 j (s1 j hj) l (mem_Ico.2 hl) (by omega), star_zero, mul_zero]
  have key := chol_cross (L := blkM L a m a m) (F := blkM F a m a m) (K := blkM K (a + m) n a m) (F2 := blkM F (a + m) n a m) (lower_det l1 l2)
    (lower_det (fun i hi j hj => h1 i (s1 i hi) j (s1 j hj)) fun i hi => h2 i (s1 i hi))
    (by ext i j; rw [blkM_mul, blkM_mul, cut _ (s1 _ (i1 i)) _ (i1 j), l3 _ (i1 i) _ (i1 j)])
    (by ext i j; rw [blkM_mul, blkM_mul, cut _ (s2 _ (i2 i)) _ (i1 j), k _ (i2 i) _ (i1 j)])
  refine ⟨F, fun i hi j hj => h1 i (s2 i hi) j (s2 j hj), fun i hi => h2 i (s2 i hi), fun i hi j hj => ?_⟩
  have hi' := mem_Ico.1 hi
  have hj' := mem_Ico.1 hj
  have e := congrFun (congrFun key ⟨i - (a + m), by omega⟩) ⟨j - (a + m), by omega⟩
  rw [blkM_mul, blkM_mul] at e
  simp only [show a + m + (i - (a + m)) = i by omega, show a + m + (j - (a + m)) = j by omega] at e
  rw [s i hi j hj, ← e, ← h3 i (s2 i hi) j (s2 j hj), ← sum_Ico_consecutive _ hab hbc]
  ring

/-- The lower triangular factor `G` of `M = G G^*`: the matrix `T`, or the adjoint of the upper triangular matrix `T`. -/
def lowF (u : UploType) (T : ℕ → ℕ → R) (i l : ℕ) : R := if u = .L then T i l else star (T l i)

theorem lowF_L (T : ℕ → ℕ → R) (i l : ℕ) : lowF .L T i l = T i l := rfl
theorem lowF_U (T : ℕ → ℕ → R) (i l : ℕ) : lowF .U T i l = star (T l i) := rfl

/-- Contract of LAPACK `potrf`: if the given half of the matrix is the half of a matrix `F F^*` (`F^* F` for the upper half) where the triangular matrix `F` has an
invertible diagonal, then the result is a matrix with that property. (For real and complex numbers, this is the case of the positive definite matrices:
`C38_positive_definite`.) -/
def PotrfOK (E : LinOps R) : Prop := ∀ (u : UploType) (D : Mat R) (n : ℕ), u ≠ .N → D.nr = n → D.nc = n →
  (∃ F : ℕ → ℕ → R, (∀ i < n, IsUnit (F i i)) ∧ ∀ i < n, ∀ j < n, (u = .L ∧ j ≤ i) ∨ (u = .U ∧ i ≤ j) →
    ∑ l ∈ range n, lowF u (tri u false F) i l * star (lowF u (tri u false F) j l) = D.get i j) →
  (E.potrf u D).nr = n ∧ (E.potrf u D).nc = n ∧ (∀ i < n, IsUnit ((E.potrf u D).get i i)) ∧
  ∀ i < n, ∀ j < n, (u = .L ∧ j ≤ i) ∨ (u = .U ∧ i ≤ j) →
    ∑ l ∈ range n, lowF u (tri u false (E.potrf u D).get) i l * star (lowF u (tri u false (E.potrf u D).get) j l) = D.get i j

theorem lowF_star_comm (u : UploType) (T : ℕ → ℕ → R) (s : Finset ℕ) (i j : ℕ) :
    star (∑ l ∈ s, lowF u T i l * star (lowF u T j l)) = ∑ l ∈ s, lowF u T j l * star (lowF u T i l) := by
  rw [star_sum]
  exact sum_congr rfl fun l _ => by rw [star_mul', star_star, mul_comm]

end num
end Htool
