import Verif.HLinProd

/-! # Products of hierarchical matrices into dense and low-rank matrices -/

namespace Htool
variable {G R : Type*}
open Finset

/-! ## Leaves -/

section leafProducts
variable [CommRing R] [StarRing R]
variable {ad : ClusterTree G → ClusterTree G → Prop} {M M' : ℕ → ℕ → R} {A B X : FTree G R}

theorem opE_congr {ar ac : ℕ} {F F' : ℕ → ℕ → R} (h : ∀ i < ar, ∀ j < ac, F i j = F' i j) (ta : Trans) {i l : ℕ} (hi : i < opRows ta ar ac)
    (hl : l < opCols ta ar ac) : opE ta F i l = opE ta F' i l := by
  cases ta with
  | N => exact h i hi l hl
  | T => exact h l hl i hi
  | C => exact congrArg star (h l hl i hi)

theorem prodE_congr {ta tb : Trans} {α β : R} {ar ac br bc : ℕ} {FA FA' FB FB' FC FC' : ℕ → ℕ → R} (hA : ∀ i < ar, ∀ j < ac, FA i j = FA' i j)
    (hB : ∀ i < br, ∀ j < bc, FB i j = FB' i j) (hin : opCols ta ar ac = opRows tb br bc) {i j : ℕ} (hi : i < opRows ta ar ac)
    (hj : j < opCols tb br bc) (hC : FC i j = FC' i j) :
    prodE ta tb α FA FB (opCols ta ar ac) β FC i j = prodE ta tb α FA' FB' (opCols ta ar ac) β FC' i j := by
  unfold prodE
  rw [hC]
  congr 2
  refine sum_congr rfl fun l hl => ?_
  have hl := mem_range.1 hl
  rw [opE_congr hA ta hi hl, opE_congr hB tb (by rw [← hin]; exact hl) hj]

omit [StarRing R] in
theorem Mat.Is.congr {D : Mat R} {m n : ℕ} {F F' : ℕ → ℕ → R} (h : D.Is m n F) (he : ∀ i < m, ∀ j < n, F i j = F' i j) : D.Is m n F' :=
  ⟨h.1, h.2.1, fun i hi j hj => (h.2.2 i hi j hj).trans (he i hi j hj)⟩

omit [StarRing R] in
theorem Mat.Is.scale {D : Mat R} {m n : ℕ} {F : ℕ → ℕ → R} (h : D.Is m n F) (a : R) : (Mat.scale a D).Is m n (fun i j => a * F i j) :=
  ⟨h.1, h.2.1, fun i hi j hj => by
    rw [scale_get a D (by rw [h.1]; exact hi) (by rw [h.2.1]; exact hj), h.2.2 i hi j hj]⟩

omit [StarRing R] in
theorem mk'_is (m n : ℕ) : (Mat.mk' m n (0 : R)).Is m n (fun _ _ => 0) := ⟨rfl, rfl, fun _ hi _ hj => mk'_get m n 0 hi hj⟩

/-- A zero coefficient. -/
theorem prodE_zero (ta tb : Trans) (α β : R) (FA FB : ℕ → ℕ → R) (k i j : ℕ) :
    prodE ta tb α FA FB k β (fun _ _ => 0) i j = α * ∑ l ∈ range k, opE ta FA i l * opE tb FB l j := by unfold prodE; rw [mul_zero, add_zero]

theorem prodE_beta (ta tb : Trans) (α β : R) (FA FB FC : ℕ → ℕ → R) (k i j : ℕ) :
    prodE ta tb α FA FB k β FC i j = (α * ∑ l ∈ range k, opE ta FA i l * opE tb FB l j) + β * FC i j := rfl

/-- The dense copy of a block. -/
theorem Rep.toDense_is (h : Rep .full ad M B) : B.dense.Is B.label.t.sz B.label.s.sz (rel M B.label.t.off B.label.s.off) := by
  have hold : B.toH.Holds M := by
    constructor
    · intro l hl
      unfold FTree.toH at hl
      rw [leaves_map', List.mem_map] at hl
      obtain ⟨X, hX, rfl⟩ := hl
      rw [toH_label, label_map]
      have d := Shape.pre_desc h ((Tree.mem_leaves_iff B X).1 hX).1
      have b1 := (Shape.self h).clT.desc_bounds d.1
      have b2 := (Shape.self h).clS.desc_bounds d.2.1
      exact ⟨b1, b2⟩
    · intro l hl i j hi
      unfold FTree.toH at hl
      rw [leaves_map', List.mem_map] at hl
      obtain ⟨X, hX, rfl⟩ := hl
      rw [label_map] at hi ⊢
      exact (h.leaf_val hX hi).2
  refine ⟨rfl, rfl, fun i hi j hj => ?_⟩
  have e : B.toH.label = B.label.toH := toH_label B
  have c := (C23_copy_to_dense hold (Mat.mk' B.label.t.sz B.label.s.sz (0 : R)).data).1 i (by rw [e]; exact hi) j (by rw [e]; exact hj)
  rw [e] at c
  show copyToDense B.toH _ (i + j * B.label.t.sz) = _
  refine c.trans ?_
  rw [if_pos]
  · rfl
  · have := Shape.leaves_count h (B.label.t.off + i) (B.label.s.off + j)
    have hhas : B.label.Has (B.label.t.off + i) (B.label.s.off + j) := by unfold FNode.Has ClusterTree.fin; omega
    rw [if_pos hhas] at this
    have := List.countP_pos_iff.1 (by rw [this]; exact Nat.one_pos)
    obtain ⟨X, hX, hx⟩ := this
    refine ⟨X.map FNode.toH, ?_, ?_⟩
    · unfold FTree.toH; rw [leaves_map']; exact List.mem_map_of_mem hX
    · rw [label_map]; exact of_decide_eq_true hx

/-! ### Low-rank factors of products -/

/-- If `W = alpha op(V) F` (or `alpha op(U) F` when `A` is transposed) then `factMulMat` and `W` are factors of `alpha op(UV) F`. -/
theorem factMulGen (ta : Trans) (α : R) (F : ℕ → ℕ → R) (n : ℕ) (A : LR R) (W : Mat R) (hA : A.WF) (hW : W.nr = A.rank) (hWc : W.nc = n)
    (hg : ∀ l < A.rank, ∀ j < n, W.get l j = α * ∑ q ∈ range (opCols ta A.nr A.nc), opE ta (if ta = .N then A.V else A.U).get l q * F q j) :
    LR.IsMat ⟨LR.factMulMat ta A, W⟩ (opRows ta A.nr A.nc) n (fun i j => α * ∑ q ∈ range (opCols ta A.nr A.nc), opE ta A.entry i q * F q j) := by
  have hvw : A.V.nr = A.U.nc := hA
  have alg : ∀ (f : ℕ → R) (g : ℕ → ℕ → R) (j n' : ℕ), ∑ l ∈ range A.rank, f l * (α * ∑ q ∈ range n', g l q * F q j) =
      α * ∑ q ∈ range n', (∑ l ∈ range A.rank, f l * g l q) * F q j := by
    intro f g j n'
    rw [← sum_swap, mul_sum]
    exact sum_congr rfl fun l _ => by ring
  by_cases e : ta = .N
  · subst e
    have hf : LR.factMulMat .N A = A.U := if_pos rfl
    rw [hf]
    rw [if_pos rfl] at hg
    refine ⟨hW, rfl, hWc, fun i hi j hj => ?_⟩
    show ∑ l ∈ range A.rank, A.U.get i l * W.get l j = _
    refine (sum_congr rfl fun l hl => by rw [hg l (mem_range.1 hl) j hj]).trans ?_
    exact alg _ _ j _
  · have hf : LR.factMulMat ta A = Mat.opT ta A.V := if_neg e
    rw [hf]
    rw [if_neg e] at hg
    have ho := opT_get ta e A.V
    have hrows : opRows ta A.nr A.nc = A.V.nc := by unfold opRows; rw [if_neg e]; rfl
    refine ⟨by show W.nr = _; rw [ho.2.1, hW]; exact hvw.symm, by rw [hrows]; exact ho.1, hWc, fun i hi j hj => ?_⟩
    show ∑ l ∈ range (Mat.opT ta A.V).nc, (Mat.opT ta A.V).get i l * W.get l j = _
    rw [ho.2.1, hvw]
    refine (sum_congr rfl fun l hl => by
      rw [hg l (mem_range.1 hl) j hj, ho.2.2 i (by rw [← hrows]; exact hi) l (by rw [hvw]; exact mem_range.1 hl)]).trans ?_
    refine (alg (fun l => opE ta A.V.get i l) (fun l q => opE ta A.U.get l q) j _).trans ?_
    congr 1
    exact sum_congr rfl fun q _ => by rw [opE_entry e A]

variable [DecidableEq R] {E : LinOps R}

theorem hmLr_gen {F : ℕ → ℕ → R} {ta : Trans} (hA : RMOp E A ta F) (tb : Trans) (α β : R) {B : LR R} (hB : B.WF) {C : Mat R} (hr0 : B.rank ≠ 0 ∨ β = 1)
    (hin : opCols ta A.label.t.sz A.label.s.sz = opRows tb B.nr B.nc) (hr : C.nr = opRows ta A.label.t.sz A.label.s.sz)
    (hc : C.nc = opCols tb B.nr B.nc) :
    (hmLr E ta tb α A B β C).Is C.nr C.nc
      (prodE ta tb α F B.entry (opCols ta A.label.t.sz A.label.s.sz) β C.get) := by
  have hvw : B.V.nr = B.U.nc := hB
  unfold hmLr
  by_cases h0 : B.rank = 0
  · rw [if_neg (fun h => h h0)]
    refine ⟨rfl, rfl, fun i _ j _ => ?_⟩
    unfold prodE
    simp [opE_zero (entry_rank_zero h0), hr0.resolve_left (fun h => h h0)]
  · rw [if_pos h0]
    by_cases e : tb = .N
    · subst e
      rw [if_pos rfl, if_pos rfl]
      have w := hmMat_gen hA .N 1 0 (B := B.U) (C := Mat.mk' (opRows ta A.label.t.sz A.label.s.sz) B.U.nc 0) hin rfl rfl
      set W := hmMat E ta .N 1 A B.U 0 (Mat.mk' (opRows ta A.label.t.sz A.label.s.sz) B.U.nc 0) with hW
      have f := factMatMul_spec .N 1 (opE ta F) (opCols ta A.label.t.sz A.label.s.sz) _ B W hB w.1 w.2.1
        (fun i hi l hl => by rw [w.2.2 i hi l hl, if_pos rfl]; unfold prodE; rw [zero_mul, add_zero])
      have c := C35_matrix_matrix_product .N .N α W B.V β C ⟨by show C.nr = W.nr; rw [w.1]; exact hr, hc, by show W.nc = _; rw [w.2.1]; exact hvw.symm⟩
      have : (if Trans.N = Trans.N then B.U.nc else B.V.nr) = B.U.nc := if_pos rfl
      refine ⟨c.1, c.2.1, fun i hi j hj => (c.2.2.1 i hi j hj).trans ?_⟩
      have g := f.2.2.2 i (by rw [hr] at hi; exact hi) j (by rw [hc] at hj; exact hj)
      unfold prodE
      congr 2
      beta_reduce at g
      rw [one_mul] at g
      exact g
    · rw [if_neg e, if_neg e]
      have hin' : opCols ta A.label.t.sz A.label.s.sz = opRows tb B.V.nr B.V.nc := by
        rw [hin]; unfold opRows; rw [if_neg e, if_neg e]; rfl
      have hbn : B.V.nr = opCols tb B.V.nr B.V.nc := by unfold opCols; rw [if_neg e]
      have w := hmMat_gen hA tb 1 0 (B := B.V) (C := Mat.mk' (opRows ta A.label.t.sz A.label.s.sz) B.V.nr 0) hin' rfl hbn
      set W := hmMat E ta tb 1 A B.V 0 (Mat.mk' (opRows ta A.label.t.sz A.label.s.sz) B.V.nr 0) with hW
      have f := factMatMul_spec tb 1 (opE ta F) (opCols ta A.label.t.sz A.label.s.sz) _ B W hB w.1
        (w.2.1.trans hvw)
        (fun i hi l hl => by rw [w.2.2 i hi l (by show l < B.V.nr; rw [hvw]; exact hl), if_neg e]; unfold prodE; rw [zero_mul, add_zero])
      have hcn : C.nc = B.U.nr := by rw [hc]; unfold opCols; rw [if_neg e]; rfl
      have c := C35_matrix_matrix_product .N tb α W B.U β C ⟨by show C.nr = W.nr; rw [w.1]; exact hr,
        by rw [hc]; unfold opCols; rw [if_neg e, if_neg e]; rfl,
        by show W.nc = _; rw [w.2.1]; unfold opRows; rw [if_neg e]; exact hvw⟩
      refine ⟨c.1, c.2.1, fun i hi j hj => (c.2.2.1 i hi j hj).trans ?_⟩
      have g := f.2.2.2 i (by rw [hr] at hi; exact hi) j (by rw [hc] at hj; exact hj)
      unfold prodE
      congr 2
      beta_reduce at g
      rw [one_mul] at g
      rw [← g]
      show ∑ l ∈ range W.nc, _ = ∑ l ∈ range W.nc, W.get i l * (LR.factMatMul tb B).get l j
      refine sum_congr rfl fun l hl => ?_
      have hl := mem_range.1 hl
      rw [w.2.1] at hl
      rw [LR.factMatMul, if_neg e, (opT_get tb e B.U).2.2 l (by rw [← hvw]; exact hl) j (by rw [← hcn]; exact hj)]
      rfl

theorem hmLr_is (hE : E.cplx = false → RealType R) (hA : Rep .full ad M A) (ta tb : Trans) (α : R) {B : LR R} (hB : B.WF) {C : Mat R}
    (hin : opCols ta A.label.t.sz A.label.s.sz = opRows tb B.nr B.nc) (hr : C.nr = opRows ta A.label.t.sz A.label.s.sz)
    (hc : C.nc = opCols tb B.nr B.nc) :
    (hmLr E ta tb α A B 1 C).Is C.nr C.nc
      (prodE ta tb α (rel M A.label.t.off A.label.s.off) B.entry (opCols ta A.label.t.sz A.label.s.sz) 1 C.get) :=
  hmLr_gen (hA.rmop hE ta) tb α 1 hB (Or.inr rfl) hin hr hc

theorem lrHm_gen {F : ℕ → ℕ → R} {ta tb : Trans} (hB : MHOp E B ta tb F) (α β : R) {A : LR R} (hA : A.WF) {C : Mat R} (hr0 : A.rank ≠ 0 ∨ β = 1)
    (hin : opCols ta A.nr A.nc = opRows tb B.label.t.sz B.label.s.sz) (hr : C.nr = opRows ta A.nr A.nc)
    (hc : C.nc = opCols tb B.label.t.sz B.label.s.sz) :
    (lrHm E ta tb α A B β C).Is C.nr C.nc
      (prodE ta tb α A.entry F (opCols ta A.nr A.nc) β C.get) := by
  have hvw : A.V.nr = A.U.nc := hA
  unfold lrHm
  by_cases h0 : A.rank = 0
  · rw [if_neg (fun h => h h0)]
    refine ⟨rfl, rfl, fun i _ j _ => ?_⟩
    unfold prodE
    simp [opE_zero (entry_rank_zero h0), hr0.resolve_left (fun h => h h0)]
  · rw [if_pos h0]
    by_cases e : ta = .N
    · subst e
      rw [if_pos rfl]
      have w := matHm_gen hB 1 0 (A := A.V) (C := Mat.mk' A.V.nr (opCols tb B.label.t.sz B.label.s.sz) 0) hin rfl rfl
      set W := matHm E .N tb 1 A.V B 0 (Mat.mk' A.V.nr (opCols tb B.label.t.sz B.label.s.sz) 0) with hW
      have f := factMulGen .N 1 (opE tb F) _ A W hA (w.1.trans hvw) w.2.1
        (fun l hl j hj => by
          rw [w.2.2 l (by show l < A.V.nr; rw [hvw]; exact hl) j hj, if_pos rfl]; unfold prodE; rw [zero_mul, add_zero]; rfl)
      have c := C35_matrix_matrix_product .N .N α A.U W β C ⟨hr, by show C.nc = W.nc; rw [w.2.1]; exact hc, by show A.U.nc = W.nr; rw [w.1]; exact hvw.symm⟩
      refine ⟨c.1, c.2.1, fun i hi j hj => (c.2.2.1 i hi j hj).trans ?_⟩
      have g := f.2.2.2 i (by rw [hr] at hi; exact hi) j (by rw [hc] at hj; exact hj)
      unfold prodE
      congr 2
      beta_reduce at g
      rw [one_mul] at g
      exact g
    · rw [if_neg e]
      have hin' : opCols ta A.U.nr A.U.nc = opRows tb B.label.t.sz B.label.s.sz := by
        rw [← hin]; unfold opCols; rw [if_neg e, if_neg e]; rfl
      have hun : A.V.nr = opRows ta A.U.nr A.U.nc := by unfold opRows; rw [if_neg e]; exact hvw
      have w := matHm_gen hB 1 0 (A := A.U) (C := Mat.mk' A.V.nr (opCols tb B.label.t.sz B.label.s.sz) 0) hin' hun rfl
      set W := matHm E ta tb 1 A.U B 0 (Mat.mk' A.V.nr (opCols tb B.label.t.sz B.label.s.sz) 0) with hW
      have hoc : opCols ta A.nr A.nc = opCols ta A.U.nr A.U.nc := by unfold opCols; rw [if_neg e, if_neg e]; rfl
      have f := factMulGen ta 1 (opE tb F) _ A W hA (w.1.trans hvw) w.2.1
        (fun l hl j hj => by
          rw [w.2.2 l (by show l < A.V.nr; rw [hvw]; exact hl) j hj, if_neg e, hoc]; unfold prodE; rw [zero_mul, add_zero])
      have hcr : C.nr = A.V.nc := by rw [hr]; unfold opRows; rw [if_neg e]; rfl
      have c := C35_matrix_matrix_product ta .N α A.V W β C ⟨by rw [hr]; unfold opRows; rw [if_neg e, if_neg e]; rfl,
        by show C.nc = W.nc; rw [w.2.1]; exact hc, by show _ = W.nr; rw [w.1]; unfold opCols; rw [if_neg e]; rfl⟩
      refine ⟨c.1, c.2.1, fun i hi j hj => (c.2.2.1 i hi j hj).trans ?_⟩
      have g := f.2.2.2 i (by rw [hr] at hi; exact hi) j (by rw [hc] at hj; exact hj)
      unfold prodE
      congr 2
      beta_reduce at g
      rw [one_mul] at g
      rw [← g]
      have hk : opCols ta A.V.nr A.V.nc = A.V.nr := by unfold opCols; rw [if_neg e]
      show ∑ l ∈ range (opCols ta A.V.nr A.V.nc), _ = ∑ l ∈ range (LR.factMulMat ta A).nc, (LR.factMulMat ta A).get i l * W.get l j
      have ho := opT_get ta e A.V
      rw [LR.factMulMat, if_neg e, ho.2.1, hk]
      refine sum_congr rfl fun l hl => ?_
      rw [ho.2.2 i (by rw [← hcr]; exact hi) l (mem_range.1 hl)]
      rfl

theorem lrHm_is (hE : E.cplx = false → RealType R) (hB : Rep .full ad M B) (ta tb : Trans) (α : R) {A : LR R} (hA : A.WF) {C : Mat R}
    (hin : opCols ta A.nr A.nc = opRows tb B.label.t.sz B.label.s.sz) (hr : C.nr = opRows ta A.nr A.nc)
    (hc : C.nc = opCols tb B.label.t.sz B.label.s.sz) :
    (lrHm E ta tb α A B 1 C).Is C.nr C.nc
      (prodE ta tb α A.entry (rel M B.label.t.off B.label.s.off) (opCols ta A.nr A.nc) 1 C.get) :=
  lrHm_gen (hB.mhop hE ta tb) α 1 hA (Or.inr rfl) hin hr hc

/-- Product of two H-matrices into a dense matrix. -/
theorem hhMat_is (hE : E.cplx = false → RealType R) {adA adB : ClusterTree G → ClusterTree G → Prop} {MA MB : ℕ → ℕ → R}
    (hA : Rep .full adA MA A) (hB : Rep .full adB MB B) (ta tb : Trans) (α β : R) {C : Mat R} {FC : ℕ → ℕ → R}
    (hin : opCols ta A.label.t.sz A.label.s.sz = opRows tb B.label.t.sz B.label.s.sz)
    (hC : C.Is (opRows ta A.label.t.sz A.label.s.sz) (opCols tb B.label.t.sz B.label.s.sz) FC) :
    (hhMat E ta tb α A B β C).Is (opRows ta A.label.t.sz A.label.s.sz) (opCols tb B.label.t.sz B.label.s.sz)
      (prodE ta tb α (rel MA A.label.t.off A.label.s.off) (rel MB B.label.t.off B.label.s.off) (opCols ta A.label.t.sz A.label.s.sz) β FC) := by
  unfold hhMat
  set C1 : Mat R := if β = 1 then C else Mat.scale β C with hC1
  have h1 : C1.Is (opRows ta A.label.t.sz A.label.s.sz) (opCols tb B.label.t.sz B.label.s.sz) (fun i j => β * FC i j) := by
    rw [hC1]
    by_cases hb : β = 1
    · rw [if_pos hb]; exact hC.congr fun i _ j _ => by rw [hb, one_mul]
    · rw [if_neg hb]; exact hC.scale β
  clear_value C1
  -- what each branch has to show
  have fin : ∀ {D : Mat R} {FA FB : ℕ → ℕ → R}, D.Is C1.nr C1.nc (prodE ta tb α FA FB (opCols ta A.label.t.sz A.label.s.sz) 1 C1.get) →
      (∀ i < A.label.t.sz, ∀ j < A.label.s.sz, FA i j = rel MA A.label.t.off A.label.s.off i j) →
      (∀ i < B.label.t.sz, ∀ j < B.label.s.sz, FB i j = rel MB B.label.t.off B.label.s.off i j) →
      D.Is (opRows ta A.label.t.sz A.label.s.sz) (opCols tb B.label.t.sz B.label.s.sz)
      (prodE ta tb α (rel MA A.label.t.off A.label.s.off) (rel MB B.label.t.off B.label.s.off) (opCols ta A.label.t.sz A.label.s.sz) β FC) := by
    intro D FA FB hD ea eb
    rw [h1.1, h1.2.1] at hD
    refine hD.congr fun i hi j hj => ?_
    rw [prodE_congr (FC' := fun i j => β * FC i j) ea eb hin hi hj (h1.2.2 i hi j hj), prodE_beta, prodE_beta, one_mul]
  have viaDense : (hmMat E ta tb α A B.dense 1 C1).Is (opRows ta A.label.t.sz A.label.s.sz) (opCols tb B.label.t.sz B.label.s.sz)
      (prodE ta tb α (rel MA A.label.t.off A.label.s.off) (rel MB B.label.t.off B.label.s.off) (opCols ta A.label.t.sz A.label.s.sz) β FC) := by
    have d := hB.toDense_is
    exact fin (hmMat_is hE hA ta tb α 1 (by rw [d.1, d.2.1]; exact hin) h1.1 (by rw [d.1, d.2.1]; exact h1.2.1)) (fun _ _ _ _ => rfl) d.2.2
  by_cases hbad : (A.bad || B.bad) = true
  · rw [if_pos hbad]; exact viaDense
  · rw [if_neg hbad]
    have ar := fun (D : Mat R) p (h : A.label.data = .dense D p) => hA.dense_is h
    have al := fun (L : LR R) (h : A.label.data = .lowRank L) => hA.lowRank_is h
    have br := fun (D : Mat R) p (h : B.label.data = .dense D p) => hB.dense_is h
    have bl := fun (L : LR R) (h : B.label.data = .lowRank L) => hB.lowRank_is h
    cases hda : A.label.data with
    | dense D p =>
      have a := ar D p hda
      cases hdb : B.label.data with
      | dense D' p' =>
        have b := br D' p' hdb
        have c := C35_matrix_matrix_product ta tb α D D' 1 C1 ⟨by rw [a.1, a.2.1]; exact h1.1, by rw [b.1, b.2.1]; exact h1.2.1,
          by rw [a.1, a.2.1, b.1, b.2.1]; exact hin⟩
        refine fin ⟨c.1, c.2.1, fun i hi j hj => ?_⟩ a.2.2 b.2.2
        rw [c.2.2.1 i hi j hj, a.1, a.2.1]; rfl
      | lowRank L =>
        have b := bl L hdb
        have c := C28_matrix_lrmat_partial ta tb α D L 1 C1 b.1 (Or.inr rfl) ⟨by rw [a.1, a.2.1]; exact h1.1, by rw [b.2.1, b.2.2.1]; exact h1.2.1,
          by rw [a.1, a.2.1, b.2.1, b.2.2.1]; exact hin⟩
        refine fin ⟨c.1, c.2.1, fun i hi j hj => ?_⟩ a.2.2 b.2.2.2
        rw [c.2.2.1 i hi j hj, a.1, a.2.1]
      | hier =>
        have c := matHm_is hE hB ta tb α 1 (A := D) (C := C1) (by rw [a.1, a.2.1]; exact hin) (by rw [a.1, a.2.1]; exact h1.1) h1.2.1
        rw [a.1, a.2.1] at c
        exact fin c a.2.2 fun _ _ _ _ => rfl
    | lowRank L =>
      have a := al L hda
      cases hdb : B.label.data with
      | dense D' p' =>
        have b := br D' p' hdb
        have c := C28_lrmat_matrix_partial ta tb α L D' 1 C1 a.1 (Or.inr rfl) ⟨by rw [a.2.1, a.2.2.1]; exact h1.1, by rw [b.1, b.2.1]; exact h1.2.1,
          by rw [a.2.1, a.2.2.1, b.1, b.2.1]; exact hin⟩
        refine fin ⟨c.1, c.2.1, fun i hi j hj => ?_⟩ a.2.2.2 b.2.2
        rw [c.2.2.1 i hi j hj, a.2.1, a.2.2.1]
      | lowRank L' =>
        have b := bl L' hdb
        have c := C28_lrmat_lrmat_partial ta tb α L L' 1 C1 a.1 b.1 (Or.inr rfl) ⟨by rw [a.2.1, a.2.2.1]; exact h1.1,
          by rw [b.2.1, b.2.2.1]; exact h1.2.1, by rw [a.2.1, a.2.2.1, b.2.1, b.2.2.1]; exact hin⟩
        refine fin ⟨c.1, c.2.1, fun i hi j hj => ?_⟩ a.2.2.2 b.2.2.2
        rw [c.2.2.1 i hi j hj, a.2.1, a.2.2.1]
      | hier =>
        have c := lrHm_is hE hB ta tb α a.1 (C := C1) (by rw [a.2.1, a.2.2.1]; exact hin) (by rw [a.2.1, a.2.2.1]; exact h1.1) h1.2.1
        rw [a.2.1, a.2.2.1] at c
        exact fin c a.2.2.2 fun _ _ _ _ => rfl
    | hier =>
      cases hdb : B.label.data with
      | dense D' p' =>
        have b := br D' p' hdb
        exact fin (hmMat_is hE hA ta tb α 1 (by rw [b.1, b.2.1]; exact hin) h1.1 (by rw [b.1, b.2.1]; exact h1.2.1)) (fun _ _ _ _ => rfl) b.2.2
      | lowRank L' =>
        have b := bl L' hdb
        exact fin (hmLr_is hE hA ta tb α b.1 (by rw [b.2.1, b.2.2.1]; exact hin) h1.1 (by rw [b.2.1, b.2.2.1]; exact h1.2.1)) (fun _ _ _ _ => rfl) b.2.2.2
      | hier => exact viaDense

/-! ### Products into a low-rank matrix -/

theorem denseIntoLR_is (hE : E.Exact) {AB : Mat R} {m n : ℕ} {F FC : ℕ → ℕ → R} (h : AB.Is m n F) (β : R) {C : LR R} (hC : C.IsMat m n FC ∨ (C.rank = 0 ∧ ∀ i j, FC i j = 0)) :
    (denseIntoLR E AB β C).IsMat m n (fun i j => F i j + β * FC i j) := by
  have c := fun old => hE.cmp AB old
  rw [h.1, h.2.1] at c
  unfold denseIntoLR
  by_cases hz : β = 0 ∨ C.rank = 0
  · rw [if_pos hz]
    refine IsMat.congr' (c C) fun i hi j hj => ?_
    rw [h.2.2 i hi j hj]
    rcases hz with hz | hz
    · rw [hz, zero_mul, add_zero]
    · rcases hC with hC | hC
      · rw [← hC.2.2.2 i hi j hj, entry_rank_zero hz, mul_zero, add_zero]
      · rw [hC.2, mul_zero, add_zero]
  · rw [if_neg hz]
    have hC := hC.resolve_right fun h => hz (Or.inr h.1)
    apply hE.rc
    have := cat_prod β (c ⟨Mat.mk' 0 0 0, Mat.mk' 0 0 0⟩) hC.1 hC.2.1 hC.2.2.1
    rw [hC.2.1, hC.2.2.1] at this
    exact IsMat.congr' this fun i hi j hj => by beta_reduce; rw [h.2.2 i hi j hj, hC.2.2.2 i hi j hj]

theorem matMatIntoLR_is (hE : E.Exact) (ta tb : Trans) (α β : R) {A B : Mat R} {C : LR R} {FC : ℕ → ℕ → R}
    (hin : opCols ta A.nr A.nc = opRows tb B.nr B.nc) (hC : C.IsMat (opRows ta A.nr A.nc) (opCols tb B.nr B.nc) FC ∨ (C.rank = 0 ∧ ∀ i j, FC i j = 0)) :
    (matMatIntoLR E ta tb α A B β C).IsMat (opRows ta A.nr A.nc) (opCols tb B.nr B.nc)
      (prodE ta tb α A.get B.get (opCols ta A.nr A.nc) β FC) := by
  have c := C35_matrix_matrix_product ta tb α A B β (Mat.mk' (opRows ta A.nr A.nc) (opCols tb B.nr B.nc) 0) ⟨rfl, rfl, hin⟩
  refine denseIntoLR_is hE (F := fun i j => α * ∑ l ∈ range (opCols ta A.nr A.nc), opE ta A.get i l * opE tb B.get l j) ⟨c.1, c.2.1, fun i hi j hj => ?_⟩ β hC
  refine (c.2.2.1 i hi j hj).trans ?_
  rw [show (Mat.mk' (opRows ta A.nr A.nc) (opCols tb B.nr B.nc) (0 : R)).get i j = 0 from mk'_get _ _ 0 hi hj, mul_zero, add_zero]

theorem hmMatLR_gen (hE : E.Exact) {F : ℕ → ℕ → R} {ta : Trans} (hA : RMOp E A ta F) (tb : Trans) (α β : R) {B : Mat R} {C : LR R} {FC : ℕ → ℕ → R}
    (hin : opCols ta A.label.t.sz A.label.s.sz = opRows tb B.nr B.nc)
    (hC : C.IsMat (opRows ta A.label.t.sz A.label.s.sz) (opCols tb B.nr B.nc) FC ∨ (C.rank = 0 ∧ ∀ i j, FC i j = 0)) :
    (hmMatLR E ta tb α A B β C).IsMat (opRows ta A.label.t.sz A.label.s.sz) (opCols tb B.nr B.nc)
      (prodE ta tb α F B.get (opCols ta A.label.t.sz A.label.s.sz) β FC) := by
  have w := hmMat_gen hA tb α 0 (B := B) (C := Mat.mk' (opRows ta A.label.t.sz A.label.s.sz) (opCols tb B.nr B.nc) 0) hin rfl rfl
  exact denseIntoLR_is hE (w.congr fun i hi j hj => by unfold prodE; rw [zero_mul, add_zero]) β hC

theorem hmMatLR_is (hE : E.Exact) (hA : Rep .full ad M A) (ta tb : Trans) (α β : R) {B : Mat R} {C : LR R} {FC : ℕ → ℕ → R}
    (hin : opCols ta A.label.t.sz A.label.s.sz = opRows tb B.nr B.nc)
    (hC : C.IsMat (opRows ta A.label.t.sz A.label.s.sz) (opCols tb B.nr B.nc) FC ∨ (C.rank = 0 ∧ ∀ i j, FC i j = 0)) :
    (hmMatLR E ta tb α A B β C).IsMat (opRows ta A.label.t.sz A.label.s.sz) (opCols tb B.nr B.nc)
      (prodE ta tb α (rel M A.label.t.off A.label.s.off) B.get (opCols ta A.label.t.sz A.label.s.sz) β FC) :=
  hmMatLR_gen hE (hA.rmop hE.real ta) tb α β hin hC

theorem matHmLR_gen (hE : E.Exact) {F : ℕ → ℕ → R} {ta tb : Trans} (hB : MHOp E B ta tb F) (α β : R) {A : Mat R} {C : LR R} {FC : ℕ → ℕ → R}
    (hin : opCols ta A.nr A.nc = opRows tb B.label.t.sz B.label.s.sz)
    (hC : C.IsMat (opRows ta A.nr A.nc) (opCols tb B.label.t.sz B.label.s.sz) FC ∨ (C.rank = 0 ∧ ∀ i j, FC i j = 0)) :
    (matHmLR E ta tb α A B β C).IsMat (opRows ta A.nr A.nc) (opCols tb B.label.t.sz B.label.s.sz)
      (prodE ta tb α A.get F (opCols ta A.nr A.nc) β FC) := by
  have w := matHm_gen hB α 0 (A := A) (C := Mat.mk' (opRows ta A.nr A.nc) (opCols tb B.label.t.sz B.label.s.sz) 0) hin rfl rfl
  exact denseIntoLR_is hE (w.congr fun i hi j hj => by unfold prodE; rw [zero_mul, add_zero]) β hC

theorem matHmLR_is (hE : E.Exact) (hB : Rep .full ad M B) (ta tb : Trans) (α β : R) {A : Mat R} {C : LR R} {FC : ℕ → ℕ → R}
    (hin : opCols ta A.nr A.nc = opRows tb B.label.t.sz B.label.s.sz)
    (hC : C.IsMat (opRows ta A.nr A.nc) (opCols tb B.label.t.sz B.label.s.sz) FC ∨ (C.rank = 0 ∧ ∀ i j, FC i j = 0)) :
    (matHmLR E ta tb α A B β C).IsMat (opRows ta A.nr A.nc) (opCols tb B.label.t.sz B.label.s.sz)
      (prodE ta tb α A.get (rel M B.label.t.off B.label.s.off) (opCols ta A.nr A.nc) β FC) :=
  matHmLR_gen hE (hB.mhop hE.real ta tb) α β hin hC

theorem hmLrLR_gen (hE : E.Exact) {F : ℕ → ℕ → R} {ta : Trans} (hA : RMOp E A ta F) (tb : Trans) (α β : R) {B : LR R} (hB : B.WF) {C : LR R} {FC : ℕ → ℕ → R}
    (hr : B.rank ≠ 0 ∨ β = 1) (hin : opCols ta A.label.t.sz A.label.s.sz = opRows tb B.nr B.nc)
    (hC : C.IsMat (opRows ta A.label.t.sz A.label.s.sz) (opCols tb B.nr B.nc) FC) :
    (hmLrLR E ta tb α A B β C).IsMat (opRows ta A.label.t.sz A.label.s.sz) (opCols tb B.nr B.nc)
      (prodE ta tb α F B.entry (opCols ta A.label.t.sz A.label.s.sz) β FC) := by
  have hvw : B.V.nr = B.U.nc := hB
  unfold hmLrLR
  by_cases h0 : B.rank = 0
  · rw [if_neg (fun h => h h0)]
    have hb := hr.resolve_left (fun h => h h0)
    refine IsMat.congr' hC fun i hi j hj => ?_
    unfold prodE
    simp [opE_zero (entry_rank_zero h0), hb]
  · rw [if_pos h0]
    -- the factors of the product
    have key : ∀ W0 : Mat R, W0.nr = opRows ta A.label.t.sz A.label.s.sz → W0.nc = B.rank →
        LR.IsMat ⟨if tb = .N then hmMat E ta .N α A B.U 0 W0 else hmMat E ta tb α A B.V 0 W0, LR.factMatMul tb B⟩
          (opRows ta A.label.t.sz A.label.s.sz) (opCols tb B.nr B.nc)
          (fun i j => α * ∑ q ∈ range (opCols ta A.label.t.sz A.label.s.sz), opE ta F i q * opE tb B.entry q j) := by
      intro W0 hW hWc
      by_cases e : tb = .N
      · subst e
        rw [if_pos rfl]
        have w := hmMat_gen hA .N α 0 (B := B.U) (C := W0) hin hW hWc
        rw [hW, hWc] at w
        exact factMatMul_spec .N α (opE ta F) (opCols ta A.label.t.sz A.label.s.sz) _ B _ hB w.1 w.2.1
          (fun i hi l hl => by rw [w.2.2 i hi l hl, if_pos rfl]; unfold prodE; rw [zero_mul, add_zero])
      · rw [if_neg e]
        have hin' : opCols ta A.label.t.sz A.label.s.sz = opRows tb B.V.nr B.V.nc := by
          rw [hin]; unfold opRows; rw [if_neg e, if_neg e]; rfl
        have w := hmMat_gen hA tb α 0 (B := B.V) (C := W0) hin' hW (by unfold opCols; rw [if_neg e, hWc]; exact hvw.symm)
        rw [hW, hWc] at w
        exact factMatMul_spec tb α (opE ta F) (opCols ta A.label.t.sz A.label.s.sz) _ B _ hB w.1 w.2.1
          (fun i hi l hl => by rw [w.2.2 i hi l hl, if_neg e]; unfold prodE; rw [zero_mul, add_zero])
    have hk : (if tb = .N then B.U.nc else B.V.nr) = B.rank := by
      by_cases e : tb = .N
      · rw [if_pos e]; rfl
      · rw [if_neg e]; exact hvw
    simp only [hk]
    by_cases hz : β = 0 ∨ C.rank = 0
    · rw [if_pos hz]
      have k := key (C.U.resize (opRows ta A.label.t.sz A.label.s.sz) B.rank 0) rfl rfl
      have : (if tb = .N then (⟨hmMat E ta .N α A B.U 0 (C.U.resize (opRows ta A.label.t.sz A.label.s.sz) B.rank 0), B.V⟩ : LR R)
          else ⟨hmMat E ta tb α A B.V 0 (C.U.resize (opRows ta A.label.t.sz A.label.s.sz) B.rank 0), Mat.opT tb B.U⟩) =
          ⟨if tb = .N then hmMat E ta .N α A B.U 0 (C.U.resize (opRows ta A.label.t.sz A.label.s.sz) B.rank 0)
            else hmMat E ta tb α A B.V 0 (C.U.resize (opRows ta A.label.t.sz A.label.s.sz) B.rank 0), LR.factMatMul tb B⟩ := by
        unfold LR.factMatMul
        by_cases e : tb = .N
        · rw [if_pos e, if_pos e, if_pos e]
        · rw [if_neg e, if_neg e, if_neg e]
      refine cast (congrArg (fun L : LR R => L.IsMat _ _ _) this.symm) (IsMat.congr' k fun i hi j hj => ?_)
      unfold prodE
      rcases hz with hz | hz
      · rw [hz, zero_mul, add_zero]
      · rw [← hC.2.2.2 i hi j hj, entry_rank_zero hz, mul_zero, add_zero]
    · rw [if_neg hz]
      apply hE.rc
      have k := cat_prod β (key (Mat.mk' (opRows ta A.label.t.sz A.label.s.sz) B.rank 0) rfl rfl) hC.1 hC.2.1 hC.2.2.1
      rw [hC.2.1, hC.2.2.1] at k
      exact IsMat.congr' k fun i hi j hj => by unfold prodE; rw [hC.2.2.2 i hi j hj]

theorem hmLrLR_is (hE : E.Exact) (hA : Rep .full ad M A) (ta tb : Trans) (α β : R) {B : LR R} (hB : B.WF) {C : LR R} {FC : ℕ → ℕ → R}
    (hr : B.rank ≠ 0 ∨ β = 1) (hin : opCols ta A.label.t.sz A.label.s.sz = opRows tb B.nr B.nc)
    (hC : C.IsMat (opRows ta A.label.t.sz A.label.s.sz) (opCols tb B.nr B.nc) FC) :
    (hmLrLR E ta tb α A B β C).IsMat (opRows ta A.label.t.sz A.label.s.sz) (opCols tb B.nr B.nc)
      (prodE ta tb α (rel M A.label.t.off A.label.s.off) B.entry (opCols ta A.label.t.sz A.label.s.sz) β FC) :=
  hmLrLR_gen hE (hA.rmop hE.real ta) tb α β hB hr hin hC

theorem lrHmLR_gen (hE : E.Exact) {F : ℕ → ℕ → R} {ta tb : Trans} (hB : MHOp E B ta tb F) (α β : R) {A : LR R} (hA : A.WF) {C : LR R} {FC : ℕ → ℕ → R}
    (hr : A.rank ≠ 0 ∨ β = 1) (hin : opCols ta A.nr A.nc = opRows tb B.label.t.sz B.label.s.sz)
    (hC : C.IsMat (opRows ta A.nr A.nc) (opCols tb B.label.t.sz B.label.s.sz) FC) :
    (lrHmLR E ta tb α A B β C).IsMat (opRows ta A.nr A.nc) (opCols tb B.label.t.sz B.label.s.sz)
      (prodE ta tb α A.entry F (opCols ta A.nr A.nc) β FC) := by
  have hvw : A.V.nr = A.U.nc := hA
  unfold lrHmLR
  by_cases h0 : A.rank = 0
  · rw [if_neg (fun h => h h0)]
    have hb := hr.resolve_left (fun h => h h0)
    refine IsMat.congr' hC fun i hi j hj => ?_
    unfold prodE
    simp [opE_zero (entry_rank_zero h0), hb]
  · rw [if_pos h0]
    have key : ∀ W0 : Mat R, W0.nr = A.rank → W0.nc = opCols tb B.label.t.sz B.label.s.sz →
        LR.IsMat ⟨LR.factMulMat ta A, if ta = .N then matHm E ta tb α A.V B 0 W0 else matHm E ta tb α A.U B 0 W0⟩
          (opRows ta A.nr A.nc) (opCols tb B.label.t.sz B.label.s.sz)
          (fun i j => α * ∑ q ∈ range (opCols ta A.nr A.nc), opE ta A.entry i q * opE tb F q j) := by
      intro W0 hW hWc
      by_cases e : ta = .N
      · subst e
        rw [if_pos rfl]
        have w := matHm_gen hB α 0 (A := A.V) (C := W0) hin (hW.trans hvw.symm) hWc
        rw [hW, hWc] at w
        exact factMulGen .N α (opE tb F) _ A _ hA w.1 w.2.1
          (fun l hl j hj => by rw [w.2.2 l hl j hj, if_pos rfl]; unfold prodE; rw [zero_mul, add_zero]; rfl)
      · rw [if_neg e]
        have hoc : opCols ta A.nr A.nc = opCols ta A.U.nr A.U.nc := by unfold opCols; rw [if_neg e, if_neg e]; rfl
        have w := matHm_gen hB α 0 (A := A.U) (C := W0) (by rw [← hoc]; exact hin) (by unfold opRows; rw [if_neg e]; exact hW) hWc
        rw [hW, hWc] at w
        exact factMulGen ta α (opE tb F) _ A _ hA w.1 w.2.1
          (fun l hl j hj => by rw [w.2.2 l hl j hj, if_neg e, hoc]; unfold prodE; rw [zero_mul, add_zero])
    by_cases hz : β = 0 ∨ C.rank = 0
    · rw [if_pos hz]
      have k := key (C.V.resize A.V.nr (opCols tb B.label.t.sz B.label.s.sz) 0) hvw rfl
      have : (if ta = .N then (⟨A.U, matHm E ta tb α A.V B 0 (C.V.resize A.V.nr (opCols tb B.label.t.sz B.label.s.sz) 0)⟩ : LR R)
          else ⟨Mat.opT ta A.V, matHm E ta tb α A.U B 0 (C.V.resize A.U.nc (opCols tb B.label.t.sz B.label.s.sz) 0)⟩) =
          ⟨LR.factMulMat ta A, if ta = .N then matHm E ta tb α A.V B 0 (C.V.resize A.V.nr (opCols tb B.label.t.sz B.label.s.sz) 0)
            else matHm E ta tb α A.U B 0 (C.V.resize A.V.nr (opCols tb B.label.t.sz B.label.s.sz) 0)⟩ := by
        unfold LR.factMulMat
        by_cases e : ta = .N
        · rw [if_pos e, if_pos e, if_pos e]
        · rw [if_neg e, if_neg e, if_neg e, hvw]
      refine cast (congrArg (fun L : LR R => L.IsMat _ _ _) this.symm) (IsMat.congr' k fun i hi j hj => ?_)
      unfold prodE
      rcases hz with hz | hz
      · rw [hz, zero_mul, add_zero]
      · rw [← hC.2.2.2 i hi j hj, entry_rank_zero hz, mul_zero, add_zero]
    · rw [if_neg hz]
      apply hE.rc
      have k := cat_prod β (key (Mat.mk' A.V.nr (opCols tb B.label.t.sz B.label.s.sz) 0) hvw rfl) hC.1 hC.2.1 hC.2.2.1
      rw [hC.2.1, hC.2.2.1] at k
      have : (if ta = .N then A.U.hcat C.U else (Mat.opT ta A.V).hcat C.U) = (LR.factMulMat ta A).hcat C.U := by
        unfold LR.factMulMat
        by_cases e : ta = .N
        · rw [if_pos e, if_pos e]
        · rw [if_neg e, if_neg e]
      simp only [this]
      exact IsMat.congr' k fun i hi j hj => by unfold prodE; rw [hC.2.2.2 i hi j hj]

theorem lrHmLR_is (hE : E.Exact) (hB : Rep .full ad M B) (ta tb : Trans) (α β : R) {A : LR R} (hA : A.WF) {C : LR R} {FC : ℕ → ℕ → R}
    (hr : A.rank ≠ 0 ∨ β = 1) (hin : opCols ta A.nr A.nc = opRows tb B.label.t.sz B.label.s.sz)
    (hC : C.IsMat (opRows ta A.nr A.nc) (opCols tb B.label.t.sz B.label.s.sz) FC) :
    (lrHmLR E ta tb α A B β C).IsMat (opRows ta A.nr A.nc) (opCols tb B.label.t.sz B.label.s.sz)
      (prodE ta tb α A.entry (rel M B.label.t.off B.label.s.off) (opCols ta A.nr A.nc) β FC) :=
  lrHmLR_gen hE (hB.mhop hE.real ta tb) α β hA hr hin hC

end leafProducts
end Htool
