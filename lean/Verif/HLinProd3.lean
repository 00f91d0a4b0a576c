import Verif.HLinProd2

/-! # Products of hierarchical matrices into a low-rank matrix -/

namespace Htool
variable {G R : Type*}
open Finset

section leafLR
variable [CommRing R] [StarRing R] [DecidableEq R] {E : LinOps R} {A B : FTree G R}

/-- The products of `hhLR` and `hhTemp` when `A` and `B` are not both hierarchical. -/
def leafLR (E : LinOps R) (ta tb : Trans) (α : R) (A B : FTree G R) (β : R) (C : LR R) : LR R :=
  match A.label.data, B.label.data with
  | .dense D _, .lowRank L => LR.matMulLR E.rc ta tb α D L β C
  | .dense D _, .dense D' _ => matMatIntoLR E ta tb α D D' β C
  | .dense D _, .hier => matHmLR E ta tb α D B β C
  | .lowRank L, .dense D _ => LR.mulMatLR E.rc ta tb α L D β C
  | .lowRank L, .lowRank L' => LR.mulLRLR E.rc ta tb α L L' β C
  | .lowRank L, .hier => lrHmLR E ta tb α L B β C
  | .hier, .lowRank L => hmLrLR E ta tb α A L β C
  | .hier, .dense D _ => hmMatLR E ta tb α A D β C
  | .hier, .hier => C

theorem hhTemp_eq (ta tb : Trans) (α : R) (A B : FTree G R) (β : R) :
    hhTemp E ta tb α A B β = leafLR E ta tb α A B β ⟨Mat.mk' 0 0 0, Mat.mk' 0 0 0⟩ := by
  unfold hhTemp leafLR
  cases A.label.data <;> cases B.label.data <;> rfl

theorem hhLR_leaf (f : ℕ) (ta tb : Trans) (α : R) (A B : FTree G R) (β : R) (C : LR R) (h : (A.isHier && B.isHier) = false) :
    hhLR E (f + 1) ta tb α A B β C = some (leafLR E ta tb α A B 1 (if β = 1 then C else C.scale β)) := by
  unfold hhLR leafLR
  unfold FTree.isHier at h
  revert h
  cases A.label.data <;> cases B.label.data <;> intro h <;> first | rfl | exact absurd h (by simp)

/-- A low-rank block of rank 0. -/
def FTree.nilRank (A : FTree G R) : Prop := ∃ L : LR R, A.label.data = .lowRank L ∧ L.rank = 0

theorem rc_of_exists {L : LR R} {m n : ℕ} {F F' : ℕ → ℕ → R} (hE : E.Exact) (h : ∃ P : LR R, P.IsMat m n F ∧ (L = P ∨ (0 < P.rank ∧ L = E.rc P)))
    (he : ∀ i < m, ∀ j < n, F i j = F' i j) : L.IsMat m n F' := by
  obtain ⟨P, hP, h | ⟨-, h⟩⟩ := h
  · rw [h]; exact IsMat.congr' hP he
  · rw [h]; exact IsMat.congr' (hE.rc P m n F hP) he

omit [StarRing R] [DecidableEq R] in
theorem mk'_resize (a b m n : ℕ) : (Mat.mk' a b (0 : R)).resize m n 0 = Mat.mk' m n 0 := by
  unfold Mat.resize Mat.mk'
  congr 1
  funext i
  show (if i < m * n then (0 : R) else if i < a * b then 0 else 0) = if i < m * n then 0 else 0
  rw [ite_self]

/-- An empty low-rank matrix. -/
def nilLR (R : Type*) [Zero R] (m n : ℕ) : LR R := ⟨Mat.mk' m 0 0, Mat.mk' 0 n 0⟩

omit [StarRing R] [DecidableEq R] in
theorem nilLR_is (m n : ℕ) : (nilLR R m n).IsMat m n (fun _ _ => 0) := ⟨rfl, rfl, rfl, fun _ _ _ _ => entry_rank_zero rfl _ _⟩

section nil
variable (m n m' n' : ℕ) (rc : LR R → LR R) (ta tb : Trans) (α β : R)

theorem nil_cond : (β = 0 ∨ (nilLR R m n).rank = 0) = True := eq_true (Or.inr rfl)

omit [StarRing R] [DecidableEq R] in
theorem nil_U (a b : ℕ) : (nilLR R m n).U.resize a b 0 = Mat.mk' a b 0 := mk'_resize _ _ _ _
omit [StarRing R] [DecidableEq R] in
theorem nil_V (a b : ℕ) : (nilLR R m n).V.resize a b 0 = Mat.mk' a b 0 := mk'_resize _ _ _ _

theorem matMulLR_nil {A : Mat R} {B : LR R} (h : B.rank ≠ 0) :
    LR.matMulLR rc ta tb α A B β (nilLR R m n) = LR.matMulLR rc ta tb α A B β (nilLR R m' n') := by
  unfold LR.matMulLR
  simp only [if_pos h, nil_cond, if_true, nil_U]

theorem mulMatLR_nil {A : LR R} {B : Mat R} (h : A.rank ≠ 0) :
    LR.mulMatLR rc ta tb α A B β (nilLR R m n) = LR.mulMatLR rc ta tb α A B β (nilLR R m' n') := by
  unfold LR.mulMatLR
  simp only [if_pos h, nil_cond, if_true, nil_V]

theorem mulLRLR_nil {A B : LR R} (h : A.rank ≠ 0 ∧ B.rank ≠ 0) :
    LR.mulLRLR rc ta tb α A B β (nilLR R m n) = LR.mulLRLR rc ta tb α A B β (nilLR R m' n') := by
  unfold LR.mulLRLR
  simp only [if_pos h, nil_cond, if_true, nil_U]

theorem hmLrLR_nil {A : FTree G R} {B : LR R} (h : B.rank ≠ 0) :
    hmLrLR E ta tb α A B β (nilLR R m n) = hmLrLR E ta tb α A B β (nilLR R m' n') := by
  unfold hmLrLR
  simp only [if_pos h, nil_cond, if_true, nil_U]

theorem lrHmLR_nil {A : LR R} {B : FTree G R} (h : A.rank ≠ 0) :
    lrHmLR E ta tb α A B β (nilLR R m n) = lrHmLR E ta tb α A B β (nilLR R m' n') := by
  unfold lrHmLR
  simp only [if_pos h, nil_cond, if_true, nil_V]

end nil

theorem leafLR_is (hE : E.Exact) {adA adB : ClusterTree G → ClusterTree G → Prop} {MA MB : ℕ → ℕ → R}
    (hA : Rep .full adA MA A) (hB : Rep .full adB MB B) (hh : (A.isHier && B.isHier) = false) (ta tb : Trans) (α β : R)
    {C : LR R} {FC : ℕ → ℕ → R} (hin : opCols ta A.label.t.sz A.label.s.sz = opRows tb B.label.t.sz B.label.s.sz)
    (hC : (β = 1 ∧ C.IsMat (opRows ta A.label.t.sz A.label.s.sz) (opCols tb B.label.t.sz B.label.s.sz) FC) ∨
      (¬ A.nilRank ∧ ¬ B.nilRank ∧ C = nilLR R 0 0 ∧ ∀ i j, FC i j = 0)) :
    (leafLR E ta tb α A B β C).IsMat (opRows ta A.label.t.sz A.label.s.sz) (opCols tb B.label.t.sz B.label.s.sz)
      (prodE ta tb α (rel MA A.label.t.off A.label.s.off) (rel MB B.label.t.off B.label.s.off) (opCols ta A.label.t.sz A.label.s.sz) β FC) := by
  have fin : ∀ {L : LR R} {FA FB FC' : ℕ → ℕ → R}, L.IsMat (opRows ta A.label.t.sz A.label.s.sz) (opCols tb B.label.t.sz B.label.s.sz)
        (prodE ta tb α FA FB (opCols ta A.label.t.sz A.label.s.sz) β FC') →
      (∀ i < A.label.t.sz, ∀ j < A.label.s.sz, FA i j = rel MA A.label.t.off A.label.s.off i j) →
      (∀ i < B.label.t.sz, ∀ j < B.label.s.sz, FB i j = rel MB B.label.t.off B.label.s.off i j) →
      (∀ i < opRows ta A.label.t.sz A.label.s.sz, ∀ j < opCols tb B.label.t.sz B.label.s.sz, FC' i j = FC i j) →
      L.IsMat (opRows ta A.label.t.sz A.label.s.sz) (opCols tb B.label.t.sz B.label.s.sz)
      (prodE ta tb α (rel MA A.label.t.off A.label.s.off) (rel MB B.label.t.off B.label.s.off) (opCols ta A.label.t.sz A.label.s.sz) β FC) := by
    intro L FA FB FC' hD ea eb ec
    exact IsMat.congr' hD fun i hi j hj => prodE_congr ea eb hin hi hj (ec i hi j hj)
  have weak : C.IsMat (opRows ta A.label.t.sz A.label.s.sz) (opCols tb B.label.t.sz B.label.s.sz) FC ∨ (C.rank = 0 ∧ ∀ i j, FC i j = 0) := by
    rcases hC with hC | hC
    · exact Or.inl hC.2
    · exact Or.inr ⟨by rw [hC.2.2.1]; rfl, hC.2.2.2⟩
  have refl : ∀ i < opRows ta A.label.t.sz A.label.s.sz, ∀ j < opCols tb B.label.t.sz B.label.s.sz, FC i j = FC i j := fun _ _ _ _ => rfl
  have strong : ∀ (g : LR R → LR R), ((¬ A.nilRank ∧ ¬ B.nilRank) → ∀ m' n', g (nilLR R 0 0) = g (nilLR R m' n')) →
      ∃ C' : LR R, C'.IsMat (opRows ta A.label.t.sz A.label.s.sz) (opCols tb B.label.t.sz B.label.s.sz) FC ∧ g C = g C' ∧
        (β = 1 ∨ (¬ A.nilRank ∧ ¬ B.nilRank)) := by
    intro g hg
    rcases hC with hC | hC
    · exact ⟨C, hC.2, rfl, Or.inl hC.1⟩
    · refine ⟨_, IsMat.congr' (nilLR_is _ _) fun i _ j _ => (hC.2.2.2 i j).symm, ?_, Or.inr ⟨hC.1, hC.2.1⟩⟩
      rw [hC.2.2.1]
      exact hg ⟨hC.1, hC.2.1⟩ _ _
  have na : ∀ L : LR R, A.label.data = .lowRank L → ¬ A.nilRank → L.rank ≠ 0 := fun L h hn h0 => hn ⟨L, h, h0⟩
  have nb : ∀ L : LR R, B.label.data = .lowRank L → ¬ B.nilRank → L.rank ≠ 0 := fun L h hn h0 => hn ⟨L, h, h0⟩
  unfold leafLR
  cases hda : A.label.data with
  | dense D p =>
    have a := hA.dense_is hda
    cases hdb : B.label.data with
    | dense D' p' =>
      have b := hB.dense_is hdb
      have c := matMatIntoLR_is hE ta tb α β (A := D) (B := D') (C := C) (FC := FC) (by rw [a.1, a.2.1, b.1, b.2.1]; exact hin)
        (by rw [a.1, a.2.1, b.1, b.2.1]; exact weak)
      rw [a.1, a.2.1, b.1, b.2.1] at c
      exact fin c a.2.2 b.2.2 refl
    | lowRank L =>
      have b := hB.lowRank_is hdb
      obtain ⟨C', hC', e, hr⟩ := strong (LR.matMulLR E.rc ta tb α D L β) fun h _ _ => matMulLR_nil _ _ _ _ _ _ _ _ _ (nb L hdb h.2)
      show (LR.matMulLR E.rc ta tb α D L β C).IsMat _ _ _
      rw [e]
      have hCr : C'.nr = _ := hC'.2.1
      have hCc : C'.nc = _ := hC'.2.2.1
      have c := C28_matrix_lrmat_lowrank_partial (rc := E.rc) ta tb α D L β C' b.1 hC'.1 (hr.symm.imp_left fun h => nb L hdb h.2) ⟨by rw [a.1, a.2.1]; exact hCr,
        by rw [b.2.1, b.2.2.1]; exact hCc, by rw [a.1, a.2.1, b.2.1, b.2.2.1]; exact hin⟩
      rw [hCr, hCc, a.1, a.2.1] at c
      exact fin (rc_of_exists hE c fun _ _ _ _ => rfl) a.2.2 b.2.2.2 hC'.2.2.2
    | hier =>
      have c := matHmLR_is hE hB ta tb α β (A := D) (C := C) (FC := FC) (by rw [a.1, a.2.1]; exact hin) (by rw [a.1, a.2.1]; exact weak)
      rw [a.1, a.2.1] at c
      exact fin c a.2.2 (fun _ _ _ _ => rfl) refl
  | lowRank L =>
    have a := hA.lowRank_is hda
    cases hdb : B.label.data with
    | dense D' p' =>
      have b := hB.dense_is hdb
      obtain ⟨C', hC', e, hr⟩ := strong (LR.mulMatLR E.rc ta tb α L D' β) fun h _ _ => mulMatLR_nil _ _ _ _ _ _ _ _ _ (na L hda h.1)
      show (LR.mulMatLR E.rc ta tb α L D' β C).IsMat _ _ _
      rw [e]
      have hCr : C'.nr = _ := hC'.2.1
      have hCc : C'.nc = _ := hC'.2.2.1
      have c := C28_lrmat_matrix_lowrank_partial (rc := E.rc) ta tb α L D' β C' a.1 hC'.1 (hr.symm.imp_left fun h => na L hda h.1) ⟨by rw [a.2.1, a.2.2.1]; exact hCr,
        by rw [b.1, b.2.1]; exact hCc, by rw [a.2.1, a.2.2.1, b.1, b.2.1]; exact hin⟩
      rw [hCr, hCc, a.2.1, a.2.2.1] at c
      exact fin (rc_of_exists hE c fun _ _ _ _ => rfl) a.2.2.2 b.2.2 hC'.2.2.2
    | lowRank L' =>
      have b := hB.lowRank_is hdb
      obtain ⟨C', hC', e, hr⟩ := strong (LR.mulLRLR E.rc ta tb α L L' β) fun h _ _ => mulLRLR_nil _ _ _ _ _ _ _ _ _ ⟨na L hda h.1, nb L' hdb h.2⟩
      show (LR.mulLRLR E.rc ta tb α L L' β C).IsMat _ _ _
      rw [e]
      have hCr : C'.nr = _ := hC'.2.1
      have hCc : C'.nc = _ := hC'.2.2.1
      have c := C28_lrmat_lrmat_lowrank_partial (rc := E.rc) ta tb α L L' β C' a.1 b.1 hC'.1
        (hr.symm.imp_left fun h => ⟨na L hda h.1, nb L' hdb h.2⟩) ⟨by rw [a.2.1, a.2.2.1]; exact hCr,
        by rw [b.2.1, b.2.2.1]; exact hCc, by rw [a.2.1, a.2.2.1, b.2.1, b.2.2.1]; exact hin⟩
      rw [hCr, hCc, a.2.1, a.2.2.1] at c
      exact fin (rc_of_exists hE c fun _ _ _ _ => rfl) a.2.2.2 b.2.2.2 hC'.2.2.2
    | hier =>
      obtain ⟨C', hC', e, hr⟩ := strong (lrHmLR E ta tb α L B β) fun h _ _ => lrHmLR_nil _ _ _ _ _ _ _ _ (na L hda h.1)
      show (lrHmLR E ta tb α L B β C).IsMat _ _ _
      rw [e]
      have c := lrHmLR_is hE hB ta tb α β a.1 (C := C') (FC := FC) (hr.symm.imp_left fun h => na L hda h.1) (by rw [a.2.1, a.2.2.1]; exact hin)
        (by rw [a.2.1, a.2.2.1]; exact hC')
      rw [a.2.1, a.2.2.1] at c
      exact fin c a.2.2.2 (fun _ _ _ _ => rfl) refl
  | hier =>
    cases hdb : B.label.data with
    | dense D' p' =>
      have b := hB.dense_is hdb
      have c := hmMatLR_is hE hA ta tb α β (B := D') (C := C) (FC := FC) (by rw [b.1, b.2.1]; exact hin) (by rw [b.1, b.2.1]; exact weak)
      rw [b.1, b.2.1] at c
      exact fin c (fun _ _ _ _ => rfl) b.2.2 refl
    | lowRank L' =>
      have b := hB.lowRank_is hdb
      obtain ⟨C', hC', e, hr⟩ := strong (hmLrLR E ta tb α A L' β) fun h _ _ => hmLrLR_nil _ _ _ _ _ _ _ _ (nb L' hdb h.2)
      show (hmLrLR E ta tb α A L' β C).IsMat _ _ _
      rw [e]
      have c := hmLrLR_is hE hA ta tb α β b.1 (C := C') (FC := FC) (hr.symm.imp_left fun h => nb L' hdb h.2) (by rw [b.2.1, b.2.2.1]; exact hin)
        (by rw [b.2.1, b.2.2.1]; exact hC')
      rw [b.2.1, b.2.2.1] at c
      exact fin c (fun _ _ _ _ => rfl) b.2.2.2 refl
    | hier =>
      exfalso
      unfold FTree.isHier at hh
      rw [hda, hdb] at hh
      exact absurd hh (by simp)

end leafLR

/-! ## Products in cluster numbering -/

section mprod
variable [CommRing R] [StarRing R] {A B : FTree G R}

/-- Entry `(i,j)` of `op(MA) op(MB)`, the inner index running over the cluster `c`. -/
def mprod (ta tb : Trans) (MA MB : ℕ → ℕ → R) (c : ClusterTree G) (i j : ℕ) : R := ∑ l ∈ Ico c.off c.fin, opE ta MA i l * opE tb MB l j

omit [CommRing R] [StarRing R] in
theorem opRows_outC (ta : Trans) (A : FTree G R) : opRows ta A.label.t.sz A.label.s.sz = (A.outC ta).sz := by cases ta <;> rfl
omit [CommRing R] [StarRing R] in
theorem opCols_inC (ta : Trans) (A : FTree G R) : opCols ta A.label.t.sz A.label.s.sz = (A.inC ta).sz := by cases ta <;> rfl
omit [CommRing R] [StarRing R] in
theorem opRows_outC' (ta : Trans) (A : FTree G R) : opCols ta A.label.s.sz A.label.t.sz = (A.outC ta).sz := by cases ta <;> rfl

theorem opE_rel (ta : Trans) (M : ℕ → ℕ → R) (A : FTree G R) (i l : ℕ) :
    opE ta (rel M A.label.t.off A.label.s.off) i l = opE ta M ((A.outC ta).off + i) ((A.inC ta).off + l) := by cases ta <;> rfl

theorem prodE_abs {ta tb : Trans} (hin : A.inC ta = B.outC tb) (α β : R) (MA MB FC : ℕ → ℕ → R) (i j : ℕ) :
    prodE ta tb α (rel MA A.label.t.off A.label.s.off) (rel MB B.label.t.off B.label.s.off) (opCols ta A.label.t.sz A.label.s.sz) β FC i j =
      α * mprod ta tb MA MB (A.inC ta) ((A.outC ta).off + i) ((B.inC tb).off + j) + β * FC i j := by
  unfold prodE mprod
  rw [Finset.sum_Ico_eq_sum_range, opCols_inC]
  have : (A.inC ta).fin - (A.inC ta).off = (A.inC ta).sz := by unfold ClusterTree.fin; omega
  rw [this]
  congr 2
  refine sum_congr rfl fun l _ => ?_
  rw [opE_rel, opE_rel, hin]

theorem sum_Ico_tiles {a b : ℕ} {l : List (ClusterTree G)} (h : Tiles a b (l.map ClusterTree.iv)) (f : ℕ → R) :
    ∑ x ∈ Ico a b, f x = (l.map (fun c => ∑ x ∈ Ico c.off c.fin, f x)).sum := by
  induction l generalizing a with
  | nil =>
    have : a = b := h
    subst this; simp
  | cons c l ih =>
    obtain ⟨h1, h2⟩ : c.off = a ∧ Tiles (a + c.sz) b (l.map ClusterTree.iv) := h
    have hle : a + c.sz ≤ b := h2.le
    rw [List.map_cons, List.sum_cons, ← ih h2, ← h1]
    have : c.fin = a + c.sz := by unfold ClusterTree.fin; omega
    rw [this, h1, Finset.sum_Ico_consecutive _ (by omega) hle]

theorem mprod_tiles {c : ClusterTree G} {l : List (ClusterTree G)} (h : Tiles c.off c.fin (l.map ClusterTree.iv)) (ta tb : Trans)
    (MA MB : ℕ → ℕ → R) (i j : ℕ) : mprod ta tb MA MB c i j = (l.map (fun m => mprod ta tb MA MB m i j)).sum := sum_Ico_tiles h _

/-- A sum over the tiles which contain `i` has one term. -/
theorem sum_tiles_ite {a b : ℕ} {l : List (ClusterTree G)} (h : Tiles a b (l.map ClusterTree.iv)) (i : ℕ) (hi : a ≤ i ∧ i < b) (v : R) :
    (l.map (fun c => if c.off ≤ i ∧ i < c.fin then v else 0)).sum = v := by
  induction l generalizing a with
  | nil =>
    have : a = b := h
    omega
  | cons c l ih =>
    obtain ⟨h1, h2⟩ : c.off = a ∧ Tiles (a + c.sz) b (l.map ClusterTree.iv) := h
    rw [List.map_cons, List.sum_cons]
    by_cases hc : i < a + c.sz
    · rw [if_pos (by unfold ClusterTree.fin; omega)]
      have : l.map (fun c => if c.off ≤ i ∧ i < c.fin then v else 0) = l.map (fun _ => 0) := by
        apply List.map_congr_left
        intro d hd
        have := (h2.mem_bounds (List.mem_map_of_mem (f := ClusterTree.iv) hd)).1
        rw [if_neg]
        intro hh
        have : a + c.sz ≤ d.off := this
        omega
      rw [this]; simp
    · rw [if_neg (by unfold ClusterTree.fin; omega), zero_add]
      exact ih h2 (by omega)

theorem sum_pairs_tiles {a b a' b' : ℕ} {l l' : List (ClusterTree G)} (h : Tiles a b (l.map ClusterTree.iv)) (h' : Tiles a' b' (l'.map ClusterTree.iv))
    (i j : ℕ) (hi : a ≤ i ∧ i < b) (hj : a' ≤ j ∧ j < b') (v : R) :
    ((pairs l l').map (fun x => if (x.1.off ≤ i ∧ i < x.1.fin) ∧ x.2.off ≤ j ∧ j < x.2.fin then v else 0)).sum = v := by
  have : ∀ l : List (ClusterTree G), ((pairs l l').map (fun x => if (x.1.off ≤ i ∧ i < x.1.fin) ∧ x.2.off ≤ j ∧ j < x.2.fin then v else 0)).sum =
      (l.map (fun c => if c.off ≤ i ∧ i < c.fin then v else 0)).sum := by
    intro l
    induction l with
    | nil => rfl
    | cons c l ih =>
      unfold pairs at ih ⊢
      rw [List.flatMap_cons, List.map_append, List.sum_append, ih, List.map_cons, List.sum_cons, List.map_map]
      congr 1
      by_cases hc : c.off ≤ i ∧ i < c.fin
      · rw [if_pos hc]
        refine Eq.trans ?_ (sum_tiles_ite h' j hj v)
        congr 1
        apply List.map_congr_left
        intro d _
        show (if (c.off ≤ i ∧ i < c.fin) ∧ d.off ≤ j ∧ j < d.fin then v else 0) = _
        by_cases hd : d.off ≤ j ∧ j < d.fin
        · rw [if_pos ⟨hc, hd⟩, if_pos hd]
        · rw [if_neg (fun h => hd h.2), if_neg hd]
      · rw [if_neg hc]
        have : l'.map ((fun x : ClusterTree G × ClusterTree G => if (x.1.off ≤ i ∧ i < x.1.fin) ∧ x.2.off ≤ j ∧ j < x.2.fin then v else 0) ∘
            fun y => (c, y)) = l'.map (fun _ => (0 : R)) := by
          apply List.map_congr_left
          intro d _
          exact if_neg fun h => hc h.1
        rw [this]; simp
  rw [this, sum_tiles_ite h i hi v]

end mprod

section hhLR
variable [CommRing R] [StarRing R] [DecidableEq R] {E : LinOps R}

omit [CommRing R] [StarRing R] [DecidableEq R] in
/-- The blocks the loops of the products ask for. -/
theorem Shape.getOp_spec {P : FNode G R → Prop} {A : FTree G R} (h : Shape .full P A) (t1 : A.label.t.Top) (t2 : A.label.s.Top) {bad : Bool}
    (hb : A.bad = true → bad = true) (hf : bad = true ∨ A.isHier = true) (tr : Trans) {p q : ClusterTree G} (hp : p ∈ clList bad (A.outC tr))
    (hq : q ∈ clList bad (A.inC tr)) :
    ∃ X, getOp tr p q A = some X ∧ Shape .full P X ∧ X.outC tr = p ∧ X.inC tr = q ∧ X.ht ≤ A.ht ∧ (bad = false ∨ A.bad = true → X.ht < A.ht) ∧
      0 ≤ X.label.t.rk ∧ 0 ≤ X.label.s.rk := by
  have r : ∀ p q, p ∈ clList bad A.label.t → q ∈ clList bad A.label.s → 0 ≤ p.rk ∧ 0 ≤ q.rk := by
    intro p q hp hq
    exact ⟨clList_rank h.self.clT t1 (fun hr => hb (bad_iff.2 (Or.inl hr))) hp, clList_rank h.self.clS t2 (fun hr => hb (bad_iff.2 (Or.inr hr))) hq⟩
  unfold getOp
  by_cases e : tr = .N
  · subst e
    obtain ⟨X, x1, x2, x3, x4, x5, x6, -⟩ := h.focus t1 t2 hb hf (p := p) (q := q) hp hq rfl
    refine ⟨X, by rw [if_pos rfl]; exact x6, x1, x2, x3, x4, x5, ?_⟩
    rw [x2, x3]
    exact r p q hp hq
  · have e1 : A.outC tr = A.label.s := if_neg e
    have e2 : A.inC tr = A.label.t := if_neg e
    rw [e1] at hp
    rw [e2] at hq
    obtain ⟨X, x1, x2, x3, x4, x5, x6, -⟩ := h.focus t1 t2 hb hf (p := q) (q := p) hq hp rfl
    refine ⟨X, by rw [if_neg e]; exact x6, x1, by unfold FTree.outC; rw [if_neg e]; exact x3, by unfold FTree.inC; rw [if_neg e]; exact x2, x4, x5, ?_⟩
    rw [x2, x3]
    exact r q p hq hp

omit [StarRing R] [DecidableEq R] in
theorem scale_is {C : LR R} {m n : ℕ} {F : ℕ → ℕ → R} (h : C.IsMat m n F) (β : R) [Decidable (β = 1)] :
    (if β = 1 then C else C.scale β).IsMat m n (fun i j => β * F i j) := by
  by_cases hb : β = 1
  · rw [if_pos hb]; exact IsMat.congr' h fun i _ j _ => by rw [hb, one_mul]
  · rw [if_neg hb]
    have := C28_scale β C h.1
    rw [h.2.1, h.2.2.1] at this
    exact IsMat.congr' this fun i hi j hj => by rw [h.2.2.2 i hi j hj]

omit [CommRing R] [StarRing R] [DecidableEq R] in
theorem clList_outC {P : FNode G R → Prop} {m : Mask} {A : FTree G R} (h : Shape m P A) (tr : Trans) : ClOK (A.outC tr) ∧ ClOK (A.inC tr) := by
  cases tr
  · exact ⟨h.self.clT, h.self.clS⟩
  · exact ⟨h.self.clS, h.self.clT⟩
  · exact ⟨h.self.clS, h.self.clT⟩

omit [CommRing R] [StarRing R] [DecidableEq R] in
theorem top_outC {A : FTree G R} (t1 : A.label.t.Top) (t2 : A.label.s.Top) (tr : Trans) : (A.outC tr).Top ∧ (A.inC tr).Top := by
  cases tr
  · exact ⟨t1, t2⟩
  · exact ⟨t2, t1⟩
  · exact ⟨t2, t1⟩

theorem mapOpt_rel {α β : Type*} {f : α → Option β} {Q : α → β → Prop} : ∀ {l : List α}, (∀ a ∈ l, ∃ b, f a = some b ∧ Q a b) →
    ∃ l', mapOpt f l = some l' ∧ List.Forall₂ Q l l'
  | [], _ => ⟨[], rfl, List.Forall₂.nil⟩
  | a :: l, h => by
    obtain ⟨b, hb, hq⟩ := h a (by simp)
    obtain ⟨l', hl, hf⟩ := mapOpt_rel (l := l) fun x hx => h x (by simp [hx])
    refine ⟨b :: l', ?_, List.Forall₂.cons hq hf⟩
    rw [mapOpt, hb, hl]

omit [CommRing R] [StarRing R] [DecidableEq R] in
theorem forall₂_mem {α β : Type*} {Q : α → β → Prop} {l : List α} {l' : List β} (h : List.Forall₂ Q l l') {b : β} (hb : b ∈ l') : ∃ a ∈ l, Q a b := by
  induction h with
  | nil => simp at hb
  | cons h _ ih =>
    rcases List.mem_cons.1 hb with rfl | hb
    · exact ⟨_, by simp, h⟩
    · obtain ⟨a, ha, hq⟩ := ih hb
      exact ⟨a, by simp [ha], hq⟩

/-- Adding low-rank blocks to a low-rank matrix. -/
theorem addLR_fold (hE : E.Exact) {p q : ClusterTree G} : ∀ {l : List ((ClusterTree G × ClusterTree G) × LR R)} {V : ℕ → ℕ → R} {C : LR R}
    {F : ℕ → ℕ → R}, (∀ x ∈ l, p.Desc x.1.1 ∧ q.Desc x.1.2 ∧ x.2.IsMat x.1.1.sz x.1.2.sz (rel V x.1.1.off x.1.2.off)) → ClOK p → ClOK q →
    C.IsMat p.sz q.sz (rel F p.off q.off) →
    (l.foldl (fun C x => LR.addLR E.rc x.2 x.1.1.iv x.1.2.iv C p.iv q.iv) C).IsMat p.sz q.sz
      (rel (fun i j => F i j + (l.map (fun x => if (x.1.1.off ≤ i ∧ i < x.1.1.fin) ∧ x.1.2.off ≤ j ∧ j < x.1.2.fin then V i j else 0)).sum) p.off q.off)
  | [], V, C, F, _, _, _, hC => IsMat.congr' hC fun i _ j _ => by simp [rel]
  | x :: l, V, C, F, hx, hp, hq, hC => by
    obtain ⟨d1, d2, hm⟩ := hx x (by simp)
    have b1 := hp.desc_bounds d1
    have b2 := hq.desc_bounds d2
    obtain ⟨P, P1, P2, P3, -, P5, P6⟩ := C32_sum E.rc x.2 C x.1.1.iv x.1.2.iv p.iv q.iv hm.1 hC.1 hm.2.1 hm.2.2.1 hC.2.1 hC.2.2.1
      (Or.inl ⟨b1, b2⟩)
    have hP : P.IsMat p.sz q.sz (rel (fun i j => F i j +
        (if (x.1.1.off ≤ i ∧ i < x.1.1.fin) ∧ x.1.2.off ≤ j ∧ j < x.1.2.fin then V i j else 0)) p.off q.off) := by
      refine ⟨P1, P2.trans hC.2.1, P3.trans hC.2.2.1, fun i hi j hj => ?_⟩
      have := P5 (p.off + i) (q.off + j) (by unfold InCl ClusterTree.iv; omega) (by unfold InCl ClusterTree.iv; omega)
      have e1 : p.off + i - p.iv.1 = i := by unfold ClusterTree.iv; omega
      have e2 : q.off + j - q.iv.1 = j := by unfold ClusterTree.iv; omega
      rw [e1, e2, hC.2.2.2 i hi j hj] at this
      rw [this]
      unfold rel
      congr 1
      by_cases hc : (x.1.1.off ≤ p.off + i ∧ p.off + i < x.1.1.fin) ∧ x.1.2.off ≤ q.off + j ∧ q.off + j < x.1.2.fin
      · rw [if_pos hc]
        rw [if_pos (show InCl x.1.1.iv (p.off + i) ∧ InCl x.1.2.iv (q.off + j) from hc)]
        have h1 : p.off + i - x.1.1.iv.1 < x.1.1.sz := by unfold ClusterTree.iv; unfold ClusterTree.fin at hc; omega
        have h2 : q.off + j - x.1.2.iv.1 < x.1.2.sz := by unfold ClusterTree.iv; unfold ClusterTree.fin at hc; omega
        rw [hm.2.2.2 _ h1 _ h2]
        unfold rel
        congr 1 <;> (unfold ClusterTree.iv; omega)
      · rw [if_neg hc]
        rw [if_neg (show ¬ (InCl x.1.1.iv (p.off + i) ∧ InCl x.1.2.iv (q.off + j)) from hc)]
    have hC' : (LR.addLR E.rc x.2 x.1.1.iv x.1.2.iv C p.iv q.iv).IsMat p.sz q.sz (rel (fun i j => F i j +
        (if (x.1.1.off ≤ i ∧ i < x.1.1.fin) ∧ x.1.2.off ≤ j ∧ j < x.1.2.fin then V i j else 0)) p.off q.off) := by
      rw [P6]
      by_cases h0 : C.rank = 0
      · rw [if_pos h0]; exact hP
      · rw [if_neg h0]; exact hE.rc P _ _ _ hP
    rw [List.foldl_cons]
    refine IsMat.congr' (addLR_fold hE (fun y hy => hx y (by simp [hy])) hp hq hC') fun i _ j _ => ?_
    unfold rel
    beta_reduce
    rw [List.map_cons, List.sum_cons, add_assoc]

omit [CommRing R] [StarRing R] [DecidableEq R] in
theorem top_of_rank {c : ClusterTree G} (h : 0 ≤ c.rk) : c.Top := Or.inl h

/-- Product of two H-matrices into a low-rank matrix: every block structure, every transposition, any partition. -/
theorem hhLR_spec (hE : E.Exact) {adA adB : ClusterTree G → ClusterTree G → Prop} {MA MB : ℕ → ℕ → R} (ta tb : Trans) (α : R) :
    ∀ (n : ℕ) (A B : FTree G R), A.ht + B.ht ≤ n → Rep .full adA MA A → Rep .full adB MB B → A.label.t.Top → A.label.s.Top →
      B.label.t.Top → B.label.s.Top → A.inC ta = B.outC tb → ∀ (β : R) (C : LR R) (F : ℕ → ℕ → R),
      C.IsMat (A.outC ta).sz (B.inC tb).sz (rel F (A.outC ta).off (B.inC tb).off) →
      ∃ C', hhLR E n ta tb α A B β C = some C' ∧ C'.IsMat (A.outC ta).sz (B.inC tb).sz
        (rel (fun i j => α * mprod ta tb MA MB (A.inC ta) i j + β * F i j) (A.outC ta).off (B.inC tb).off) := by
  intro n
  induction n with
  | zero => intro A B h; have := Tree.ht_pos A; omega
  | succ n ih =>
    intro A B hn hA hB a1 a2 b1 b2 hin β C F hC
    have hsz : opCols ta A.label.t.sz A.label.s.sz = opRows tb B.label.t.sz B.label.s.sz := by rw [opCols_inC, opRows_outC, hin]
    have hC1 := scale_is hC β
    set C1 := if β = 1 then C else C.scale β with hC1e
    by_cases hh : (A.isHier && B.isHier) = false
    · refine ⟨_, hhLR_leaf n ta tb α A B β C hh, ?_⟩
      have := leafLR_is hE hA hB hh ta tb α 1 (C := C1) (FC := fun i j => β * rel F (A.outC ta).off (B.inC tb).off i j) hsz
        (Or.inl ⟨rfl, by rw [opRows_outC, opCols_inC]; exact hC1⟩)
      rw [opRows_outC, opCols_inC] at this
      refine IsMat.congr' this fun i _ j _ => ?_
      rw [prodE_abs hin, one_mul]
      rfl
    · have hh : A.isHier = true ∧ B.isHier = true := by simpa using hh
      have okA := clList_outC hA ta
      have okB := clList_outC hB tb
      have tA := top_outC a1 a2 ta
      have tB := top_outC b1 b2 tb
      set bad := A.bad || B.bad with hbad
      have bA : A.bad = true → bad = true := fun h => by rw [hbad, h]; rfl
      have bB : B.bad = true → bad = true := fun h => by rw [hbad, h]; simp
      have tilesM := clList_tiles (bad := bad) okA.2 tA.2
      -- one block of the result
      have blk : ∀ x ∈ pairs (clList bad (A.outC ta)) (clList bad (B.inC tb)), ∃ y : (ClusterTree G × ClusterTree G) × LR R,
          ((clList bad (A.inC ta)).foldlM (fun (L : LR R) m =>
            match getOp ta x.1 m A, getOp tb m x.2 B with
            | some Ac, some Bc => hhLR E n ta tb α Ac Bc 1 L
            | _, _ => none) ⟨Mat.mk' x.1.sz 0 0, Mat.mk' 0 x.2.sz 0⟩).map (fun L => (x, L)) = some y ∧
          (y.1 = x ∧ y.2.IsMat x.1.sz x.2.sz (rel (fun i j => α * mprod ta tb MA MB (A.inC ta) i j) x.1.off x.2.off)) := by
        rintro ⟨p, q⟩ hx
        rw [mem_pairs] at hx
        obtain ⟨hp, hq⟩ := hx
        have loop : ∀ l : List (ClusterTree G), (∀ m ∈ l, m ∈ clList bad (A.inC ta)) → ∀ (L : LR R) (H : ℕ → ℕ → R),
            L.IsMat p.sz q.sz (rel H p.off q.off) → ∃ L', l.foldlM (fun (L : LR R) m =>
              match getOp ta p m A, getOp tb m q B with
              | some Ac, some Bc => hhLR E n ta tb α Ac Bc 1 L
              | _, _ => none) L = some L' ∧
              L'.IsMat p.sz q.sz (rel (fun i j => H i j + α * (l.map (fun m => mprod ta tb MA MB m i j)).sum) p.off q.off) := by
          intro l
          induction l with
          | nil => intro _ L H hL; exact ⟨L, rfl, IsMat.congr' hL fun i _ j _ => by simp [rel]⟩
          | cons m l ihl =>
            intro hm L H hL
            have hml := hm m (by simp)
            obtain ⟨X, x1, x2, x3, x4, x5, x6, x7, x8⟩ := Shape.getOp_spec hA a1 a2 bA (Or.inr hh.1) ta hp hml
            obtain ⟨Y, y1, y2, y3, y4, y5, y6, y7, y8⟩ := Shape.getOp_spec hB b1 b2 bB (Or.inr hh.2) tb (p := m) (q := q) (by rw [← hin]; exact hml) hq
            have hlt : X.ht + Y.ht ≤ n := by
              cases hb : bad with
              | false => have := x6 (Or.inl hb); omega
              | true =>
                rw [hbad, Bool.or_eq_true] at hb
                rcases hb with hb | hb
                · have := x6 (Or.inr hb); omega
                · have := y6 (Or.inr hb); omega
            obtain ⟨L', l1, l2⟩ := ih X Y hlt x2 y2 (top_of_rank x7) (top_of_rank x8) (top_of_rank y7) (top_of_rank y8) (by rw [x4, y3]) 1 L H
              (by rw [x3, y4]; exact hL)
            rw [x3, x4, y4] at l2
            obtain ⟨L2, m1, m2⟩ := ihl (fun z hz => hm z (by simp [hz])) L' _ l2
            refine ⟨L2, ?_, IsMat.congr' m2 fun i _ j _ => ?_⟩
            · rw [List.foldlM_cons]
              simp only [x1, y1, l1]
              exact m1
            · unfold rel
              beta_reduce
              rw [List.map_cons, List.sum_cons]; ring
        obtain ⟨L', l1, l2⟩ := loop (clList bad (A.inC ta)) (fun _ h => h) (nilLR R p.sz q.sz) (fun _ _ => 0) (nilLR_is _ _)
        refine ⟨((p, q), L'), ?_, rfl, IsMat.congr' l2 fun i _ j _ => ?_⟩
        · have : (⟨Mat.mk' p.sz 0 0, Mat.mk' 0 q.sz 0⟩ : LR R) = nilLR R p.sz q.sz := rfl
          simp only [this, l1, Option.map_some]
        · unfold rel
          beta_reduce
          rw [zero_add, mprod_tiles tilesM]
      obtain ⟨l', hl, hf⟩ := mapOpt_rel blk
      refine ⟨l'.foldl (fun C x => LR.addLR E.rc x.2 x.1.1.iv x.1.2.iv C (A.outC ta).iv (B.inC tb).iv) C1, ?_, ?_⟩
      · unfold hhLR
        have e1 : A.label.data = .hier := by
          have := hh.1; unfold FTree.isHier at this
          revert this; cases A.label.data <;> simp
        have e2 : B.label.data = .hier := by
          have := hh.2; unfold FTree.isHier at this
          revert this; cases B.label.data <;> simp
        simp only [e1, e2]
        rw [← hbad, ← hC1e]
        exact congrArg (Option.map fun l => l.foldl (fun C x => LR.addLR E.rc x.2 x.1.1.iv x.1.2.iv C (A.outC ta).iv (B.inC tb).iv) C1) hl
      · have hmem : ∀ y ∈ l', (A.outC ta).Desc y.1.1 ∧ (B.inC tb).Desc y.1.2 ∧
            y.2.IsMat y.1.1.sz y.1.2.sz (rel (fun i j => α * mprod ta tb MA MB (A.inC ta) i j) y.1.1.off y.1.2.off) := by
          intro y hy
          obtain ⟨x, hx, h1, h2⟩ := forall₂_mem hf hy
          rw [mem_pairs] at hx
          rw [h1]
          exact ⟨clList_desc okA.1 tA.1 hx.1, clList_desc okB.2 tB.2 hx.2, h2⟩
        refine IsMat.congr' (addLR_fold hE (F := fun i j => β * F i j) hmem okA.1 okB.2 hC1) fun i hi j hj => ?_
        unfold rel
        beta_reduce
        rw [add_comm]
        congr 1
        have hl1 : l'.map Prod.fst = pairs (clList bad (A.outC ta)) (clList bad (B.inC tb)) := by
          clear hl hmem blk
          revert hf
          generalize pairs (clList bad (A.outC ta)) (clList bad (B.inC tb)) = ps
          intro hf
          induction hf with
          | nil => rfl
          | cons h _ ih => rw [List.map_cons, ih, h.1]
        have : (l'.map (fun x => if (x.1.1.off ≤ (A.outC ta).off + i ∧ (A.outC ta).off + i < x.1.1.fin) ∧ x.1.2.off ≤ (B.inC tb).off + j ∧
            (B.inC tb).off + j < x.1.2.fin then α * mprod ta tb MA MB (A.inC ta) ((A.outC ta).off + i) ((B.inC tb).off + j) else 0)) =
            (pairs (clList bad (A.outC ta)) (clList bad (B.inC tb))).map (fun x => if (x.1.off ≤ (A.outC ta).off + i ∧ (A.outC ta).off + i < x.1.fin) ∧
              x.2.off ≤ (B.inC tb).off + j ∧ (B.inC tb).off + j < x.2.fin then
                α * mprod ta tb MA MB (A.inC ta) ((A.outC ta).off + i) ((B.inC tb).off + j) else 0) := by
          rw [← hl1, List.map_map]; rfl
        rw [this]
        exact sum_pairs_tiles (clList_tiles okA.1 tA.1) (clList_tiles okB.2 tB.2) _ _ (by unfold ClusterTree.fin; omega) (by unfold ClusterTree.fin; omega) _

end hhLR
end Htool
