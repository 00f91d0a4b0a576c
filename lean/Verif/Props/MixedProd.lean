import Verif.Props.HLinProd

/-! # C60: products of an H-matrix with a dense or a low-rank matrix

The H-matrix may be stored with a symmetry flag (one half of the blocks only). Specification: `A.toH.Represents M` (`Verif/Props/HProd.lean`) says that
the H-matrix `A` stands for the matrix `M` (cluster numbering: stored blocks, and mirror images of the blocks below a symmetric one), `rel M o o'` is `M`
in indices relative to the block, `prodE ta tb α F H k β K i j` is `α ∑_{l < k} op(F)(i,l) op(H)(l,j) + β K(i,j)`. -/

namespace Htool
variable {G R : Type*}
open Finset

section mixed
variable [CommRing R] [StarRing R] [DecidableEq R] {E : LinOps R} {A B : FTree G R} {M : ℕ → ℕ → R} {σ : HSym}

theorem Fit.rmop (hE : E.cplx = false → RealType R) (hA : A.toH.Fit E.cplx σ) (hM : A.toH.Represents M) {tr : Trans} (hs : Supported R σ tr) :
    RMOp E A tr (rel M A.label.t.off A.label.s.off) := by
  intro α β x y mu c hc i
  rw [C22_row_major_product hE hA hs α β x y hc i, toH_label]
  have me : ∀ {a b : ℕ}, a < A.label.t.sz → b < A.label.s.sz → A.toH.mat a b = rel M A.label.t.off A.label.s.off a b := by
    intro a b ha hb
    unfold HTree.mat
    rw [hM.entry_eq]
    · rw [toH_label]; rfl
    · rw [toH_label]
      show A.label.Has _ _
      have : A.label.toH.toff = A.label.t.off ∧ A.label.toH.soff = A.label.s.off := ⟨rfl, rfl⟩
      rw [this.1, this.2]
      unfold FNode.Has ClusterTree.fin; omega
  show (if i < opRows tr A.label.t.sz A.label.s.sz then _ else _) = _
  by_cases hi : i < opRows tr A.label.t.sz A.label.s.sz
  · rw [if_pos hi, if_pos hi]
    congr 2
    refine sum_congr rfl fun j hj => ?_
    have hj : j < opCols tr A.label.t.sz A.label.s.sz := mem_range.1 hj
    congr 1
    cases tr with
    | N => exact me hi hj
    | T => exact me hj hi
    | C => exact congrArg star (me hj hi)
  · rw [if_neg hi, if_neg hi]

/-- The combinations for which the product of a dense or low-rank matrix (operation `ta`) by an H-matrix (operation `tb`) is right: a flagged H-matrix
is square and its matrix is symmetric (hermitian); a complex hermitian H-matrix is not used with `transb = 'N'` and a transposed left operand (see
`C60_hermitian_right_operand_wrong`). -/
structure RightOK (B : FTree G R) (M : ℕ → ℕ → R) (σ : HSym) (ta tb : Trans) : Prop where
  /-- a proper flag -/
  flag : σ ≠ .nul
  /-- a block without flag inside a symmetric matrix is transposed: a supported operation -/
  sub : tb = .N → B.label.symL = .N → Supported R σ .T
  square : B.label.symL = .S ∨ B.label.symL = .H → B.label.t.off = B.label.s.off ∧ B.label.t.sz = B.label.s.sz
  sym : B.label.symL = .S → ∀ i j, B.label.Has i j → M i j = M j i
  herm : B.label.symL = .H → (∀ i j, B.label.Has i j → M i j = star (M j i)) ∧ (tb ≠ .N ∨ ta = .N ∨ RealType R)

theorem Fit.mhop (hE : E.cplx = false → RealType R) (hB : B.toH.Fit E.cplx σ) (hM : B.toH.Represents M) {ta tb : Trans} (h : RightOK B M σ ta tb) :
    MHOp E B ta tb (rel M B.label.t.off B.label.s.off) := by
  have hN : Supported R σ .N := by
    have := h.flag
    cases σ with
    | N => trivial
    | S => exact Or.inl (by simp)
    | H => exact Or.inl (by simp)
    | nul => exact absurd rfl this
  have has : ∀ {i j : ℕ}, i < B.label.t.sz → j < B.label.s.sz → B.label.Has (B.label.t.off + i) (B.label.s.off + j) := by
    intro i j hi hj; unfold FNode.Has ClusterTree.fin; omega
  refine ⟨?_, fun _ hs => (h.square hs).2, fun _ hs i hi j hj => ?_, fun htb hs => ⟨fun i hi j hj => ?_, ?_⟩⟩
  · unfold matHmTrans
    split_ifs with h1 h2
    · exact Fit.rmop hE hB hM hN
    · refine Fit.rmop hE hB hM ?_
      have hl := hB.lab
      rw [toH_label] at hl
      have hl : B.label.symL = .N ∨ B.label.symL = σ := hl
      by_cases hn : B.label.symL = .N
      · exact h.sub h1 hn
      · have e := hl.resolve_left hn
        rw [e] at h2 hn
        have := h.flag
        cases σ <;> simp_all
    · exact Fit.rmop hE hB hM hN
  · have q := h.square (Or.inl hs)
    unfold rel
    rw [h.sym hs _ _ (has hi (q.2 ▸ hj)), q.1]
  · have q := h.square (Or.inr hs)
    unfold rel
    rw [(h.herm hs).1 _ _ (has hi (q.2 ▸ hj)), q.1]
  · exact (h.herm hs).2.resolve_left (fun k => k htb)

/-- **C60.** `C := alpha op(A) op(B) + beta C` for an H-matrix `A` (possibly with symmetric or hermitian storage) and dense `B`, `C`. -/
theorem C60_hmatrix_matrix_product (hE : E.cplx = false → RealType R) (hA : A.toH.Fit E.cplx σ) (hM : A.toH.Represents M) (ta tb : Trans)
    (hs : Supported R σ ta) (α β : R) {B C : Mat R}
    (hin : opCols ta A.label.t.sz A.label.s.sz = opRows tb B.nr B.nc) (hr : C.nr = opRows ta A.label.t.sz A.label.s.sz)
    (hc : C.nc = opCols tb B.nr B.nc) :
    (hmMat E ta tb α A B β C).Is C.nr C.nc
      (prodE ta tb α (rel M A.label.t.off A.label.s.off) B.get (opCols ta A.label.t.sz A.label.s.sz) β C.get) :=
  hmMat_gen (Fit.rmop hE hA hM hs) tb α β hin hr hc

/-- **C60.** The same into a low-rank matrix, with exact compressions. -/
theorem C60_hmatrix_matrix_lowrank_product (hE : E.Exact) (hA : A.toH.Fit E.cplx σ) (hM : A.toH.Represents M) (ta tb : Trans) (hs : Supported R σ ta)
    (α β : R) {B : Mat R} {C : LR R} {FC : ℕ → ℕ → R} (hin : opCols ta A.label.t.sz A.label.s.sz = opRows tb B.nr B.nc)
    (hC : C.IsMat (opRows ta A.label.t.sz A.label.s.sz) (opCols tb B.nr B.nc) FC) :
    (hmMatLR E ta tb α A B β C).IsMat (opRows ta A.label.t.sz A.label.s.sz) (opCols tb B.nr B.nc)
      (prodE ta tb α (rel M A.label.t.off A.label.s.off) B.get (opCols ta A.label.t.sz A.label.s.sz) β FC) :=
  hmMatLR_gen hE (Fit.rmop hE.real hA hM hs) tb α β hin (Or.inl hC)

/-- **C60.** `C := alpha op(A) op(B) + beta C` for an H-matrix `A`, a low-rank `B` and a dense `C`. Missing: a rank 0 `B` with `beta ≠ 1`
(`C60_rank_zero_ignores_beta`). -/
theorem C60_hmatrix_lrmat_product_partial (hE : E.cplx = false → RealType R) (hA : A.toH.Fit E.cplx σ) (hM : A.toH.Represents M) (ta tb : Trans)
    (hs : Supported R σ ta) (α β : R) {B : LR R} (hB : B.WF) {C : Mat R} (hr0 : B.rank ≠ 0 ∨ β = 1)
    (hin : opCols ta A.label.t.sz A.label.s.sz = opRows tb B.nr B.nc) (hr : C.nr = opRows ta A.label.t.sz A.label.s.sz)
    (hc : C.nc = opCols tb B.nr B.nc) :
    (hmLr E ta tb α A B β C).Is C.nr C.nc
      (prodE ta tb α (rel M A.label.t.off A.label.s.off) B.entry (opCols ta A.label.t.sz A.label.s.sz) β C.get) :=
  hmLr_gen (Fit.rmop hE hA hM hs) tb α β hB hr0 hin hr hc

/-- **C60.** The same into a low-rank matrix, with exact recompression. -/
theorem C60_hmatrix_lrmat_lowrank_product_partial (hE : E.Exact) (hA : A.toH.Fit E.cplx σ) (hM : A.toH.Represents M) (ta tb : Trans)
    (hs : Supported R σ ta) (α β : R) {B : LR R} (hB : B.WF) {C : LR R} {FC : ℕ → ℕ → R} (hr0 : B.rank ≠ 0 ∨ β = 1)
    (hin : opCols ta A.label.t.sz A.label.s.sz = opRows tb B.nr B.nc)
    (hC : C.IsMat (opRows ta A.label.t.sz A.label.s.sz) (opCols tb B.nr B.nc) FC) :
    (hmLrLR E ta tb α A B β C).IsMat (opRows ta A.label.t.sz A.label.s.sz) (opCols tb B.nr B.nc)
      (prodE ta tb α (rel M A.label.t.off A.label.s.off) B.entry (opCols ta A.label.t.sz A.label.s.sz) β FC) :=
  hmLrLR_gen hE (Fit.rmop hE.real hA hM hs) tb α β hB hr0 hin hC

/-- **C60.** `C := alpha op(A) op(B) + beta C` for dense `A`, `C` and an H-matrix `B`. Missing: the combinations excluded by `RightOK`. -/
theorem C60_matrix_hmatrix_product_partial (hE : E.cplx = false → RealType R) (hB : B.toH.Fit E.cplx σ) (hM : B.toH.Represents M) {ta tb : Trans}
    (ok : RightOK B M σ ta tb) (α β : R) {A C : Mat R}
    (hin : opCols ta A.nr A.nc = opRows tb B.label.t.sz B.label.s.sz) (hr : C.nr = opRows ta A.nr A.nc)
    (hc : C.nc = opCols tb B.label.t.sz B.label.s.sz) :
    (matHm E ta tb α A B β C).Is C.nr C.nc
      (prodE ta tb α A.get (rel M B.label.t.off B.label.s.off) (opCols ta A.nr A.nc) β C.get) :=
  matHm_gen (Fit.mhop hE hB hM ok) α β hin hr hc

/-- **C60.** The same into a low-rank matrix, with exact compressions. -/
theorem C60_matrix_hmatrix_lowrank_product_partial (hE : E.Exact) (hB : B.toH.Fit E.cplx σ) (hM : B.toH.Represents M) {ta tb : Trans}
    (ok : RightOK B M σ ta tb) (α β : R) {A : Mat R} {C : LR R} {FC : ℕ → ℕ → R}
    (hin : opCols ta A.nr A.nc = opRows tb B.label.t.sz B.label.s.sz)
    (hC : C.IsMat (opRows ta A.nr A.nc) (opCols tb B.label.t.sz B.label.s.sz) FC) :
    (matHmLR E ta tb α A B β C).IsMat (opRows ta A.nr A.nc) (opCols tb B.label.t.sz B.label.s.sz)
      (prodE ta tb α A.get (rel M B.label.t.off B.label.s.off) (opCols ta A.nr A.nc) β FC) :=
  matHmLR_gen hE (Fit.mhop hE.real hB hM ok) α β hin (Or.inl hC)

/-- **C60.** `C := alpha op(A) op(B) + beta C` for a low-rank `A`, an H-matrix `B` and a dense `C`. Missing: the combinations excluded by `RightOK`, and
a rank 0 `A` with `beta ≠ 1`. -/
theorem C60_lrmat_hmatrix_product_partial (hE : E.cplx = false → RealType R) (hB : B.toH.Fit E.cplx σ) (hM : B.toH.Represents M) {ta tb : Trans}
    (ok : RightOK B M σ ta tb) (α β : R) {A : LR R} (hA : A.WF) {C : Mat R} (hr0 : A.rank ≠ 0 ∨ β = 1)
    (hin : opCols ta A.nr A.nc = opRows tb B.label.t.sz B.label.s.sz) (hr : C.nr = opRows ta A.nr A.nc)
    (hc : C.nc = opCols tb B.label.t.sz B.label.s.sz) :
    (lrHm E ta tb α A B β C).Is C.nr C.nc
      (prodE ta tb α A.entry (rel M B.label.t.off B.label.s.off) (opCols ta A.nr A.nc) β C.get) :=
  lrHm_gen (Fit.mhop hE hB hM ok) α β hA hr0 hin hr hc

/-- **C60.** The same into a low-rank matrix, with exact recompression. -/
theorem C60_lrmat_hmatrix_lowrank_product_partial (hE : E.Exact) (hB : B.toH.Fit E.cplx σ) (hM : B.toH.Represents M) {ta tb : Trans}
    (ok : RightOK B M σ ta tb) (α β : R) {A : LR R} (hA : A.WF) {C : LR R} {FC : ℕ → ℕ → R} (hr0 : A.rank ≠ 0 ∨ β = 1)
    (hin : opCols ta A.nr A.nc = opRows tb B.label.t.sz B.label.s.sz)
    (hC : C.IsMat (opRows ta A.nr A.nc) (opCols tb B.label.t.sz B.label.s.sz) FC) :
    (lrHmLR E ta tb α A B β C).IsMat (opRows ta A.nr A.nc) (opCols tb B.label.t.sz B.label.s.sz)
      (prodE ta tb α A.entry (rel M B.label.t.off B.label.s.off) (opCols ta A.nr A.nc) β FC) :=
  lrHmLR_gen hE (Fit.mhop hE.real hB hM ok) α β hA hr0 hin hC

/-- **C60 fails**: a rank 0 low-rank operand makes the products with a low-rank matrix return without scaling `C` by `beta`
(add_hmatrix_lrmat_product.hpp 17-38, 40-113, add_lrmat_hmatrix_product.hpp 17-34, 36-106). -/
theorem C60_rank_zero_ignores_beta (E : LinOps R) (ta tb : Trans) (α β : R) (A : FTree G R) {L : LR R} (h0 : L.rank = 0) (C : Mat R) (D : LR R) :
    hmLr E ta tb α A L β C = C ∧ hmLrLR E ta tb α A L β D = D ∧ lrHm E ta tb α L A β C = C ∧ lrHmLR E ta tb α L A β D = D :=
  ⟨if_neg fun h => h h0, if_neg fun h => h h0, if_neg fun h => h h0, if_neg fun h => h h0⟩

/-- **C60 fails**: with a complex hermitian H-matrix `B`, `transb = 'N'` and a transposed left operand, the result is
`alpha op(A) conj(B) + beta C` (add_matrix_hmatrix_product.hpp 23-25, 37-49: only the branch `transa == 'N'` conjugates). -/
theorem C60_hermitian_right_operand_conjugated (hE : E.cplx = false → RealType R) (hB : B.toH.Fit E.cplx .H) (hM : B.toH.Represents M)
    (hS : B.label.symL = .H) (hsq : B.label.t.off = B.label.s.off ∧ B.label.t.sz = B.label.s.sz)
    (hherm : ∀ i j, B.label.Has i j → M i j = star (M j i)) {ta : Trans} (hta : ta ≠ .N)
    (α β : R) {A C : Mat R} (hin : A.nr = B.label.t.sz) (hr : C.nr = A.nc) (hc : C.nc = B.label.s.sz) :
    (matHm E ta .N α A B β C).Is C.nr C.nc
      (prodE ta .N α A.get (fun i j => star (rel M B.label.t.off B.label.s.off i j)) A.nr β C.get) := by
  -- with the flag removed from the case distinction the code computes the product by the transposed matrix
  have e : matHm E ta .N α A B β C = matHm E ta .T α A B β C := by
    unfold matHm matHmTrans
    rw [hS]
    cases ta with
    | N => exact absurd rfl hta
    | T => simp
    | C => simp
  have ok : RightOK B M .H ta .T :=
    ⟨by simp, fun h => absurd h (by simp), fun _ => hsq, fun h => absurd (hS.symm.trans h) (by simp), fun _ => ⟨hherm, Or.inl (by simp)⟩⟩
  have p := C60_matrix_hmatrix_product_partial hE hB hM ok α β (A := A) (C := C)
    (by unfold opCols opRows; rw [if_neg hta]; simp [hin, hsq.2]) (by unfold opRows; rw [if_neg hta]; exact hr) (by rw [hc]; exact hsq.2.symm)
  rw [e]
  have hk : opCols ta A.nr A.nc = A.nr := if_neg hta
  rw [hk] at p
  refine p.congr fun i hi j hj => ?_
  unfold prodE
  congr 2
  refine sum_congr rfl fun l hl => ?_
  have hl := mem_range.1 hl
  congr 1
  show rel M _ _ j l = star (rel M _ _ l j)
  unfold rel
  rw [← hsq.1]
  refine hherm _ _ ?_
  unfold FNode.Has ClusterTree.fin; omega

end mixed

/-! ## The hypotheses can be met -/

/-- A cluster with its index interval. -/
def exCl (off sz : ℕ) (kids : List (CTree Unit)) : CTree Unit := .node ⟨off, sz, 0, 0, 0, true, ()⟩ kids

/-- The cluster tree of four points, two and two. -/
def exCl4 : CTree Unit := exCl 0 4 [exCl 0 2 [], exCl 2 2 []]

/-- The hermitian 4 × 4 matrix `exHerm` of C19 with its clusters: two dense hermitian diagonal blocks, one low-rank block, the lower half is stored. -/
def exHermF : FTree Unit GaussianInt :=
  .node ⟨⟨exCl4, [exCl4]⟩, ⟨exCl4, [exCl4]⟩, .H, .L, .H, .L, .hier⟩
    [.node ⟨⟨exCl 0 2 [], [exCl4]⟩, ⟨exCl 0 2 [], [exCl4]⟩, .H, .L, .H, .L, .dense (matFun 2 2 fun i j => if i = j then 3 else ⟨1, 1⟩) []⟩ [],
     .node ⟨⟨exCl 2 2 [], [exCl4]⟩, ⟨exCl 0 2 [], [exCl4]⟩, .N, .N, .N, .N, .lowRank ⟨matFun 2 1 fun i _ => ⟨i, 1⟩, matFun 1 2 fun _ j => ⟨1, j⟩⟩⟩ [],
     .node ⟨⟨exCl 2 2 [], [exCl4]⟩, ⟨exCl 2 2 [], [exCl4]⟩, .H, .L, .H, .L, .dense (matFun 2 2 fun i j => if i = j then 5 else ⟨0, 2⟩) []⟩ []]

/-- The hermitian matrix it stands for. -/
def exHermFM (i j : ℕ) : GaussianInt :=
  if i < 2 ∧ j < 2 then (if i = j then 3 else if j < i then ⟨1, 1⟩ else ⟨1, -1⟩)
  else if 2 ≤ i ∧ j < 2 then ⟨(i - 2 : ℕ), 1⟩ * ⟨1, j⟩
  else if i < 2 then star (⟨(j - 2 : ℕ), 1⟩ * ⟨1, i⟩)
  else (if i = j then 5 else if j < i then ⟨0, 2⟩ else ⟨0, -2⟩)

theorem exHermF_leaves : exHermF.toH.leaves =
    [.node ⟨0, 2, 0, 2, .H, .L, .H, .L, .dense (matFun 2 2 fun i j => if i = j then 3 else ⟨1, 1⟩).get⟩ [],
     .node ⟨2, 2, 0, 2, .N, .N, .N, .N, .lowRank 1 (matFun 2 1 fun i _ => ⟨i, 1⟩).get (matFun 1 2 fun _ j => ⟨1, j⟩).get⟩ [],
     .node ⟨2, 2, 2, 2, .H, .L, .H, .L, .dense (matFun 2 2 fun i j => if i = j then 5 else ⟨0, 2⟩).get⟩ []] := by
  simp only [exHermF, FTree.toH, Tree.map_node, List.map_cons, List.map_nil, Tree.leaves, Tree.leavesL, List.append_nil]
  rfl

theorem exHermF_mirror {l : HTree GaussianInt} (hl : l ∈ (getLeavesH exHermF.toH).2) :
    l = .node ⟨2, 2, 0, 2, .N, .N, .N, .N, .lowRank 1 (matFun 2 1 fun i _ => ⟨i, 1⟩).get (matFun 1 2 fun _ j => ⟨1, j⟩).get⟩ [] := by
  have hl := (getLeavesH_perm exHermF.toH).2.mem_iff.1 hl
  simp [exHermF, FTree.toH, Tree.map_node, symLeavesG, symLeavesGL, HNode.isSym, HNode.offDiag, FNode.toH, ClusterTree.off, ClusterTree.sz, exCl, exCl4] at hl
  rw [hl.2]; rfl

theorem exHermF_fit : exHermF.toH.Fit true .H where
  lab := Or.inr rfl
  leafOK := by
    intro l hl
    rw [exHermF_leaves] at hl
    simp only [List.mem_cons, List.not_mem_nil, or_false] at hl
    rcases hl with rfl | rfl | rfl
    · refine ⟨by simp, Or.inr rfl, fun _ => rfl, fun _ => by decide, fun _ => ⟨rfl, ?_⟩⟩
      intro M hM i hi
      have hi : i < 2 := hi
      rw [← HData.dense.inj hM, matFun_get 2 2 _ hi, if_pos rfl]; rfl
    · constructor <;> simp
    · refine ⟨by simp, Or.inr rfl, fun _ => rfl, fun _ => by decide, fun _ => ⟨rfl, ?_⟩⟩
      intro M hM i hi
      have hi : i < 2 := hi
      rw [← HData.dense.inj hM, matFun_get 2 2 _ hi, if_pos rfl]; rfl
  inside := by
    intro l hl
    rw [exHermF_leaves] at hl
    simp only [List.mem_cons, List.not_mem_nil, or_false] at hl
    rw [toH_label]
    rcases hl with rfl | rfl | rfl <;> unfold Inside <;> decide
  mirror := by
    intro l hl
    rw [exHermF_mirror hl, toH_label]
    unfold Inside
    decide

theorem exHermF_represents : exHermF.toH.Represents exHermFM where
  own := by
    intro l hl i j hh
    have hl := (getLeavesH_perm exHermF.toH).1.mem_iff.1 hl
    rw [exHermF_leaves] at hl
    simp only [List.mem_cons, List.not_mem_nil, or_false] at hl
    unfold HNode.Has InIv at hh
    rcases hl with rfl | rfl | rfl <;> simp only [Tree.label_node] at hh ⊢ <;> obtain ⟨⟨h1, h2⟩, h3, h4⟩ := hh <;>
      interval_cases i <;> interval_cases j <;> decide +kernel
  mirror := by
    intro l hl i j hh
    rw [exHermF_mirror hl] at hh
    unfold HNode.Has InIv at hh
    simp only [Tree.label_node] at hh
    obtain ⟨⟨h1, h2⟩, h3, h4⟩ := hh
    interval_cases i <;> interval_cases j <;> decide +kernel
  flag _ := by rw [toH_label]; decide
  cover := by
    intro i j hh
    rw [toH_label] at hh
    have h2 : i < 4 := by
      have := hh.1.2; exact this
    have h4 : j < 4 := by
      have := hh.2.2; exact this
    interval_cases i <;> interval_cases j <;> decide +kernel

theorem exHermF_hermitian : ∀ i < 4, ∀ j < 4, exHermFM i j = star (exHermFM j i) := by decide +kernel

/-- The product from the right is allowed for the hermitian example, except with `transb = 'N'` and a transposed left operand. -/
theorem exHermF_rightOK {ta tb : Trans} (h : tb ≠ .N ∨ ta = .N) : RightOK exHermF exHermFM .H ta tb where
  flag := by decide
  sub _ h := by simp [exHermF] at h
  square _ := ⟨rfl, rfl⟩
  sym h := by simp [exHermF] at h
  herm _ := ⟨fun i j hh => exHermF_hermitian i (by have := hh.1; have h2 := this.2; exact h2) j (by have := hh.2; have h2 := this.2; exact h2),
    h.elim Or.inl fun h => Or.inr (Or.inl h)⟩

/-- Operations without compression, complex coefficients. -/
def exOps60 : LinOps GaussianInt := ⟨true, id, fun D _ => fullLR D, fun D => (D, []), fun _ D => D, fun _ _ _ _ _ _ B => B⟩

theorem exOps60_exact : exOps60.Exact := ⟨fun h => by simp [exOps60] at h, fun _ _ _ _ h => h, fun D _ => fullLR_is D⟩

/-- A 4 × 3 matrix. -/
def exB60 : Mat GaussianInt := matFun 4 3 fun i j => ⟨i, 2 * j⟩

/-- All the products with the hermitian example and `exB60` meet the hypotheses; here two of them. -/
example : (hmMat exOps60 .C .N ⟨0, 1⟩ exHermF exB60 2 (matFun 4 3 fun _ _ => 1)).Is 4 3
      (prodE .C .N ⟨0, 1⟩ (rel exHermFM 0 0) exB60.get 4 2 (matFun 4 3 fun _ _ => 1).get) ∧
    (matHm exOps60 .N .N ⟨0, 1⟩ (matFun 3 4 fun i j => ⟨j, i⟩) exHermF 2 (matFun 3 4 fun _ _ => 1)).Is 3 4
      (prodE .N .N ⟨0, 1⟩ (matFun 3 4 fun i j => ⟨j, i⟩).get (rel exHermFM 0 0) 4 2 (matFun 3 4 fun _ _ => 1).get) :=
  ⟨C60_hmatrix_matrix_product exOps60_exact.real exHermF_fit exHermF_represents .C .N (Or.inl (by decide)) _ _ (B := exB60)
      (C := matFun 4 3 fun _ _ => 1) rfl rfl rfl,
    C60_matrix_hmatrix_product_partial exOps60_exact.real exHermF_fit exHermF_represents (exHermF_rightOK (ta := .N) (tb := .N) (Or.inr rfl)) _ _
      (A := matFun 3 4 fun i j => ⟨j, i⟩) (C := matFun 3 4 fun _ _ => 1) rfl rfl rfl⟩

/-- A rank 2 matrix. -/
def exL60 : LR GaussianInt := ⟨matFun 4 2 fun i j => ⟨i, j⟩, matFun 2 4 fun i j => ⟨j, i⟩⟩

example : (hmLr exOps60 .N .C 1 exHermF exL60 2 (matFun 4 4 fun _ _ => 1)).Is 4 4
      (prodE .N .C 1 (rel exHermFM 0 0) exL60.entry 4 2 (matFun 4 4 fun _ _ => 1).get) ∧
    (lrHm exOps60 .T .C 1 exL60 exHermF 2 (matFun 4 4 fun _ _ => 1)).Is 4 4
      (prodE .T .C 1 exL60.entry (rel exHermFM 0 0) 4 2 (matFun 4 4 fun _ _ => 1).get) :=
  ⟨C60_hmatrix_lrmat_product_partial exOps60_exact.real exHermF_fit exHermF_represents .N .C (Or.inl (by decide)) _ _ (B := exL60) rfl
      (C := matFun 4 4 fun _ _ => 1) (Or.inl (by decide)) rfl rfl rfl,
    C60_lrmat_hmatrix_product_partial exOps60_exact.real exHermF_fit exHermF_represents (exHermF_rightOK (ta := .T) (tb := .C) (Or.inl (by decide))) _ _
      (A := exL60) rfl (C := matFun 4 4 fun _ _ => 1) (Or.inl (by decide)) rfl rfl rfl⟩

/-- **C60 fails**: the transposed identity times the hermitian example is not the example. -/
theorem C60_hermitian_right_operand_wrong :
    (matHm exOps60 .T .N 1 (matFun 4 4 fun i j => if i = j then 1 else 0) exHermF 0 (matFun 4 4 fun _ _ => 0)).get 0 1 ≠ exHermFM 0 1 := by
  decide +kernel

end Htool
