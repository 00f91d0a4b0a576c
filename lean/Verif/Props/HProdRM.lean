import Verif.HProdRM
import Verif.Props.HProd

/-! # Property C22: product of an H-matrix and a row-major matrix -/

namespace Htool
variable {R : Type*} [CommRing R] [StarRing R] [DecidableEq R]
open Finset

/-- **C22.** The product with a row-major matrix of `mu` columns (entry `(i,c)` at position `i * mu + c`) is the matrix product, column by
column, and writes nowhere else. -/
theorem C22_row_major_product {cplx : Bool} (hreal : cplx = false → RealType R) {σ : HSym} {A : HTree R} (hA : A.Fit cplx σ) {tr : Trans}
    (hsup : Supported R σ tr) (α β : R) (x y : Buf R) {mu c : ℕ} (hc : c < mu) (i : ℕ) :
    seqRM cplx tr α A x β y mu (i * mu + c) =
      if i < opRows tr A.label.tsz A.label.ssz then
        β * y (i * mu + c) + α * ∑ j ∈ range (opCols tr A.label.tsz A.label.ssz), opE tr A.mat i j * x (j * mu + c)
      else y (i * mu + c) := by
  have hmu : 0 < mu := by omega
  have hp := getLeavesH_perm A
  unfold seqRM
  rw [foldl_add (fun l o => leafStepRM cplx tr A.label mu x 1 l.label o)
    (fun l p => leafG tr A.label (colOf mu (p % mu) x) l (p / mu)) 1 _
    (fun l hl o => leafStepRM_eq hreal hA hsup (hp.1.mem_iff.1 hl) 1 hmu x o)]
  have e2 : (if A.label.symL ≠ .N then
      (getLeavesH A).2.foldl (fun o l => mirrorStepRM cplx tr A.label mu x 1 l.label o)
        (fun i => 0 + 1 * ((getLeavesH A).1.map (fun l => leafG tr A.label (colOf mu (i % mu) x) l (i / mu))).sum)
      else (fun i => 0 + 1 * ((getLeavesH A).1.map (fun l => leafG tr A.label (colOf mu (i % mu) x) l (i / mu))).sum)) =
      fun p => ∑ j ∈ range (A.label.inSize tr), opE tr A.mat (p / mu) j * colOf mu (p % mu) x j := by
    funext p
    rw [← total_eq tr A (colOf mu (p % mu) x) (p / mu)]
    split_ifs with hN
    · rw [foldl_add (fun l o => mirrorStepRM cplx tr A.label mu x 1 l.label o)
        (fun l p => mirrorG tr A.label (colOf mu (p % mu) x) l (p / mu)) 1 _
        (fun l hl o => mirrorStepRM_eq hreal hA hsup hN hl 1 hmu x o)]
      ring
    · simp
  rw [e2]
  unfold axpy
  rw [betaScale_eq]
  simp only [pos_lt hc, pos_mod hc, pos_div hc]
  by_cases hi : i < A.label.outSize tr
  · rw [if_pos hi, if_pos hi, if_pos (show i < opRows tr _ _ from hi)]; rfl
  · rw [if_neg hi, if_neg hi, if_neg (show ¬ i < opRows tr _ _ from hi)]

theorem ompRM_inv {T : ℕ} {cplx : Bool} (hreal : cplx = false → RealType R) {σ : HSym} {A : HTree R} (hA : A.Fit cplx σ) {tr : Trans}
    (hsup : Supported R σ tr) {α β : R} {x y : Buf R} {mu : ℕ} (hmu : 0 < mu) {s : OmpState T (HTree R) R}
    (h : OmpRMReach T cplx tr α A x β y mu s) :
    OmpInv (fun l p => leafG tr A.label (colOf mu (p % mu) x) l (p / mu))
      (fun l p => mirrorG tr A.label (colOf mu (p % mu) x) l (p / mu)) (getLeavesH A).1
      (if A.label.symL ≠ .N then (getLeavesH A).2 else [])
      (A.label.outSize tr * mu) α (betaScale β (A.label.outSize tr * mu) y) s := by
  refine ompInv_run ?_ ?_ (ompInv_init _ _ A _ α _) h
  · intro l hl o
    rw [leafStepRM_eq hreal hA hsup ((getLeavesH_perm A).1.mem_iff.1 hl) 1 hmu]
    simp
  · intro l hl o
    split_ifs at hl with hN
    · rw [mirrorStepRM_eq hreal hA hsup hN hl 1 hmu]; simp
    · simp at hl

/-- **C20 (matrix version).** The parallel row-major product ends, whatever the schedule, with the output of the sequential one. -/
theorem C20_parallel_row_major_product_is_sequential {T : ℕ} (hT : 0 < T) {cplx : Bool} (hreal : cplx = false → RealType R)
    {σ : HSym} {A : HTree R} (hA : A.Fit cplx σ) {tr : Trans} (hsup : Supported R σ tr) {α β : R} {x y z : Buf R} {mu : ℕ}
    (hmu : 0 < mu) (h : OmpRM T cplx tr α A x β y mu z) : z = seqRM cplx tr α A x β y mu := by
  obtain ⟨s, hr, hpc, rfl⟩ := h
  have inv := ompRM_inv hreal hA hsup hmu hr
  apply buf_ext_col hmu
  intro c hc
  funext i
  unfold colOf
  rw [C22_row_major_product hreal hA hsup α β x y hc, ompInv_final hT inv hpc]
  simp only [pos_mod hc, pos_div hc, pos_lt hc]
  rw [total_eq, betaScale_eq]
  simp only [pos_lt hc]
  unfold HNode.outSize HNode.inSize
  split_ifs <;> rfl

/-- **C22.** The row-major product agrees with the vector product on every column. -/
theorem C22_row_major_is_columnwise {cplx : Bool} (hreal : cplx = false → RealType R) {σ : HSym} {A : HTree R} (hA : A.Fit cplx σ) {tr : Trans}
    (hsup : Supported R σ tr) (α β : R) (x y : Buf R) {mu c : ℕ} (hc : c < mu) (i : ℕ) :
    seqRM cplx tr α A x β y mu (i * mu + c) =
      seqVec cplx tr α A (fun j => x (j * mu + c)) β (fun j => y (j * mu + c)) i := by
  rw [C22_row_major_product hreal hA hsup α β x y hc, C19_sequential_product hA hsup]

/-- The hermitian example with 3 columns. -/
example : (List.range 14).map (seqRM true .C (⟨2, 0⟩ : GaussianInt) exHerm (fun i => ⟨i, 1⟩) ⟨0, 1⟩ (fun _ => 1) 3) =
    (List.range 14).map (fun p => if p / 3 < 4 then ⟨0, 1⟩ * 1 +
      ⟨2, 0⟩ * ∑ j ∈ range 4, opE .C exHerm.mat (p / 3) j * (⟨(j * 3 + p % 3 : ℕ), 1⟩ : GaussianInt) else 1) := by
  decide +kernel

end Htool
