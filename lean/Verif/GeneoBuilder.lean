import Verif.Geneo
import Verif.LocalSolvers
import Verif.HOps
import Mathlib.Analysis.RCLike.Basic

/-! # The GenEO coarse space builder

Model of the class `GeneoCoarseSpaceDenseBuilder` (solvers/geneo/coarse_space_builder.hpp): the constructor, the factories, and the state left by
`build_coarse_space`. The output of the eigenvalue solvers of LAPACK is an argument; what LAPACK documents about it is stated by `GvSolves` and `GgevSolves` in the
properties. The selection of the eigenvectors is the one of `Verif/Geneo.lean`. -/

namespace Htool

section defs
variable {K F : Type*}

/-- The members of `GeneoCoarseSpaceDenseBuilder` (coarse_space_builder.hpp 19-26). -/
structure GBuilder (K F : Type*) where
  nIn : ℕ
  n : ℕ
  DAD : Mat K
  Bi : Mat K
  sym : HSym
  lower : Bool
  nu : ℕ
  thr : F

/-- The protected constructor (coarse_space_builder.hpp 27-37). The two loops copy the columns of `Ai`, which are `n` or `nIn` entries apart. -/
def GBuilder.create [Zero K] (nIn n : ℕ) (Ai Bi : Mat K) (sym : HSym) (lower : Bool) (nu : ℕ) (thr : F) : GBuilder K F :=
  let zero : Mat K := Mat.mk' n n 0
  let DAD : Mat K :=
    if Ai.nc = n then
      ⟨n, n, (List.range nIn).foldl (fun d i => Buf.at' (i * n) (copyN nIn (Ai.data.from' (i * n))) d) zero.data⟩
    else if Ai.nc = nIn then
      ⟨n, n, (List.range nIn).foldl (fun d i => Buf.at' (i * n) (copyN nIn (Ai.data.from' (i * nIn))) d) zero.data⟩
    else zero
  ⟨nIn, n, DAD, Bi, sym, lower, nu, thr⟩

/-- `GeneoWithNu` with a dense matrix (coarse_space_builder.hpp 40). -/
def GBuilder.withNu [Zero K] [Neg F] [One F] (nIn n : ℕ) (Ai Bi : Mat K) (sym : HSym) (lower : Bool) (nu : ℕ) : GBuilder K F :=
  .create nIn n Ai Bi sym lower nu (-1)

/-- `GeneoWithThreshold` with a dense matrix (coarse_space_builder.hpp 52). -/
def GBuilder.withThreshold [Zero K] (nIn n : ℕ) (Ai Bi : Mat K) (sym : HSym) (lower : Bool) (thr : F) : GBuilder K F :=
  .create nIn n Ai Bi sym lower 0 thr

/-- The dense matrix made from an H-matrix by `GeneoWithNu` and `GeneoWithThreshold` (coarse_space_builder.hpp 43-48, 55-60); `perm` is the permutation of its
clusters. -/
def geneoDense [CommRing K] [StarRing K] (nIn n : ℕ) (perm : List ℕ) (A : HTree K) : Mat K :=
  let temp : Mat K := Mat.mk' A.label.tsz A.label.ssz 0
  if A.label.tsz = n then { temp with data := copyToDenseUser perm perm A temp.data }
  else if A.label.tsz = nIn then { temp with data := copyToDense A temp.data }
  else temp

/-- `GeneoWithNu` with an H-matrix (coarse_space_builder.hpp 42-50). -/
def GBuilder.withNuH [CommRing K] [StarRing K] [Neg F] [One F] (nIn n : ℕ) (perm : List ℕ) (A : HTree K) (Bi : Mat K) (sym : HSym) (lower : Bool) (nu : ℕ) :
    GBuilder K F :=
  .create nIn n (geneoDense nIn n perm A) Bi sym lower nu (-1)

/-- `GeneoWithThreshold` with an H-matrix (coarse_space_builder.hpp 54-62). -/
def GBuilder.withThresholdH [CommRing K] [StarRing K] (nIn n : ℕ) (perm : List ℕ) (A : HTree K) (Bi : Mat K) (sym : HSym) (lower : Bool) (thr : F) :
    GBuilder K F :=
  .create nIn n (geneoDense nIn n perm A) Bi sym lower 0 thr

/-- What `gv` leaves in its arguments `a`, `b` and `w` (coarse_space_builder.hpp 92). -/
structure GvOut (K : Type*) where
  X : Mat K
  L : Mat K
  w : ℕ → ℝ

/-- What `ggev` leaves in its arguments `a`, `b`, `alphar`, `alphai`, `beta` and `vr` (coarse_space_builder.hpp 141). -/
structure GgevOut (K : Type*) where
  a : Mat K
  b : Mat K
  alphar : ℕ → K
  alphai : ℕ → K
  beta : ℕ → K
  vr : Buf K

variable [RCLike K]

/-- `build_coarse_space`, symmetric branch (coarse_space_builder.hpp 83-130), given the output of `gv` and the sorted indices: the matrix `Z`, and the state of the
builder afterwards (`gv` overwrites `m_DAiD` and `m_Bi`). `none` for a read out of bounds. The diagnostics of LAPACK (`info`) are ignored, as in the code. -/
noncomputable def GBuilder.gvSpace (b : GBuilder K ℝ) (o : GvOut K) (index : List ℕ) : Option ((ℕ × (ℕ → ℕ → K)) × GBuilder K ℝ) :=
  (geneoZ b.nIn (gvNevi (fun e => |o.w e|) b.nu b.thr index) (fun i j => o.X.get i j) index).map fun Z => (Z, { b with DAD := o.X, Bi := o.L })

/-- `build_coarse_space`, general branch (coarse_space_builder.hpp 132-181). `alphai` is not read. -/
noncomputable def GBuilder.ggevSpace (tiny : ℝ) (b : GBuilder K ℝ) (o : GgevOut K) (index : List ℕ) : Option ((ℕ × (ℕ → ℕ → K)) × GBuilder K ℝ) :=
  (geneoZ b.nIn (ggevNevi tiny (fun e => ‖o.alphar e‖) (fun e => ‖o.beta e‖) b.nu b.thr index) (fun i j => o.vr (j * b.n + i)) index).map fun Z =>
    (Z, { b with DAD := o.a, Bi := o.b })

/-- `build_coarse_space` (coarse_space_builder.hpp 64-181): the branch depends on the symmetry given to the builder. -/
noncomputable def GBuilder.build (tiny : ℝ) (b : GBuilder K ℝ) (ov : GvOut K) (oe : GgevOut K) (index : List ℕ) :
    Option ((ℕ × (ℕ → ℕ → K)) × GBuilder K ℝ) :=
  if b.sym = .S ∨ b.sym = .H then b.gvSpace ov index else b.ggevSpace tiny oe index

end defs

section lemmas
variable {K F : Type*} [Zero K]

/-- Copy of `m` columns of `len` entries, `lds` apart in the source and `ldd` apart in the destination. -/
theorem copyColumns_get {n nIn lds : ℕ} (h : nIn ≤ n) (src d : Buf K) (m i c : ℕ) (hi : i < n) :
    (List.range m).foldl (fun d j => Buf.at' (j * n) (copyN nIn (src.from' (j * lds))) d) d (i + c * n) =
      if i < nIn ∧ c < m then src (i + c * lds) else d (i + c * n) := by
  induction m with
  | zero => rw [if_neg (by omega)]; rfl
  | succ m ih =>
    rw [List.range_succ, List.foldl_append, List.foldl_cons, List.foldl_nil]
    set D := (List.range m).foldl (fun d j => Buf.at' (j * n) (copyN nIn (src.from' (j * lds))) d) d with hD
    unfold Buf.at' copyN Buf.from'
    beta_reduce
    rcases Nat.lt_trichotomy c m with hc | rfl | hc
    · have : (c + 1) * n ≤ m * n := Nat.mul_le_mul_right _ hc
      rw [Nat.succ_mul] at this
      rw [if_neg (show ¬ m * n ≤ i + c * n by omega), ih]
      exact if_congr (by omega) rfl rfl
    · rw [if_pos (by omega), Nat.add_sub_cancel]
      by_cases h1 : i < nIn
      · rw [if_pos h1, if_pos ⟨h1, by omega⟩, Nat.add_comm (c * lds)]
      · rw [if_neg h1, if_neg (by omega), show c * n + i = i + c * n by omega, ih, if_neg (by omega)]
    · have : (m + 1) * n ≤ c * n := Nat.mul_le_mul_right _ hc
      rw [Nat.succ_mul] at this
      rw [if_pos (by omega), if_neg (by omega), show m * n + (i + c * n - m * n) = i + c * n by omega, ih, if_neg (by omega), if_neg (by omega)]

/-- Entries of the matrix of the builder. -/
theorem GBuilder.create_get {nIn n : ℕ} (h : nIn ≤ n) (Ai Bi : Mat K) (sym : HSym) (lower : Bool) (nu : ℕ) (thr : F)
    (hs : (Ai.nr = n ∧ Ai.nc = n) ∨ (Ai.nr = nIn ∧ Ai.nc = nIn)) {i j : ℕ} (hi : i < n) (hj : j < n) :
    (create nIn n Ai Bi sym lower nu thr).DAD.get i j = if i < nIn ∧ j < nIn then Ai.get i j else 0 := by
  have z : (Mat.mk' n n (0 : K)).data (i + j * n) = 0 := by unfold Mat.mk'; simp
  rcases hs with ⟨h1, h2⟩ | ⟨h1, h2⟩
  · simp only [create, h2, if_true, Mat.get, h1]
    rw [copyColumns_get h _ _ _ _ _ hi, z]
  · by_cases h3 : Ai.nc = n
    · have h4 : nIn = n := by omega
      subst h4
      simp only [create, h2, if_true, Mat.get, h1]
      rw [copyColumns_get h _ _ _ _ _ hi, z]
    · have h3' : ¬ nIn = n := by omega
      simp only [create, h2, h3', if_true, if_false, Mat.get, h1]
      rw [copyColumns_get h _ _ _ _ _ hi, z]

end lemmas
end Htool
