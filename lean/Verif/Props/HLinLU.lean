import Verif.HLinPLU
import Verif.Props.Numbering

/-! # C37: LU factorization of a hierarchical matrix

Specification: `Rep .full ad M A` says that the H-matrix `A` contains the matrix `M`; `TriRep .L true .full ad L A'` and `TriRep .U false .full ad U A'` say
that `A'` contains, together, a block lower triangular matrix `L` (unit diagonal up to the row exchanges inside the dense diagonal blocks) and an upper
triangular matrix `U`. The diagonal pivots exist when the leading parts of `M` which end with a diagonal block are nonsingular (`FTree.Lead`). `GetrfOK`
and `TrsmOK` are the contracts of LAPACK and BLAS; compressions are exact (`Exact`). -/

namespace Htool
variable {G R : Type*}
open Finset

section claims
variable [CommRing R] [StarRing R] [DecidableEq R] {E : LinOps R} {ad : ClusterTree G → ClusterTree G → Prop} {M : ℕ → ℕ → R} {A : FTree G R}

/-- A square H-matrix whose diagonal blocks are not compressed and whose pivot blocks are nonsingular. -/
structure LUOperand (ad : ClusterTree G → ClusterTree G → Prop) (M : ℕ → ℕ → R) (A : FTree G R) : Prop where
  rep : Rep .full ad M A
  square : A.label.t = A.label.s
  top : A.label.t.Top
  diag : ∀ c, ¬ ad c c
  lead : A.Lead M

/-- **C37**: `lu_factorization` ends, every block it needs exists, and `L U = A`. -/
theorem C37_factorization (hEx : E.Exact) (hT : TrsmOK E) (hG : GetrfOK E) (hA : LUOperand ad M A) {f : ℕ} (hf : 2 * A.ht ≤ f) :
    ∃ A' L U, luH E f A = some A' ∧ A'.label.t = A.label.t ∧ A'.label.s = A.label.s ∧ A'.ht ≤ A.ht ∧
      TriRep .L true .full ad L A' ∧ TriRep .U false .full ad U A' ∧
      ∀ i ∈ Ico A.label.t.off A.label.t.fin, ∀ j ∈ Ico A.label.t.off A.label.t.fin, ∑ l ∈ Ico A.label.t.off A.label.t.fin, L i l * U l j = M i j := by
  obtain ⟨A', L, U, e1, e2, e3, e4, e5, e6⟩ := luH_spec hEx hT hG hA.diag f A M hf hA.rep hA.square hA.top hA.lead
  have sq : A'.label.t = A'.label.s := e2.trans (hA.square.trans e3.symm)
  exact ⟨A', L, U, e1, e2, e3, e4, ⟨by simp, Or.inl rfl, sq, Shape.imp e5 fun X _ hX => hX.2.1⟩, ⟨by simp, Or.inl rfl, sq, Shape.imp e5 fun X _ hX => hX.2.2⟩, e6⟩

/-- **C37**, solution in cluster numbering (`internal_lu_solve`): `op(A) Y = X` for every right-hand side, `op` being nothing, a transposition or an
adjunction. -/
theorem C37_solve_cluster_numbering (hEx : E.Exact) (hT : TrsmOK E) (hG : GetrfOK E) (hA : LUOperand ad M A) {f : ℕ} (hf : 2 * A.ht ≤ f) {n : ℕ}
    (hn : A.label.t.sz = n) :
    ∃ A', luH E f A = some A' ∧ ∀ (tr : Trans) (X : Mat R) (mu g : ℕ), A.ht ≤ g → X.nr = n → X.nc = mu →
      ∃ Y, luSolveH E g tr A' X = some Y ∧ Y.nr = n ∧ Y.nc = mu ∧ ∀ i < n, ∀ k < mu,
        ∑ l ∈ range n, opE tr (fun i l => M (A.label.t.off + i) (A.label.t.off + l)) i l * Y.get l k = X.get i k := by
  obtain ⟨A', L, U, e1, e2, e3, e4, e5, e6, e7⟩ := C37_factorization hEx hT hG hA hf
  refine ⟨A', e1, fun tr X mu g hg h1 h2 => ?_⟩
  rw [← e2] at e7 hn ⊢
  exact luSolveH_spec hT hEx.real tr (by omega) e5 e6 (by rw [e2]; exact hA.top) e7 hn h1 h2

/-- **C37**: factorization followed by `lu_solve` solves the system in user numbering. `K` is the matrix in user numbering, relative to the cluster, `perm` the
permutation of the cluster tree. -/
theorem C37_lu_solve (hEx : E.Exact) (hT : TrsmOK E) (hG : GetrfOK E) (hA : LUOperand ad M A) {f : ℕ} (hf : 2 * A.ht ≤ f) {n : ℕ} (hn : A.label.t.sz = n)
    {perm : List ℕ} (hp : LocalPerm perm A.label.t.off n) {K : ℕ → ℕ → R}
    (hK : ∀ i < n, ∀ j < n, M (A.label.t.off + i) (A.label.t.off + j) = K (userIdx perm A.label.t.off i) (userIdx perm A.label.t.off j)) :
    ∃ A', luH E f A = some A' ∧ ∀ (tr : Trans) (X : Mat R) (mu g : ℕ), A.ht ≤ g → X.nr = n → X.nc = mu →
      ∃ Y, luSolveUser E g tr perm perm A' X = some Y ∧ Y.nr = n ∧ Y.nc = mu ∧ ∀ i < n, ∀ k < mu, ∑ l ∈ range n, opE tr K i l * Y.get l k = X.get i k := by
  obtain ⟨A', L, U, e1, e2, e3, e4, e5, e6, e7⟩ := C37_factorization hEx hT hG hA hf
  refine ⟨A', e1, fun tr X mu g hg h1 h2 => ?_⟩
  have es : A'.label.s = A.label.t := e3.trans hA.square.symm
  rw [← e2] at e7
  obtain ⟨Z, z1, z2, z3, z4⟩ := luSolveH_spec hT hEx.real tr (by omega : A'.ht ≤ g) e5 e6 (by rw [e2]; exact hA.top) e7 (n := n) (by rw [e2]; exact hn)
    (X := permIn perm A.label.t.off n X) (mu := mu) h1 h2
  refine ⟨permOut perm A.label.t.off n Z X, ?_, h1, h2, fun u hu k hk => ?_⟩
  · unfold luSolveUser
    rw [es, e2, hn, z1]
    rfl
  · obtain ⟨i, hi, rfl⟩ := userIdx_surj hp hu
    have key := z4 i hi k hk
    rw [permIn_get h1 hi (by omega)] at key
    rw [← key, ← sum_userIdx hp]
    refine sum_congr rfl fun l hl => ?_
    have hl := mem_range.1 hl
    rw [permOut_get hp z2 h1 hl (by omega), e2]
    congr 1
    cases tr with
    | N => exact (hK i hi l hl).symm
    | T => exact (hK l hl i hi).symm
    | C => exact congrArg star (hK l hl i hi).symm

end claims

/-! ## The hypotheses can be met -/

/-- Exact operations exist over every field. -/
theorem exact_lu_ops_exist (K : Type*) [Field K] [StarRing K] (cplx : Bool) (h : cplx = false → RealType K) :
    ∃ E : LinOps K, E.cplx = cplx ∧ E.Exact ∧ TrsmOK E ∧ GetrfOK E := by
  obtain ⟨g, hg⟩ := getrf_exists (K := K)
  obtain ⟨E, e1, e2, e3, e4, -⟩ := exact_solve_ops_exist (R := K) cplx h g (fun _ D => D)
  exact ⟨E, e1, e2, e3, hg E e4⟩

/-- The matrix `min(i, j) + 1`: all its leading parts are nonsingular. -/
theorem min_nonsing (K : Type*) [Field K] (n : ℕ) : Nonsing (fun i j => ((min i j + 1 : ℕ) : K)) 0 n := by
  rw [nonsing_iff (Nat.zero_le _)]
  intro r
  -- second differences
  have part : ∀ (y : ℕ → K) (i : ℕ), i < n → ∑ l ∈ Ico 0 n, ((min i l + 1 : ℕ) : K) * (y l - y (l + 1)) = ∑ l ∈ range (i + 1), y l - (i + 1 : ℕ) * y n := by
    intro y i hi
    rw [Nat.Ico_zero_eq_range]
    clear r
    induction n with
    | zero => omega
    | succ n ih =>
      rw [sum_range_succ]
      by_cases h : i < n
      · rw [ih h, Nat.min_eq_left (by omega)]
        ring
      · have : i = n := by omega
        subst this
        rw [Nat.min_self]
        clear ih h hi
        have key : ∀ m ≤ i, ∑ l ∈ range m, ((min i l + 1 : ℕ) : K) * (y l - y (l + 1)) = ∑ l ∈ range m, y l - (m : ℕ) * y m := by
          intro m hm
          induction m with
          | zero => simp
          | succ m ih =>
            rw [sum_range_succ, sum_range_succ, ih (by omega), Nat.min_eq_right (by omega)]
            push_cast
            ring
        rw [key i (le_refl _), sum_range_succ]
        push_cast
        ring
  refine ⟨fun l => (if l < n then (if l = 0 then r 0 else r l - r (l - 1)) else 0) - (if l + 1 < n then r (l + 1) - r l else 0), fun i hi => ?_⟩
  have hi := (mem_Ico.1 hi).2
  have := part (fun l => if l < n then (if l = 0 then r 0 else r l - r (l - 1)) else 0) i hi
  have e : ∀ l ∈ Ico 0 n, ((min i l + 1 : ℕ) : K) * ((if l < n then (if l = 0 then r 0 else r l - r (l - 1)) else 0) - (if l + 1 < n then r (l + 1) - r l else 0)) =
      ((min i l + 1 : ℕ) : K) * ((fun l => if l < n then (if l = 0 then r 0 else r l - r (l - 1)) else 0) l -
        (fun l => if l < n then (if l = 0 then r 0 else r l - r (l - 1)) else 0) (l + 1)) := by
    intro l _
    simp
  rw [sum_congr rfl e, this]
  have e2 : ∀ m, m < n → ∑ l ∈ range (m + 1), (if l < n then (if l = 0 then r 0 else r l - r (l - 1)) else 0) = r m := by
    intro m hm
    induction m with
    | zero => simp [hm]
    | succ m ih =>
      rw [sum_range_succ, ih (by omega), if_pos hm, if_neg (by omega)]
      simp
  rw [e2 i hi]
  simp

/-- For the block tree of `exBuild` (12 points, two parts; blocks of different clusters are compressed when admissible) the hypotheses of C37 hold for
`min(i, j) + 1` over the rational numbers. -/
theorem exLU_operand : ∃ (E : LinOps ℚ) (A : FTree (List ℕ) ℚ) (perm : List ℕ), E.Exact ∧ TrsmOK E ∧ GetrfOK E ∧
    LUOperand (fun p q => p.iv ≠ q.iv) (fun i j => ((min i j + 1 : ℕ) : ℚ)) A ∧ A.isHier = true ∧ 3 ≤ A.ht ∧ A.label.t.sz = 12 ∧ A.label.t.off = 0 ∧
    LocalPerm perm A.label.t.off 12 := by
  obtain ⟨t, st, hr, hb⟩ := exBuild_built
  obtain ⟨E, -, hE, hE', hG⟩ := exact_lu_ops_exist ℚ true (by simp)
  have w := create_wf hb.strategies hb.hflog hb.hnc hb.harg hb.hpos hb.build hb.ranks
  have s := create_shape hb.strategies hb.hflog hb.hnc hb.harg hb.build
  have good : (exEnv t st none none .N .N).Good := ⟨w.1, w.2, s.2.2.2.2, w.1, w.2, s.2.2.2.2, rfl, rfl, rfl⟩
  have h1 : ∀ r ∈ exBuild, ∃ b ∈ buildBlockTree (exEnv r.1 r.2 none none .N .N) 100 r.1 r.1, 3 ≤ b.ht ∧ b.label.kind = .hier := by decide +kernel
  obtain ⟨b, hbb, hht, hk⟩ := h1 (t, st) hr
  have hbb : buildBlockTree (exEnv t st none none .N .N) 100 _ _ = some b := hbb
  have hm : (exEnv t st none none .N .N).mask = .full := rfl
  obtain ⟨A, a1, a2, a3, a4, a5, a6, -⟩ := rep_exists' good hbb (fun i j => ((min i j + 1 : ℕ) : ℚ)) (fun p q => p.iv ≠ q.iv)
  rw [hm] at a1
  have lp := localPerm_root hb.strategies hb.hflog hb.hnc hb.harg hb.build
  have o0 : A.label.t.off = 0 := by rw [a2]; exact lp.1
  have o1 : A.label.t.sz = 12 := by rw [a2]; exact lp.2.1
  refine ⟨E, A, st.perm, hE, hE', hG, ⟨a1, a2.trans a3.symm, by rw [a2]; exact hb.clOK.2, fun c h => h rfl, fun X _ _ => ?_⟩, a6 hk, by omega, o1, o0, ?_⟩
  · rw [o0]; exact min_nonsing ℚ _
  · rw [o0]
    have := lp.2.2
    rw [lp.1, lp.2.1] at this
    exact this

end Htool
