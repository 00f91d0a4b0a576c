import Verif.HLinTri5
import Verif.Props.HLinProd
import Mathlib.LinearAlgebra.Matrix.Block
import Mathlib.LinearAlgebra.Matrix.NonsingularInverse

/-! # C36: triangular solves with a hierarchical matrix

Specification: `Rep m ad M A` says that the H-matrix `A` contains the matrix `M` on the entries which are stored; `tri u unit M` is its lower or upper
triangle (with a unit diagonal when `unit`), `opE tr` a transposition. `TrsmOK E` is the contract of BLAS `trsm` on the dense leaves. -/

namespace Htool
variable {G R : Type*}
open Finset

/-- No block went through `getrf`. -/
def FTree.NoPivots (A : FTree G R) : Prop := ∀ X ∈ A.pre, ∀ D piv, X.label.data = .dense D piv → piv = []

section spec
variable [CommRing R] {u : UploType} {unit : Bool} {m : Mask} {ad : ClusterTree G → ClusterTree G → Prop} {M : ℕ → ℕ → R} {A : FTree G R}

/-- An H-matrix whose diagonal blocks are not compressed holds the triangles of the matrix it contains. -/
theorem triRep_of_rep (hA : Rep m ad M A) (hu : u ≠ .N) (hm : MaskOK u m) (hsq : A.label.t = A.label.s) (had : ∀ c, ¬ ad c c) (hp : A.NoPivots)
    (hd : unit = false → ∀ i ∈ Ico A.label.t.off A.label.t.fin, IsUnit (M i i)) : TriRep u unit m ad (tri u unit M) A := by
  refine ⟨hu, hm, hsq, Shape.imp hA fun X hX hp' => ⟨fun hts => ⟨fun i j hi => ⟨fun hL hj => ?_, fun hU hj => ?_⟩, ?_⟩, fun hh => ?_⟩⟩
  · unfold tri
    rw [if_neg (by omega), if_neg]
    rintro (⟨-, h⟩ | ⟨h, -⟩)
    · omega
    · rw [hL] at h; cases h
  · unfold tri
    rw [if_neg (by omega), if_neg]
    rintro (⟨h, -⟩ | ⟨-, h⟩)
    · rw [hU] at h; cases h
    · omega
  · obtain ⟨-, h2⟩ := hp'
    have hok : ∀ i, m.ok i i := by intro i; cases m <;> simp [Mask.ok]
    have hin : ∀ {i j}, X.label.Has i j → A.label.Has i j := fun h => Shape.pre_has hA hX h
    have nop := hp X hX
    revert h2 nop
    cases hdat : X.label.data with
    | hier => exact fun _ _ => trivial
    | lowRank L => exact fun h _ => had X.label.t (by have := h.1; rw [← hts] at this; exact this)
    | dense D piv =>
      intro h nop
      have e : piv = [] := nop D piv rfl
      subst e
      rw [← hts] at h
      refine ⟨h.1, h.2.1, Or.inl rfl, fun hn i hi => ?_, fun i j hij => ?_⟩
      · have hh : X.label.Has (X.label.t.off + i) (X.label.t.off + i) := by
          unfold FNode.Has ClusterTree.fin; rw [← hts]; unfold ClusterTree.sz at *; omega
        have := h.2.2 _ _ hh (hok _)
        rw [Nat.add_sub_cancel_left] at this
        rw [this]
        have := hin hh
        exact hd hn _ (mem_Ico.2 this.1)
      · have e2 := h.2.2 i j hij
        have hb : (X.label.t.off ≤ i ∧ i < X.label.t.fin) ∧ X.label.t.off ≤ j ∧ j < X.label.t.fin := by
          have := hij; unfold FNode.Has at this; rw [← hts] at this; exact this
        unfold ptri
        rw [if_neg (by intro h; exact absurd h.2 (by simp [isPivoted]))]
        unfold tri
        by_cases h1 : i = j
        · subst h1
          rw [if_pos rfl, if_pos rfl, e2 (hok i)]
        · rw [if_neg h1, if_neg (show ¬ (i - X.label.t.off = j - X.label.t.off) by omega)]
          by_cases h3 : (u = .L ∧ j < i) ∨ (u = .U ∧ i < j)
          · rw [if_pos h3, if_pos (by rcases h3 with h3 | h3 <;> [left; right] <;> exact ⟨h3.1, by omega⟩), e2]
            rcases hm with rfl | ⟨rfl, hu'⟩ | ⟨rfl, hu'⟩
            · trivial
            · rcases h3 with h3 | h3
              · exact le_of_lt h3.2
              · rw [hu'] at h3; exact absurd h3.1 (by simp)
            · rcases h3 with h3 | h3
              · rw [hu'] at h3; exact absurd h3.1 (by simp)
              · exact le_of_lt h3.2
          · rw [if_neg h3, if_neg]
            rintro (h4 | h4)
            · exact h3 (Or.inl ⟨h4.1, by omega⟩)
            · exact h3 (Or.inr ⟨h4.1, by omega⟩)
  · obtain ⟨h1, h2⟩ := hp'
    have b := hA X hX
    have p1 := b.clT.sz_pos
    have p2 := b.clS.sz_pos
    have key : ∀ i j, X.label.Has i j → m.ok i j ∧ M i j = tri u unit M i j := by
      intro i j hij
      unfold FNode.Has at hij
      unfold tri
      rcases hh with ⟨hL, hh⟩ | ⟨hU, hh⟩
      · rw [if_neg (by omega), if_pos (Or.inl ⟨hL, by omega⟩)]
        refine ⟨?_, rfl⟩
        rcases hm with rfl | ⟨rfl, hu'⟩ | ⟨rfl, hu'⟩
        · trivial
        · show j ≤ i; omega
        · rw [hL] at hu'; cases hu'
      · rw [if_neg (by omega), if_pos (Or.inr ⟨hU, by omega⟩)]
        refine ⟨?_, rfl⟩
        rcases hm with rfl | ⟨rfl, hu'⟩ | ⟨rfl, hu'⟩
        · trivial
        · rw [hU] at hu'; cases hu'
        · show i ≤ j; omega
    refine ⟨Or.inl (h1.resolve_right ?_), ?_⟩
    · rintro ⟨-, h3, h4⟩
      rcases hh with ⟨-, hh⟩ | ⟨-, hh⟩ <;> omega
    · revert h2
      cases X.label.data with
      | dense D p => exact fun h => ⟨h.1, h.2.1, fun i j hi _ => (h.2.2 i j hi (key i j hi).1).trans (key i j hi).2⟩
      | lowRank L => exact fun h => ⟨h.1, h.2.1, h.2.2.1, h.2.2.2.1, fun i j hi _ => (h.2.2.2.2 i j hi (key i j hi).1).trans (key i j hi).2⟩
      | hier => exact fun h => h

theorem tri_rel (o i j : ℕ) : tri u unit (rel M o o) i j = tri u unit M (o + i) (o + j) := by
  unfold tri rel
  by_cases h : i = j
  · rw [if_pos h, if_pos (show o + i = o + j by omega)]
  · rw [if_neg h, if_neg (show ¬ (o + i = o + j) by omega)]
    exact if_congr (by rw [Nat.add_lt_add_iff_left, Nat.add_lt_add_iff_left]) rfl rfl

end spec

section claims
variable [CommRing R] [StarRing R] [DecidableEq R] {E : LinOps R} {u : UploType} {unit : Bool} {m : Mask}
  {ad adB : ClusterTree G → ClusterTree G → Prop} {M MB : ℕ → ℕ → R} {A B : FTree G R}

theorem opE_tri_rel (tr : Trans) (o i l : ℕ) : opE tr (tri u unit (rel M o o)) i l = opE tr (tri u unit M) (o + i) (o + l) := by
  cases tr <;> simp only [opE, tri_rel]

/-- What is asked of the triangular H-matrix: it contains `M` (at least the triangle used), its diagonal blocks are not compressed nor already factored,
and the diagonal can be inverted unless it is taken as the identity. -/
structure TriOperand (u : UploType) (unit : Bool) (m : Mask) (ad : ClusterTree G → ClusterTree G → Prop) (M : ℕ → ℕ → R) (A : FTree G R) : Prop where
  rep : Rep m ad M A
  up : u ≠ .N
  mask : MaskOK u m
  square : A.label.t = A.label.s
  top : A.label.t.Top
  diag : ∀ c, ¬ ad c c
  pivots : A.NoPivots
  inv : unit = false → ∀ i ∈ Ico A.label.t.off A.label.t.fin, IsUnit (M i i)

theorem TriOperand.triRep (h : TriOperand u unit m ad M A) : TriRep u unit m ad (tri u unit M) A :=
  triRep_of_rep h.rep h.up h.mask h.square h.diag h.pivots h.inv

/-- **C36**, dense right-hand side on the right of the triangular matrix: `op(T) X = alpha B`. -/
theorem C36_dense_left (hE : TrsmOK E) (hreal : E.cplx = false → RealType R) (tr : Trans) (hA : TriOperand u unit m ad M A) (α : R) {B : Mat R} {n mu : ℕ}
    (hn : A.label.t.sz = n) (h1 : B.nr = n) (h2 : B.nc = mu) {f : ℕ} (hf : A.ht ≤ f) :
    ∃ X, triHM E f .L u tr unit α A B = some X ∧ X.nr = n ∧ X.nc = mu ∧ ∀ i < n, ∀ k < mu,
      ∑ l ∈ range n, opE tr (tri u unit (rel M A.label.t.off A.label.t.off)) i l * X.get l k = α * B.get i k := by
  subst hn
  obtain ⟨X, e1, e2, e3, e4⟩ := triHM_spec hE hreal .L tr f hf hA.triRep hA.top α (B := B) (mu := mu) (by rw [if_pos rfl, h1, h2])
  refine ⟨X, e1, e2.trans h1, e3.trans h2, fun i hi k hk => ?_⟩
  rw [← show α * sv .L B.get i k = α * B.get i k from rfl, ← e4 i hi k hk]
  exact sum_congr rfl fun l _ => by rw [opE_tri_rel]; rfl

/-- **C36**, dense right-hand side on the left of the triangular matrix: `X op(T) = alpha B`. -/
theorem C36_dense_right (hE : TrsmOK E) (hreal : E.cplx = false → RealType R) (tr : Trans) (hA : TriOperand u unit m ad M A) (α : R) {B : Mat R} {n mu : ℕ}
    (hn : A.label.t.sz = n) (h1 : B.nr = mu) (h2 : B.nc = n) {f : ℕ} (hf : A.ht ≤ f) :
    ∃ X, triHM E f .R u tr unit α A B = some X ∧ X.nr = mu ∧ X.nc = n ∧ ∀ k < mu, ∀ j < n,
      ∑ l ∈ range n, X.get k l * opE tr (tri u unit (rel M A.label.t.off A.label.t.off)) l j = α * B.get k j := by
  subst hn
  obtain ⟨X, e1, e2, e3, e4⟩ := triHM_spec hE hreal .R tr f hf hA.triRep hA.top α (B := B) (mu := mu) (by rw [if_neg (by simp), h1, h2])
  refine ⟨X, e1, e2.trans h1, e3.trans h2, fun k hk i hi => ?_⟩
  rw [← show α * sv .R B.get i k = α * B.get k i from rfl, ← e4 i hi k hk]
  exact sum_congr rfl fun l _ => by rw [opE_tri_rel, mul_comm]; rfl

/-- **C36**, low-rank right-hand side, `op(T) X = alpha B`. -/
theorem C36_lowrank_left (hE : TrsmOK E) (hreal : E.cplx = false → RealType R) (tr : Trans) (hA : TriOperand u unit m ad M A) (α : R) {B : LR R} {n mu : ℕ}
    (hw : B.WF) (hn : A.label.t.sz = n) (h1 : B.nr = n) (h2 : B.nc = mu) {f : ℕ} (hf : A.ht ≤ f) :
    ∃ X, triHLr E f .L u tr unit α A B = some X ∧ X.WF ∧ X.nr = n ∧ X.nc = mu ∧ ∀ i < n, ∀ k < mu,
      ∑ l ∈ range n, opE tr (tri u unit (rel M A.label.t.off A.label.t.off)) i l * X.entry l k = α * B.entry i k := by
  subst hn
  obtain ⟨X, e1, e0, e2, e3, e4⟩ := triHLr_spec hE hreal .L tr f hf hA.triRep hA.top α (B := B) (mu := mu) hw (by rw [if_pos rfl, h1, h2])
  refine ⟨X, e1, e0, e2.trans h1, e3.trans h2, fun i hi k hk => ?_⟩
  rw [← show α * sv .L B.entry i k = α * B.entry i k from rfl, ← e4 i hi k hk]
  exact sum_congr rfl fun l _ => by rw [opE_tri_rel]; rfl

/-- **C36**, low-rank right-hand side, `X op(T) = alpha B`. -/
theorem C36_lowrank_right (hE : TrsmOK E) (hreal : E.cplx = false → RealType R) (tr : Trans) (hA : TriOperand u unit m ad M A) (α : R) {B : LR R} {n mu : ℕ}
    (hw : B.WF) (hn : A.label.t.sz = n) (h1 : B.nr = mu) (h2 : B.nc = n) {f : ℕ} (hf : A.ht ≤ f) :
    ∃ X, triHLr E f .R u tr unit α A B = some X ∧ X.WF ∧ X.nr = mu ∧ X.nc = n ∧ ∀ k < mu, ∀ j < n,
      ∑ l ∈ range n, X.entry k l * opE tr (tri u unit (rel M A.label.t.off A.label.t.off)) l j = α * B.entry k j := by
  subst hn
  obtain ⟨X, e1, e0, e2, e3, e4⟩ := triHLr_spec hE hreal .R tr f hf hA.triRep hA.top α (B := B) (mu := mu) hw (by rw [if_neg (by simp), h1, h2])
  refine ⟨X, e1, e0, e2.trans h1, e3.trans h2, fun k hk i hi => ?_⟩
  rw [← show α * sv .R B.entry i k = α * B.entry k i from rfl, ← e4 i hi k hk]
  exact sum_congr rfl fun l _ => by rw [opE_tri_rel, mul_comm]; rfl

/-- **C36**, hierarchical right-hand side with any block structure, `op(T) X = alpha B` (cluster numbering); the compressions are exact. `B` is divided by
the partition of the processors only if `A` is. -/
theorem C36_hmatrix_left (hEx : E.Exact) (hE : TrsmOK E) (tr : Trans) (hA : TriOperand u unit m ad M A) (α : R) (hB : Rep .full adB MB B)
    (ht : B.label.t = A.label.t) (htop : B.label.s.Top) (hr : A.isHier = true ∨ 0 ≤ B.label.s.rk) {f : ℕ} (hf : A.ht + B.ht ≤ f) :
    ∃ B' X, triHH E f .L u tr unit α A B = some B' ∧ B'.label.t = B.label.t ∧ B'.label.s = B.label.s ∧ Rep .full adB X B' ∧
      ∀ i ∈ Ico B.label.t.off B.label.t.fin, ∀ k ∈ Ico B.label.s.off B.label.s.fin,
        ∑ l ∈ Ico B.label.t.off B.label.t.fin, opE tr (tri u unit M) i l * X l k = α * MB i k := by
  obtain ⟨B', X, e1, e2, e3, e4, -, -, e5⟩ := triHH_spec hEx hE .L tr f A B MB α hf hA.triRep hB hA.top htop ht hr
  refine ⟨B', X, e1, e3, e4, e2, ?_⟩
  rw [ht]
  exact e5

/-- **C36**, hierarchical right-hand side with any block structure, `X op(T) = alpha B`. -/
theorem C36_hmatrix_right (hEx : E.Exact) (hE : TrsmOK E) (tr : Trans) (hA : TriOperand u unit m ad M A) (α : R) (hB : Rep .full adB MB B)
    (ht : B.label.s = A.label.t) (htop : B.label.t.Top) (hr : A.isHier = true ∨ 0 ≤ B.label.t.rk) {f : ℕ} (hf : A.ht + B.ht ≤ f) :
    ∃ B' X, triHH E f .R u tr unit α A B = some B' ∧ B'.label.t = B.label.t ∧ B'.label.s = B.label.s ∧ Rep .full adB X B' ∧
      ∀ k ∈ Ico B.label.t.off B.label.t.fin, ∀ j ∈ Ico B.label.s.off B.label.s.fin,
        ∑ l ∈ Ico B.label.s.off B.label.s.fin, X k l * opE tr (tri u unit M) l j = α * MB k j := by
  obtain ⟨B', X, e1, e2, e3, e4, -, -, e5⟩ := triHH_spec hEx hE .R tr f A B MB α hf hA.triRep hB hA.top htop ht hr
  refine ⟨B', X, e1, e3, e4, e2, fun k hk i hi => ?_⟩
  rw [ht] at hi ⊢
  rw [← show α * sv .R MB i k = α * MB k i from rfl, ← e5 i hi k hk]
  exact sum_congr rfl fun l _ => by rw [mul_comm]; rfl

end claims

/-! ## The hypotheses can be met -/

section exist
variable [CommRing R] [StarRing R]

/-- A triangular system with an invertible diagonal has a solution. -/
theorem tri_solvable (side : Side) (u : UploType) (tr : Trans) (unit : Bool) (D : ℕ → ℕ → R) (n : ℕ) (hd : unit = false → ∀ i < n, IsUnit (D i i))
    (b : ℕ → R) : ∃ x : ℕ → R, ∀ i < n, ∑ l ∈ range n, tv side tr (tri u unit D) i l * x l = b i := by
  let N : Matrix (Fin n) (Fin n) R := fun i l => tv side tr (tri u unit D) i l
  have tz : ∀ i l : ℕ, i ≠ l → (¬ (u = .L ∧ l < i) ∧ ¬ (u = .U ∧ i < l)) → tri u unit D i l = 0 := by
    intro i l h h2
    unfold tri
    rw [if_neg h, if_neg (by tauto)]
  have sz : ∀ i l : ℕ, (if actsOnRows side tr then tri u unit D i l else tri u unit D l i) = 0 → tv side tr (tri u unit D) i l = 0 := by
    intro i l h
    rw [tv_eq, h]
    by_cases e : tr = .C <;> simp [e]
  have dU : ∀ i < n, IsUnit (tri u unit D i i) := by
    intro i hi
    unfold tri
    rw [if_pos rfl]
    cases hu : unit with
    | true => simp
    | false => simpa using hd hu i hi
  have dd : ∀ i : Fin n, IsUnit (N i i) := by
    intro i
    show IsUnit (tv side tr (tri u unit D) i i)
    rw [tv_eq, ite_self]
    by_cases e : tr = .C
    · rw [if_pos e]; exact (dU i i.2).star
    · rw [if_neg e]; exact dU i i.2
  have det : IsUnit N.det := by
    by_cases hcase : (actsOnRows side tr = true ↔ u = .L)
    · rw [Matrix.det_of_lowerTriangular]
      · exact IsUnit.prod_univ_iff.2 dd
      · intro i j hij
        have hij : i < j := hij
        apply sz
        by_cases ha : actsOnRows side tr = true
        · rw [if_pos ha]
          exact tz _ _ (by have : (i : ℕ) < j := hij; omega) ⟨by rintro ⟨-, h⟩; have : (i : ℕ) < j := hij; omega, by rintro ⟨h, -⟩; rw [hcase.1 ha] at h; cases h⟩
        · rw [if_neg ha]
          exact tz _ _ (by have : (i : ℕ) < j := hij; omega) ⟨by rintro ⟨h, -⟩; exact ha (hcase.2 h), by rintro ⟨-, h⟩; have : (i : ℕ) < j := hij; omega⟩
    · rw [Matrix.det_of_upperTriangular]
      · exact IsUnit.prod_univ_iff.2 dd
      · intro i j hij
        have hij : (j : ℕ) < i := hij
        apply sz
        by_cases ha : actsOnRows side tr = true
        · rw [if_pos ha]
          exact tz _ _ (by omega) ⟨by rintro ⟨h, -⟩; exact hcase ⟨fun _ => h, fun _ => ha⟩, by rintro ⟨-, h⟩; omega⟩
        · rw [if_neg ha]
          refine tz _ _ (by omega) ⟨by rintro ⟨-, h⟩; omega, ?_⟩
          rintro ⟨h, -⟩
          exact hcase ⟨fun h' => absurd h' ha, fun h' => by rw [h] at h'; cases h'⟩
  let x : Fin n → R := (N⁻¹).mulVec (fun i => b i)
  have hx : N.mulVec x = (fun i : Fin n => b i) := by
    show N.mulVec ((N⁻¹).mulVec _) = _
    rw [Matrix.mulVec_mulVec, Matrix.mul_nonsing_inv N det, Matrix.one_mulVec]
  refine ⟨fun l => if h : l < n then x ⟨l, h⟩ else 0, fun i hi => ?_⟩
  have := congrFun hx ⟨i, hi⟩
  rw [sum_range]
  rw [← this]
  exact sum_congr rfl fun l _ => congrArg (tv side tr (tri u unit D) i l * ·) (dif_pos l.2)

/-- An exact `trsm` exists. -/
theorem trsm_exists (side : Side) (u : UploType) (tr : Trans) (unit : Bool) (α : R) (A B : Mat R) : ∃ X : Mat R, ∀ n m : ℕ, A.nr = n → A.nc = n →
    (B.nr, B.nc) = (if side = .L then (n, m) else (m, n)) → (unit = false → ∀ i < n, IsUnit (A.get i i)) →
    X.nr = B.nr ∧ X.nc = B.nc ∧
    ∀ i < n, ∀ k < m, ∑ l ∈ range n, tv side tr (tri u unit A.get) i l * sv side X.get l k = α * sv side B.get i k := by
  classical
  by_cases hd : unit = false → ∀ i < A.nr, IsUnit (A.get i i)
  · have ex : ∀ k : ℕ, ∃ x : ℕ → R, ∀ i < A.nr, ∑ l ∈ range A.nr, tv side tr (tri u unit A.get) i l * x l = α * sv side B.get i k :=
      fun k => tri_solvable side u tr unit A.get A.nr hd (fun i => α * sv side B.get i k)
    choose x hx using ex
    refine ⟨matFun B.nr B.nc (sv side fun l k => x k l), fun n m h1 h2 h3 _ => ⟨rfl, rfl, fun i hi k hk => ?_⟩⟩
    subst h1
    rw [← hx k i hi]
    refine sum_congr rfl fun l hl => ?_
    have hl := mem_range.1 hl
    congr 1
    cases side with
    | L =>
      rw [if_pos rfl] at h3
      have e : B.nr = A.nr := (Prod.mk.inj h3).1
      show (matFun B.nr B.nc _).get l k = _
      rw [matFun_get _ _ _ (by omega)]; rfl
    | R =>
      rw [if_neg (by simp)] at h3
      have e : B.nr = m := (Prod.mk.inj h3).1
      show (matFun B.nr B.nc _).get k l = _
      rw [matFun_get _ _ _ (by omega)]; rfl
  · exact ⟨B, fun n m h1 _ _ h4 => absurd (by rw [h1]; exact h4) hd⟩

/-- Exact compressions and an exact `trsm` exist together, with any factorizations of the dense blocks. -/
theorem exact_solve_ops_exist (cplx : Bool) (h : cplx = false → RealType R) (getrf : Mat R → Mat R × List ℕ) (potrf : UploType → Mat R → Mat R) :
    ∃ E : LinOps R, E.cplx = cplx ∧ E.Exact ∧ TrsmOK E ∧ E.getrf = getrf ∧ E.potrf = potrf := by
  have ex := fun side u tr unit α A B => trsm_exists (R := R) side u tr unit α A B
  choose X hX using ex
  exact ⟨⟨cplx, id, fun D _ => fullLR D, getrf, potrf, X⟩, rfl, ⟨h, fun _ _ _ _ h => h, fun D _ => fullLR_is D⟩,
    fun side u tr unit α A B n m _ h1 h2 h3 h4 => hX side u tr unit α A B n m h1 h2 h3 h4, rfl, rfl⟩

omit [StarRing R] in
open Classical in
/-- Every block tree built by the library can contain every matrix; the admissible leaves allowed by `ad` are compressed. -/
theorem rep_exists' {E : BEnv G} (h : E.Good) {fuel : ℕ} {b : BTree G} (hb : buildBlockTree E fuel E.tct.root E.sct.root = some b) (M : ℕ → ℕ → R)
    (ad : ClusterTree G → ClusterTree G → Prop) :
    ∃ F : FTree G R, Rep E.mask ad M F ∧ F.label.t = E.tct ∧ F.label.s = E.sct ∧ Tree.ht F = b.ht ∧ F.NoPivots ∧
      (b.label.kind = .hier → F.isHier = true) ∧
      F = b.map (fun n => ⟨⟨n.t, E.tct.parts⟩, ⟨n.s, E.sct.parts⟩, .N, .N, .N, .N, match n.kind with
        | .dense => .dense (matFun n.t.sz n.s.sz (fun i j => M (n.t.off + i) (n.s.off + j))) []
        | .adm => if ad ⟨n.t, E.tct.parts⟩ ⟨n.s, E.sct.parts⟩ then .lowRank (fullLR (matFun n.t.sz n.s.sz (fun i j => M (n.t.off + i) (n.s.off + j))))
            else .dense (matFun n.t.sz n.s.sz (fun i j => M (n.t.off + i) (n.s.off + j))) []
        | .hier => .hier⟩) := by
  set g : BNode G → FNode G R := fun n => ⟨⟨n.t, E.tct.parts⟩, ⟨n.s, E.sct.parts⟩, .N, .N, .N, .N, match n.kind with
        | .dense => .dense (matFun n.t.sz n.s.sz (fun i j => M (n.t.off + i) (n.s.off + j))) []
        | .adm => if ad ⟨n.t, E.tct.parts⟩ ⟨n.s, E.sct.parts⟩ then .lowRank (fullLR (matFun n.t.sz n.s.sz (fun i j => M (n.t.off + i) (n.s.off + j))))
            else .dense (matFun n.t.sz n.s.sz (fun i j => M (n.t.off + i) (n.s.off + j))) []
        | .hier => .hier⟩ with hg
  have get : ∀ (n : BNode G) (i j : ℕ), (g n).Has i j → (matFun n.t.sz n.s.sz (fun i j => M (n.t.off + i) (n.s.off + j))).get (i - n.t.off) (j - n.s.off) =
      M i j := by
    intro n i j hi
    have hi' : (n.t.off ≤ i ∧ i < n.t.off + n.t.sz) ∧ n.s.off ≤ j ∧ j < n.s.off + n.s.sz := hi
    rw [matFun_get _ _ _ (by omega)]
    congr 1 <;> omega
  have fl : ∀ n : BNode G, Fills E (RepP E.mask ad M) n (g n) := by
    intro n
    refine ⟨rfl, rfl, ?_, Or.inl ⟨rfl, rfl⟩, ?_⟩
    · cases hk : n.kind <;> simp [hg, hk]
      by_cases ha : ad ⟨n.t, E.tct.parts⟩ ⟨n.s, E.sct.parts⟩ <;> simp [ha]
    · cases hk : n.kind with
      | hier => simp [hg, hk]
      | dense =>
        simp only [hg, hk]
        exact ⟨rfl, rfl, fun i j hi _ => get n i j hi⟩
      | adm =>
        simp only [hg, hk]
        by_cases ha : ad ⟨n.t, E.tct.parts⟩ ⟨n.s, E.sct.parts⟩
        · simp only [ha, if_true]
          have L := fullLR_is (matFun n.t.sz n.s.sz (fun i j => M (n.t.off + i) (n.s.off + j)))
          refine ⟨trivial, L.1, L.2.1, L.2.2.1, fun i j hi _ => ?_⟩
          have hi' : (n.t.off ≤ i ∧ i < n.t.off + n.t.sz) ∧ n.s.off ≤ j ∧ j < n.s.off + n.s.sz := hi
          refine (L.2.2.2 _ (show i - n.t.off < n.t.sz by omega) _ (show j - n.s.off < n.s.sz by omega)).trans (get n i j hi)
        · simp only [ha, if_false]
          exact ⟨rfl, rfl, fun i j hi _ => get n i j hi⟩
  have hrel : Tree.Rel (Fills E (RepP E.mask ad M)) b (b.map g) :=
    Tree.Rel.mono (fun a c hc => by rw [hc]; exact fl a) (Tree.Rel_map g b)
  obtain ⟨s1, s2, s3⟩ := shape_of_build h fuel (Tree.mem_pre_self _) (Tree.mem_pre_self _) hb hrel
  refine ⟨b.map g, s1, s2, s3, ht_map g b, ?_, fun hk => ?_, rfl⟩
  · intro X hX D piv hd
    rw [pre_map, List.mem_map] at hX
    obtain ⟨Y, -, rfl⟩ := hX
    rw [label_map] at hd
    revert hd
    cases hk : Y.label.kind with
    | hier => simp [hg, hk]
    | dense => simp only [hg, hk]; intro hd; cases hd; rfl
    | adm =>
      simp only [hg, hk]
      by_cases ha : ad ⟨Y.label.t, E.tct.parts⟩ ⟨Y.label.s, E.sct.parts⟩
      · simp [ha]
      · simp only [ha, if_false]; intro hd; cases hd; rfl
  · unfold FTree.isHier
    rw [label_map]
    simp only [hg, hk]

end exist

/-- For the block tree of `exBuild` (12 points, two parts; blocks of different clusters are compressed when admissible) the hypotheses of C36 hold for every
matrix with diagonal 1. -/
example (M MB : ℕ → ℕ → ℤ) (hM : ∀ i, M i i = 1) : ∃ (E : LinOps ℤ) (A B : FTree (List ℕ) ℤ), E.Exact ∧ TrsmOK E ∧
    TriOperand .U false .full (fun p q => p.iv ≠ q.iv) M A ∧ Rep .full (fun _ _ => True) MB B ∧ B.label.t = A.label.t ∧ B.label.s.Top ∧
    A.isHier = true ∧ 5 ≤ A.ht + B.ht := by
  obtain ⟨t, st, hr, hb⟩ := exBuild_built
  obtain ⟨E, -, hE, hE', -⟩ := exact_solve_ops_exist (R := ℤ) true (by simp) (fun D => (D, [])) (fun _ D => D)
  have w := create_wf hb.strategies hb.hflog hb.hnc hb.harg hb.hpos hb.build hb.ranks
  have s := create_shape hb.strategies hb.hflog hb.hnc hb.harg hb.build
  have good : (exEnv t st none none .N .N).Good := ⟨w.1, w.2, s.2.2.2.2, w.1, w.2, s.2.2.2.2, rfl, rfl, rfl⟩
  have h1 : ∀ r ∈ exBuild, ∃ b ∈ buildBlockTree (exEnv r.1 r.2 none none .N .N) 100 r.1 r.1, 3 ≤ b.ht ∧ b.label.kind = .hier := by decide +kernel
  obtain ⟨b, hbb, hht, hk⟩ := h1 (t, st) hr
  have hbb : buildBlockTree (exEnv t st none none .N .N) 100 _ _ = some b := hbb
  have hm : (exEnv t st none none .N .N).mask = .full := rfl
  obtain ⟨A, a1, a2, a3, a4, a5, a6, -⟩ := rep_exists' good hbb M (fun p q => p.iv ≠ q.iv)
  obtain ⟨B, b1, b2, b3, b4, -⟩ := rep_exists' good hbb MB (fun _ _ => True)
  rw [hm] at a1 b1
  refine ⟨E, A, B, hE, hE', ⟨a1, by simp, Or.inl rfl, a2.trans a3.symm, by rw [a2]; exact hb.clOK.2, fun c h => h rfl, a5, fun _ i _ => by rw [hM]; exact isUnit_one⟩,
    b1, b2.trans a2.symm, by rw [b3]; exact hb.clOK.2, a6 hk, by omega⟩

end Htool
