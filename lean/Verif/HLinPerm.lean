import Verif.HLinLU3

/-! # Solving with factors, and the numberings of the right-hand side -/

namespace Htool
variable {G R : Type*}
open Finset

/-- A loop over columns which fills each of them. -/
theorem colLoopAt {size : ℕ} (g : ℕ → Buf R → Buf R) (v : ℕ → ℕ → R) (h1 : ∀ i d k, k < size → g i d k = v i k) (h2 : ∀ i d k, size ≤ k → g i d k = d k)
    (n : ℕ) (d : Buf R) :
    (∀ i < n, ∀ k < size, (List.range n).foldl (fun d i => Buf.at' (size * i) (g i) d) d (size * i + k) = v i k) ∧
    ∀ q, size * n ≤ q → (List.range n).foldl (fun d i => Buf.at' (size * i) (g i) d) d q = d q := by
  induction n with
  | zero => exact ⟨fun i hi => absurd hi (Nat.not_lt_zero i), fun q _ => rfl⟩
  | succ n ih =>
    rw [List.range_succ, List.foldl_append, List.foldl_cons, List.foldl_nil]
    set D := (List.range n).foldl (fun d i => Buf.at' (size * i) (g i) d) d with hD
    have e : size * (n + 1) = size * n + size := Nat.mul_succ _ _
    refine ⟨fun i hi k hk => ?_, fun q hq => ?_⟩
    · by_cases hin : i < n
      · have : size * (i + 1) ≤ size * n := Nat.mul_le_mul_left _ hin
        rw [Nat.mul_succ] at this
        exact (if_neg (by omega)).trans (ih.1 i hin k hk)
      · have : i = n := by omega
        subst this
        refine (if_pos (by omega)).trans ?_
        rw [Nat.add_sub_cancel_left]
        exact h1 i _ k hk
    · refine (if_pos (by omega)).trans ?_
      rw [h2 n _ _ (by omega)]
      show D (size * n + (q - size * n)) = d q
      rw [show size * n + (q - size * n) = q by omega]
      exact ih.2 q (by omega)

/-- The copy into cluster numbering. -/
theorem permIn_get [CommRing R] {perm : List ℕ} {off size : ℕ} {X : Mat R} (hX : X.nr = size) {i k : ℕ} (hi : i < size) (hk : k < X.nc) :
    (permIn perm off size X).get i k = X.get (userIdx perm off i) k := by
  have key := (colLoopAt (size := size) (fun c => userToCluster perm off size (X.data.from' (size * c)))
    (fun c i => X.data (size * c + userIdx perm off i)) (fun c d i hi => (userToCluster_spec perm off size _ d).1 i hi)
    (fun c d i hi => (userToCluster_spec perm off size _ d).2 i hi) X.nc (Mat.mk' X.nr X.nc (0 : R)).data).1 k hk i hi
  show (permIn perm off size X).data (i + k * X.nr) = X.data (userIdx perm off i + k * X.nr)
  rw [hX, Nat.add_comm, Nat.mul_comm, Nat.add_comm (userIdx perm off i)]
  exact key

/-- The copy into user numbering. -/
theorem permOut_get {perm : List ℕ} {off size : ℕ} (hp : LocalPerm perm off size) {P X : Mat R} (hP : P.nr = size) (hX : X.nr = size) {i k : ℕ} (hi : i < size)
    (hk : k < X.nc) : (permOut perm off size P X).get (userIdx perm off i) k = P.get i k := by
  have hs := fun j hj => userIdx_surj hp (k := j) hj
  have hu : ∀ i < size, userIdx perm off i < size := fun i hi => (userIdx_eq hp hi).2.2.2
  have ex : ∃ r : ℕ → ℕ, ∀ j < size, r j < size ∧ userIdx perm off (r j) = j := by
    classical
    refine ⟨fun j => if h : j < size then (hs j h).choose else 0, fun j hj => ?_⟩
    simp only [dif_pos hj]
    exact (hs j hj).choose_spec
  obtain ⟨r, hr⟩ := ex
  have key := (colLoopAt (size := size) (fun c => clusterToUser perm off size (P.data.from' (size * c)))
    (fun c j => P.data (size * c + r j)) (fun c d j hj => by
      have := (clusterToUser_spec hp (P.data.from' (size * c)) d).1 (r j) (hr j hj).1
      rw [(hr j hj).2] at this
      exact this)
    (fun c d i hi => (clusterToUser_spec hp _ d).2 i hi) X.nc X.data).1 k hk (userIdx perm off i) (hu i hi)
  show (permOut perm off size P X).data (userIdx perm off i + k * X.nr) = P.data (i + k * P.nr)
  rw [hX, hP, Nat.add_comm, Nat.mul_comm, Nat.add_comm i]
  refine key.trans ?_
  rw [userIdx_inj hp (hr _ (hu i hi)).1 hi (hr _ (hu i hi)).2]

section solve
variable [CommRing R]

/-- Two solves, one after the other. -/
theorem two_solves {n : ℕ} {M F H : ℕ → ℕ → R} {y z x : ℕ → R} (hM : ∀ i < n, ∀ j < n, ∑ l ∈ range n, F i l * H l j = M i j)
    (hz : ∀ i < n, ∑ l ∈ range n, F i l * z l = x i) (hy : ∀ i < n, ∑ l ∈ range n, H i l * y l = z i) : ∀ i < n, ∑ l ∈ range n, M i l * y l = x i := by
  intro i hi
  rw [← hz i hi, sum_congr rfl (fun l hl => by rw [← hM i hi l (mem_range.1 hl)] : ∀ l ∈ range n, M i l * y l = (∑ m ∈ range n, F i m * H m l) * y l)]
  rw [sum_congr rfl (fun l hl => by rw [← hy l (mem_range.1 hl)] : ∀ l ∈ range n, F i l * z l = F i l * ∑ m ∈ range n, H l m * y m)]
  simp only [sum_mul, mul_sum]
  rw [sum_comm]
  exact sum_congr rfl fun _ _ => sum_congr rfl fun _ _ => by ring

variable [StarRing R] [DecidableEq R] {E : LinOps R} {ad : ClusterTree G → ClusterTree G → Prop}

omit [DecidableEq R] in
/-- Transposition of a product. -/
theorem opE_prod {n : ℕ} {M F H : ℕ → ℕ → R} (tr : Trans) (htr : tr ≠ .N) (hM : ∀ i < n, ∀ j < n, ∑ l ∈ range n, F i l * H l j = M i j) :
    ∀ i < n, ∀ j < n, ∑ l ∈ range n, opE tr H i l * opE tr F l j = opE tr M i j := by
  intro i hi j hj
  cases tr with
  | N => exact absurd rfl htr
  | T => exact (sum_congr rfl fun l _ => mul_comm _ _).trans (hM j hj i hi)
  | C =>
    show ∑ l ∈ range n, star (H l i) * star (F j l) = star (M j i)
    rw [← hM j hj i hi, star_sum]
    exact sum_congr rfl fun l _ => by rw [star_mul']; ring

/-- `internal_lu_solve` with the two factors. -/
theorem luSolveH_spec (hT : TrsmOK E) (hreal : E.cplx = false → RealType R) (tr : Trans) {f : ℕ} {A : FTree G R} (hf : A.ht ≤ f) {M L U : ℕ → ℕ → R}
    (hL : TriRep .L true .full ad L A) (hU : TriRep .U false .full ad U A) (ht : A.label.t.Top)
    (hM : ∀ i ∈ Ico A.label.t.off A.label.t.fin, ∀ j ∈ Ico A.label.t.off A.label.t.fin, ∑ l ∈ Ico A.label.t.off A.label.t.fin, L i l * U l j = M i j)
    {X : Mat R} {n mu : ℕ} (hn : A.label.t.sz = n) (h1 : X.nr = n) (h2 : X.nc = mu) :
    ∃ Y, luSolveH E f tr A X = some Y ∧ Y.nr = n ∧ Y.nc = mu ∧ ∀ i < n, ∀ k < mu,
      ∑ l ∈ range n, opE tr (rel M A.label.t.off A.label.t.off) i l * Y.get l k = X.get i k := by
  subst hn
  have hM' : ∀ i < A.label.t.sz, ∀ j < A.label.t.sz, ∑ l ∈ range A.label.t.sz, rel L A.label.t.off A.label.t.off i l * rel U A.label.t.off A.label.t.off l j =
      rel M A.label.t.off A.label.t.off i j := by
    intro i hi j hj
    have := hM (A.label.t.off + i) (mem_Ico.2 (by unfold ClusterTree.fin; omega)) (A.label.t.off + j) (mem_Ico.2 (by unfold ClusterTree.fin; omega))
    rw [sum_Ico_eq_sum_range, show A.label.t.fin - A.label.t.off = A.label.t.sz by unfold ClusterTree.fin; omega] at this
    exact this
  have orel : ∀ (tr : Trans) (T : ℕ → ℕ → R) i l, tv .L tr T (A.label.t.off + i) (A.label.t.off + l) = opE tr (rel T A.label.t.off A.label.t.off) i l := by
    intro tr T i l; cases tr <;> rfl
  unfold luSolveH
  by_cases e : tr = .N
  · subst e
    rw [if_pos rfl]
    obtain ⟨Z, z1, z2, z3, z4⟩ := triHM_spec hT hreal .L .N f hf hL ht 1 (B := X) (mu := mu) (by rw [if_pos rfl, h1, h2])
    obtain ⟨Y, y1, y2, y3, y4⟩ := triHM_spec hT hreal .L .N f hf hU ht 1 (B := Z) (mu := mu) (by rw [if_pos rfl, z2, z3, h1, h2])
    refine ⟨Y, by rw [z1]; exact y1, y2.trans (z2.trans h1), y3.trans (z3.trans h2), fun i hi k hk => ?_⟩
    refine two_solves (M := rel M A.label.t.off A.label.t.off) (F := rel L A.label.t.off A.label.t.off) (H := rel U A.label.t.off A.label.t.off) (z := fun l => Z.get l k)
      (y := fun l => Y.get l k) (x := fun l => X.get l k) hM' (fun i hi => ?_) (fun i hi => ?_) i hi
    · have := z4 i hi k hk
      rw [one_mul] at this
      exact this
    · have := y4 i hi k hk
      rw [one_mul] at this
      exact this
  · rw [if_neg e]
    obtain ⟨Z, z1, z2, z3, z4⟩ := triHM_spec hT hreal .L tr f hf hU ht 1 (B := X) (mu := mu) (by rw [if_pos rfl, h1, h2])
    obtain ⟨Y, y1, y2, y3, y4⟩ := triHM_spec hT hreal .L tr f hf hL ht 1 (B := Z) (mu := mu) (by rw [if_pos rfl, z2, z3, h1, h2])
    refine ⟨Y, by rw [z1]; exact y1, y2.trans (z2.trans h1), y3.trans (z3.trans h2), fun i hi k hk => ?_⟩
    refine two_solves (F := opE tr (rel U A.label.t.off A.label.t.off)) (H := opE tr (rel L A.label.t.off A.label.t.off)) (z := fun l => Z.get l k)
      (y := fun l => Y.get l k) (x := fun l => X.get l k) (opE_prod tr e hM') (fun i hi => ?_) (fun i hi => ?_) i hi
    · have := z4 i hi k hk
      rw [one_mul] at this
      rw [← show sv .L X.get i k = X.get i k from rfl, ← this]
      exact sum_congr rfl fun l _ => by rw [orel]; rfl
    · have := y4 i hi k hk
      rw [one_mul] at this
      rw [← show sv .L Z.get i k = Z.get i k from rfl, ← this]
      exact sum_congr rfl fun l _ => by rw [orel]; rfl

end solve
end Htool
