import Mathlib.Data.List.Sort
import Verif.Geometry
import Verif.Props.Cluster
import Verif.ClusterSep
import Mathlib.Algebra.Order.Ring.Rat
import Mathlib.Algebra.Field.Rat

/-! # Properties C08, C52, C53: geometry of the clusters -/

namespace Htool
open Finset

/-- **C08.** For every cluster of every tree built with the real `compute_center`/`compute_radius`, every point `i` the
cluster holds in the final permutation satisfies `|x_i - center| + r_i ≤ radius`. -/
theorem C08_clusters_are_bounding_balls {D : Type*} (dim : ℕ) (x radii w : ℕ → ℝ)
    {S : Strategies D (ℝ × (ℕ → ℝ))} (hS : S.OK) (hgeo : S.geo = ballGeo dim x radii w)
    {flog} (hf : FlogOK flog) {fuel n nc : ℕ} (hnc : 2 ≤ nc) {arg : PartArg} (ha : arg.ok n)
    {t : Tree (CNode (ℝ × (ℕ → ℝ)))} {st : CState (ℝ × (ℕ → ℝ))}
    (h : createClusterTree S flog fuel n nc arg = some (t, st)) :
    ∀ s ∈ t.pre, ∀ i ∈ slice st.perm s.label.offset s.label.size,
      Real.sqrt (∑ p ∈ range dim, (x (dim * i + p) - s.label.geo.2 p) ^ 2) + radii i ≤ s.label.geo.1 := by
  intro s hs i hi
  obtain ⟨q, hq, hp⟩ := C04_index_set_frozen hS hf hnc ha h s hs
  rw [hgeo] at hq
  have hi' := hp.mem_iff.2 hi
  have h1 := (le_foldl_max (fun i => distTo dim x s.label.geo.2 i + radii i)
    (slice q s.label.offset s.label.size) 0).2 i hi'
  have h2 : s.label.geo.1 = computeRadius dim x radii s.label.geo.2 q s.label.offset s.label.size := by
    rw [hq]; rfl
  rw [h2]
  refine le_trans (le_of_eq ?_) h1
  simp only [distTo, coord]
  rw [abs_of_nonneg (Finset.sum_nonneg (fun p _ => mul_self_nonneg _))]
  congr 2
  exact Finset.sum_congr rfl (fun p _ => by ring)

/-- **C08 (center).** The stored center is the weighted mean of the points the cluster holds in the final permutation. -/
theorem C08_center_is_weighted_mean {D : Type*} (dim : ℕ) (x radii w : ℕ → ℝ)
    {S : Strategies D (ℝ × (ℕ → ℝ))} (hS : S.OK) (hgeo : S.geo = ballGeo dim x radii w)
    {flog} (hf : FlogOK flog) {fuel n nc : ℕ} (hnc : 2 ≤ nc) {arg : PartArg} (ha : arg.ok n)
    {t : Tree (CNode (ℝ × (ℕ → ℝ)))} {st : CState (ℝ × (ℕ → ℝ))}
    (h : createClusterTree S flog fuel n nc arg = some (t, st)) :
    ∀ s ∈ t.pre, ((slice st.perm s.label.offset s.label.size).map w).sum ≠ 0 → ∀ p,
      s.label.geo.2 p * ((slice st.perm s.label.offset s.label.size).map w).sum =
        ((slice st.perm s.label.offset s.label.size).map fun i => w i * x (dim * i + p)).sum := by
  intro s hs hw p
  obtain ⟨q, hq, hp⟩ := C04_index_set_frozen hS hf hnc ha h s hs
  rw [hgeo] at hq
  have fold : ∀ (f : ℕ → ℝ) (l : List ℕ) (a : ℝ), l.foldl (fun acc i => acc + f i) a = a + (l.map f).sum := by
    intro f l
    induction l with
    | nil => simp
    | cons b l ih => intro a; rw [List.foldl_cons, ih, List.map_cons, List.sum_cons, add_assoc]
  have e1 : s.label.geo.2 p = ((slice st.perm s.label.offset s.label.size).map fun i => w i * x (dim * i + p)).sum *
      (1 / ((slice st.perm s.label.offset s.label.size).map w).sum) := by
    rw [hq, ← (hp.map w).sum_eq, ← (hp.map fun i => w i * x (dim * i + p)).sum_eq]
    show _ * (1 / _) = _
    rw [fold (fun i => w i * coord dim x i p), fold w, zero_add, zero_add]
    rfl
  rw [e1, mul_assoc, one_div, inv_mul_cancel₀ hw, mul_one]

/-- **C08 (tight radius).** With nonnegative radii the stored radius of a nonempty cluster is attained by one of its points: no
smaller ball with the same center contains the balls of all points. -/
theorem C08_radius_is_attained {D : Type*} (dim : ℕ) (x radii w : ℕ → ℝ) (hr : ∀ i, 0 ≤ radii i)
    {S : Strategies D (ℝ × (ℕ → ℝ))} (hS : S.OK) (hgeo : S.geo = ballGeo dim x radii w)
    {flog} (hf : FlogOK flog) {fuel n nc : ℕ} (hnc : 2 ≤ nc) {arg : PartArg} (ha : arg.ok n)
    {t : Tree (CNode (ℝ × (ℕ → ℝ)))} {st : CState (ℝ × (ℕ → ℝ))}
    (h : createClusterTree S flog fuel n nc arg = some (t, st)) :
    ∀ s ∈ t.pre, slice st.perm s.label.offset s.label.size ≠ [] →
      ∃ i ∈ slice st.perm s.label.offset s.label.size,
        s.label.geo.1 = Real.sqrt (∑ p ∈ range dim, (x (dim * i + p) - s.label.geo.2 p) ^ 2) + radii i := by
  intro s hs hne
  obtain ⟨q, hq, hp⟩ := C04_index_set_frozen hS hf hnc ha h s hs
  rw [hgeo] at hq
  have h2 : s.label.geo.1 = computeRadius dim x radii s.label.geo.2 q s.label.offset s.label.size := by
    rw [hq]; rfl
  have att : ∀ (f : ℕ → ℝ) (l : List ℕ) (a : ℝ), l.foldl (fun acc i => max acc (f i)) a = a ∨
      ∃ i ∈ l, l.foldl (fun acc i => max acc (f i)) a = f i := by
    intro f l
    induction l with
    | nil => intro a; exact .inl rfl
    | cons b l ih =>
      intro a
      rw [List.foldl_cons]
      rcases ih (max a (f b)) with e | ⟨i, hi, e⟩
      · rcases max_choice a (f b) with m | m
        · left; rw [e, m]
        · right; exact ⟨b, by simp, by rw [e, m]⟩
      · right; exact ⟨i, by simp [hi], e⟩
  have hd : ∀ i, distTo dim x s.label.geo.2 i =
      Real.sqrt (∑ p ∈ range dim, (x (dim * i + p) - s.label.geo.2 p) ^ 2) := by
    intro i
    simp only [distTo, coord]
    rw [abs_of_nonneg (Finset.sum_nonneg (fun p _ => mul_self_nonneg _))]
    congr 1
    exact Finset.sum_congr rfl (fun p _ => by ring)
  rcases att (fun i => distTo dim x s.label.geo.2 i + radii i)
    (slice q s.label.offset s.label.size) 0 with e | ⟨i, hi, e⟩
  · obtain ⟨i, hi⟩ := List.exists_mem_of_ne_nil _ hne
    refine ⟨i, hi, ?_⟩
    have h1 := (le_foldl_max (fun i => distTo dim x s.label.geo.2 i + radii i)
      (slice q s.label.offset s.label.size) 0).2 i (hp.mem_iff.2 hi)
    rw [e] at h1
    have h0 : 0 ≤ distTo dim x s.label.geo.2 i := Real.sqrt_nonneg _
    have := hr i
    rw [h2]
    show List.foldl _ _ _ = _
    rw [e, ← hd i]
    linarith
  · refine ⟨i, hp.mem_iff.1 hi, ?_⟩
    rw [h2, ← hd i]
    exact e

/-- Non-vacuity of C08: there is a strategy with this geometry and a build with it succeeds. -/
example (x radii w : ℕ → ℝ) : ∃ (S : Strategies Unit (ℝ × (ℕ → ℝ))) (fuel : ℕ) (t : Tree _) (st : CState _),
    S.OK ∧ S.geo = ballGeo 3 x radii w ∧
    createClusterTree S Nat.log fuel 100 2 (.auto 4) = some (t, st) := by
  let S : Strategies Unit (ℝ × (ℕ → ℝ)) :=
    { dir := fun _ _ => (), sort := fun _ l => l.reverse,
      split := fun _ _ off size k => regularSplitting off size k 10, geo := ballGeo 3 x radii w }
  have hS : S.OK := strategies_ok_of_regular _ 10 (fun _ l => List.reverse_perm l) rfl
  obtain ⟨fuel, t, st, h⟩ := C06_build_terminates hS flogOK_log 100 2 (by omega) (.auto 4)
    (by show 1 ≤ 4; omega)
  exact ⟨S, fuel, t, st, hS, rfl, h⟩

section BoundingBox
variable {K : Type*} [Field K] [LinearOrder K] [IsStrictOrderedRing K]

/-- Extent of the points along an axis is at most `e`. -/
def ExtentLe (dim : ℕ) (x : ℕ → K) (p : ℕ) (pts : List ℕ) (e : K) : Prop :=
  ∀ i ∈ pts, ∀ j ∈ pts, x (dim * i + p) - x (dim * j + p) ≤ e

/-- **C52 (full statement).** `ComputeBoundingBox` chooses an axis of largest extent: the extent along any other axis is at
most the distance between two points along the chosen axis. -/
def C52_statement (tmax tmin : K) : Prop :=
  ∀ (dim : ℕ) (x : ℕ → K) (pts : List ℕ), 1 ≤ dim → pts ≠ [] →
    ∃ i ∈ pts, ∃ j ∈ pts, ∀ q < dim, ExtentLe dim x q pts
      (x (dim * i + bboxAxis dim x tmax tmin pts) - x (dim * j + bboxAxis dim x tmax tmin pts))

/-- **C52 (false of the code).** `max_point` is initialised with `numeric_limits<T>::min()`, a *positive* number, so for points with
negative coordinates the chosen axis can be one along which the points do not vary at all. -/
theorem C52_bounding_box_axis_fails : ¬ C52_statement (K := ℚ) 1000000 (1 / 1000000) := by
  intro h
  obtain ⟨i, hi, j, hj, hq⟩ := h 2
    (fun k => ([-10, 0, -10, 1] : List ℚ).getD k 0) [0, 1] (by omega) (by simp)
  have hax : bboxAxis 2 (fun k => ([-10, 0, -10, 1] : List ℚ).getD k 0) 1000000 (1 / 1000000) [0, 1] = 0 := by
    decide +kernel
  rw [hax] at hq
  have := hq 1 (by omega) 1 (by simp) 0 (by simp)
  simp at hi hj
  rcases hi with rfl | rfl <;> rcases hj with rfl | rfl <;> norm_num at this

/-- **C52 (what holds).** If along every axis some point has a coordinate at least `numeric_limits<T>::min()` (and all are at most
`numeric_limits<T>::max()`), and some extent exceeds `numeric_limits<T>::min()`, the chosen axis has the largest extent. -/
theorem C52_bounding_box_axis_partial (tmax tmin : K) (dim : ℕ) (x : ℕ → K) (pts : List ℕ)
    (hmax : ∀ p < dim, ∃ i ∈ pts, x (dim * i + p) ≤ tmax)
    (hmin : ∀ p < dim, ∃ i ∈ pts, tmin ≤ x (dim * i + p))
    (hext : ∃ p < dim, ∃ i ∈ pts, ∃ j ∈ pts, tmin < x (dim * i + p) - x (dim * j + p)) :
    bboxAxis dim x tmax tmin pts < dim ∧
    ∃ i ∈ pts, ∃ j ∈ pts, ∀ q < dim, ExtentLe dim x q pts
      (x (dim * i + bboxAxis dim x tmax tmin pts) - x (dim * j + bboxAxis dim x tmax tmin pts)) := by
  set e : ℕ → K := fun p => (bbox dim x tmax tmin p pts).2 - (bbox dim x tmax tmin p pts).1 with he
  obtain ⟨h1, h2, h3⟩ := axis_fold e dim tmin
  have hax : bboxAxis dim x tmax tmin pts = ((List.range dim).foldl (fun (acc : K × ℕ) p =>
      if acc.1 < e p then (e p, p) else acc) (tmin, 0)).2 := rfl
  have hle : ∀ q < dim, ExtentLe dim x q pts (e q) := by
    intro q hq i hi j hj
    have a1 := (bbox_max dim x tmax tmin q pts (hmin q hq)).1 i hi
    have a2 := (bbox_min dim x tmax tmin q pts (hmax q hq)).1 j hj
    simp only [he]; linarith
  rcases h3 with ⟨h3, -⟩ | ⟨h3, h4⟩
  · exfalso
    obtain ⟨p, hp, i, hi, j, hj, hlt⟩ := hext
    have := hle p hp i hi j hj
    have := h2 p hp
    rw [h3] at this
    linarith
  · rw [← hax] at h3 h4
    refine ⟨h3, ?_⟩
    obtain ⟨i, hi, hi'⟩ := (bbox_max dim x tmax tmin _ pts (hmin _ h3)).2
    obtain ⟨j, hj, hj'⟩ := (bbox_min dim x tmax tmin _ pts (hmax _ h3)).2
    refine ⟨i, hi, j, hj, ?_⟩
    intro q hq a ha b hb
    have := hle q hq a ha b hb
    have := h2 q hq
    have h5 : e (bboxAxis dim x tmax tmin pts) = x (dim * i + bboxAxis dim x tmax tmin pts) -
        x (dim * j + bboxAxis dim x tmax tmin pts) := by simp only [he]; rw [hi', hj']
    rw [← h5, h4]; linarith

/-- Non-vacuity of the partial theorem. -/
example : bboxAxis 2 (fun k => ([1, 0, 2, 5, 3, 1] : List ℚ).getD k 0) 1000000 (1 / 1000000) [0, 1, 2] = 1 := by
  decide +kernel

end BoundingBox

/-- **C53.** If `std::sort` really sorts by the projection `key d` on the direction `d`, then for every cluster there is one direction
along which its children are ordered: every point of a child comes before (or level with) every point of the
following children — in the *final* permutation, whatever was sorted afterwards. (Automatic partition.) -/
theorem C53_children_separated_along_direction {D G K : Type*} [LinearOrder K] (key : D → ℕ → K)
    {S : Strategies D G} (hS : S.OK)
    (hsort : ∀ d l, (S.sort d l).Pairwise (fun a b => key d a ≤ key d b))
    {flog} (hf : FlogOK flog) {fuel n nc sp : ℕ} (hnc : 2 ≤ nc) (hsp : 1 ≤ sp)
    {t : Tree (CNode G)} {st : CState G}
    (h : createClusterTree S flog fuel n nc (.auto sp) = some (t, st)) :
    ∀ s ∈ t.pre, ∃ d, s.children.Pairwise (fun u v =>
      ∀ i ∈ slice st.perm u.label.offset u.label.size,
      ∀ j ∈ slice st.perm v.label.offset v.label.size, key d i ≤ key d j) :=
  (build_sep (simpleEnv_ok hS hf hnc hsp) key hsort h).2.2.2 (by simp [rootNode, initState])

/-- Non-vacuity of C53: a concrete sorting strategy in dimension one. -/
example : ∃ (S : Strategies Unit Unit) (key : Unit → ℕ → ℕ), S.OK ∧
    (∀ d l, (S.sort d l).Pairwise (fun a b => key d a ≤ key d b)) ∧
    (createClusterTree S Nat.log 20 8 2 (.auto 2)).map (fun r => r.2.perm) =
      some [6, 7, 4, 5, 2, 3, 0, 1] := by
  let key : Unit → ℕ → ℕ := fun _ i => 10 - i / 2
  let S : Strategies Unit Unit :=
    { dir := fun _ _ => (), sort := fun _ l => l.insertionSort (fun a b => key () a ≤ key () b),
      split := fun _ _ off size k => regularSplitting off size k 1, geo := fun _ _ _ => () }
  refine ⟨S, key, strategies_ok_of_regular _ 1 (fun _ l => List.perm_insertionSort _ l) rfl, ?_, ?_⟩
  · intro d l
    haveI : Std.Total (fun a b : ℕ => key () a ≤ key () b) := ⟨fun a b => le_total _ _⟩
    haveI : IsTrans ℕ (fun a b : ℕ => key () a ≤ key () b) := ⟨fun a b c h1 h2 => le_trans h1 h2⟩
    exact List.pairwise_insertionSort (fun a b => key () a ≤ key () b) l
  · decide +kernel

end Htool
