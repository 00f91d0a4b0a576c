import Verif.Admissibility
import Verif.Props.Geometry
import Verif.Props.HLinBuilt

/-! # Property C65: the admissibility condition -/

namespace Htool
open Finset

/-! ## Specification -/

/-- Point number `i` of a cloud stored as `coordinates[dim*i+p]`. -/
def point (dim : ℕ) (x : ℕ → ℝ) (i : ℕ) : ℕ → ℝ := fun p => x (dim * i + p)

/-- Two sets of balls (points `i` of `I`, with radius `rx i`, and `j` of `J`, with radius `ry j`): the smaller of the two diameters is
less than `eta` times the distance of the sets. Sets of balls: the distance of two balls is that of the centers minus the radii. -/
def WellSeparated (dim : ℕ) (eta : ℝ) (x rx y ry : ℕ → ℝ) (I J : List ℕ) : Prop :=
  (∀ a ∈ I, ∀ b ∈ I, ∀ i ∈ I, ∀ j ∈ J,
    eDist dim (point dim x a) (point dim x b) + rx a + rx b < eta * (eDist dim (point dim x i) (point dim y j) - rx i - ry j)) ∨
  (∀ a ∈ J, ∀ b ∈ J, ∀ i ∈ I, ∀ j ∈ J,
    eDist dim (point dim y a) (point dim y b) + ry a + ry b < eta * (eDist dim (point dim x i) (point dim y j) - rx i - ry j))

/-- The cluster trees of the two clouds, with the centers and radii the library computes. -/
structure Clouds {D D' : Type*} (dim : ℕ) (x rx w y ry w' : ℕ → ℝ) (S : Strategies D (ℝ × (ℕ → ℝ))) (S' : Strategies D' (ℝ × (ℕ → ℝ)))
    (flog flog' : ℕ → ℕ → ℕ) (fuel n nc fuel' m nc' : ℕ) (arg arg' : PartArg) (t s : CTree (ℝ × (ℕ → ℝ)))
    (st st' : CState (ℝ × (ℕ → ℝ))) : Prop where
  target : Built S flog fuel n nc arg t st
  source : Built S' flog' fuel' m nc' arg' s st'
  geoT : S.geo = ballGeo dim x rx w
  geoS : S'.geo = ballGeo dim y ry w'

/-! ## Lemmas -/

theorem radius_nonneg {D : Type*} {dim : ℕ} {x rx w : ℕ → ℝ} {S : Strategies D (ℝ × (ℕ → ℝ))} (hgeo : S.geo = ballGeo dim x rx w)
    {flog : ℕ → ℕ → ℕ} {fuel n nc : ℕ} {arg : PartArg} {t : CTree (ℝ × (ℕ → ℝ))} {st : CState (ℝ × (ℕ → ℝ))}
    (h : Built S flog fuel n nc arg t st) : ∀ c ∈ t.pre, 0 ≤ c.label.geo.1 := by
  intro c hc
  obtain ⟨q, hq, -⟩ := C04_index_set_frozen h.strategies h.hflog h.hnc h.harg h.build c hc
  rw [hgeo] at hq
  rw [hq]
  exact (le_foldl_max (fun i => distTo dim x (computeCenter dim x w q c.label.offset c.label.size) i + rx i) _ 0).1

theorem ball_mem {D : Type*} {dim : ℕ} {x rx w : ℕ → ℝ} {S : Strategies D (ℝ × (ℕ → ℝ))} (hgeo : S.geo = ballGeo dim x rx w)
    {flog : ℕ → ℕ → ℕ} {fuel n nc : ℕ} {arg : PartArg} {t : CTree (ℝ × (ℕ → ℝ))} {st : CState (ℝ × (ℕ → ℝ))}
    (h : Built S flog fuel n nc arg t st) : ∀ c ∈ t.pre, ∀ i ∈ slice st.perm c.label.offset c.label.size,
      eDist dim (point dim x i) c.label.geo.2 + rx i ≤ c.label.geo.1 :=
  C08_clusters_are_bounding_balls dim x rx w h.strategies hgeo h.hflog h.hnc h.harg h.build

/-! ## C65 -/

/-- **C65.** The condition does not depend on the order of the two clusters. -/
theorem C65_symmetric (dim : ℕ) (eta : ℝ) (a b : CNode (ℝ × (ℕ → ℝ))) :
    rjasanowSteinbach dim eta a b = rjasanowSteinbach dim eta b a := by
  rw [Bool.eq_iff_iff, rs_iff, rs_iff, min_comm, eDist_comm, sub_right_comm]

/-- **C65.** A larger `eta` accepts every pair a smaller one accepts. -/
theorem C65_monotone (dim : ℕ) {eta eta' : ℝ} (h : eta ≤ eta') (a b : CNode (ℝ × (ℕ → ℝ)))
    (ha : rjasanowSteinbach dim eta a b = true) : rjasanowSteinbach dim eta' a b = true := by
  rw [rs_iff] at ha ⊢
  exact lt_of_lt_of_le ha (mul_le_mul_of_nonneg_right h (le_max_right _ _))

section
variable {D D' : Type*} {dim : ℕ} {x rx w y ry w' : ℕ → ℝ} {S : Strategies D (ℝ × (ℕ → ℝ))} {S' : Strategies D' (ℝ × (ℕ → ℝ))}
  {flog flog' : ℕ → ℕ → ℕ} {fuel n nc fuel' m nc' : ℕ} {arg arg' : PartArg} {t s : CTree (ℝ × (ℕ → ℝ))}
  {st st' : CState (ℝ × (ℕ → ℝ))}

/-- **C65.** With `eta ≤ 0` no pair of clusters is admissible. -/
theorem C65_nonpositive_eta (h : Clouds dim x rx w y ry w' S S' flog flog' fuel n nc fuel' m nc' arg arg' t s st st') {eta : ℝ}
    (he : eta ≤ 0) {a b : CTree (ℝ × (ℕ → ℝ))} (ha : a ∈ t.pre) (hb : b ∈ s.pre) : rjasanowSteinbach dim eta a.label b.label = false := by
  rw [← Bool.not_eq_true, rs_iff, not_lt]
  have h1 := radius_nonneg h.geoT h.target a ha
  have h2 := radius_nonneg h.geoS h.source b hb
  have h3 : eta * max (eDist dim a.label.geo.2 b.label.geo.2 - a.label.geo.1 - b.label.geo.1) 0 ≤ 0 :=
    mul_nonpos_of_nonpos_of_nonneg he (le_max_right _ _)
  have h4 := le_min h1 h2
  linarith

/-- **C65.** Admissible clusters hold well separated points: the smaller diameter is less than `eta` times the distance. -/
theorem C65_admissible_pairs_are_separated
    (h : Clouds dim x rx w y ry w' S S' flog flog' fuel n nc fuel' m nc' arg arg' t s st st') {eta : ℝ} {a b : CTree (ℝ × (ℕ → ℝ))}
    (ha : a ∈ t.pre) (hb : b ∈ s.pre) (hadm : rjasanowSteinbach dim eta a.label b.label = true) :
    WellSeparated dim eta x rx y ry (slice st.perm a.off a.sz) (slice st'.perm b.off b.sz) := by
  have he : 0 < eta := by
    by_contra hn
    rw [C65_nonpositive_eta h (not_lt.1 hn) ha hb] at hadm
    cases hadm
  rw [rs_iff] at hadm
  have r1 := radius_nonneg h.geoT h.target a ha
  have r2 := radius_nonneg h.geoS h.source b hb
  have hgap : 0 < eDist dim a.label.geo.2 b.label.geo.2 - a.label.geo.1 - b.label.geo.1 := by
    by_contra hn
    rw [max_eq_right (not_lt.1 hn), mul_zero] at hadm
    have := le_min r1 r2
    linarith
  rw [max_eq_left hgap.le] at hadm
  have far : ∀ i ∈ slice st.perm a.off a.sz, ∀ j ∈ slice st'.perm b.off b.sz,
      2 * min a.label.geo.1 b.label.geo.1 < eta * (eDist dim (point dim x i) (point dim y j) - rx i - ry j) := by
    intro i hi j hj
    have b1 := ball_mem h.geoT h.target a ha i hi
    have b2 := ball_mem h.geoS h.source b hb j hj
    have t1 := eDist_triangle dim a.label.geo.2 (point dim x i) b.label.geo.2
    have t2 := eDist_triangle dim (point dim x i) (point dim y j) b.label.geo.2
    rw [eDist_comm dim a.label.geo.2 (point dim x i)] at t1
    refine lt_of_lt_of_le hadm (mul_le_mul_of_nonneg_left ?_ he.le)
    linarith
  rcases min_choice a.label.geo.1 b.label.geo.1 with e | e
  · left
    intro p hp q hq i hi j hj
    have f := far i hi j hj
    rw [e] at f
    have b1 := ball_mem h.geoT h.target a ha p hp
    have b2 := ball_mem h.geoT h.target a ha q hq
    have t1 := eDist_triangle dim (point dim x p) a.label.geo.2 (point dim x q)
    rw [eDist_comm dim a.label.geo.2] at t1
    linarith
  · right
    intro p hp q hq i hi j hj
    have f := far i hi j hj
    rw [e] at f
    have b1 := ball_mem h.geoS h.source b hb p hp
    have b2 := ball_mem h.geoS h.source b hb q hq
    have t1 := eDist_triangle dim (point dim y p) b.label.geo.2 (point dim y q)
    rw [eDist_comm dim b.label.geo.2] at t1
    linarith

/-- **C65.** Clusters which share a point of nonnegative radius are never admissible; in particular a cluster with itself. -/
theorem C65_common_point_not_admissible (h : Clouds dim x rx w y ry w' S S' flog flog' fuel n nc fuel' m nc' arg arg' t s st st') {eta : ℝ}
    {a b : CTree (ℝ × (ℕ → ℝ))} (ha : a ∈ t.pre) (hb : b ∈ s.pre) {i j : ℕ} (hi : i ∈ slice st.perm a.off a.sz)
    (hj : j ∈ slice st'.perm b.off b.sz) (hri : 0 ≤ rx i) (hrj : 0 ≤ ry j) (hij : ∀ p < dim, x (dim * i + p) = y (dim * j + p)) :
    rjasanowSteinbach dim eta a.label b.label = false := by
  by_contra hn
  rw [Bool.not_eq_false] at hn
  have he : 0 < eta := by
    by_contra hh
    rw [C65_nonpositive_eta h (not_lt.1 hh) ha hb] at hn
    cases hn
  have e : eDist dim (point dim x i) (point dim y j) = 0 := by
    unfold eDist
    rw [Finset.sum_eq_zero, Real.sqrt_zero]
    intro p hp
    rw [show point dim x i p = point dim y j p from hij p (Finset.mem_range.1 hp)]
    ring
  rcases C65_admissible_pairs_are_separated h ha hb hn with g | g
  · have := g i hi i hi i hi j hj
    rw [e, eDist_self] at this
    nlinarith
  · have := g j hj j hj i hi j hj
    rw [e, eDist_self] at this
    nlinarith

/-- **C65.** The block of a cluster with itself is never compressed, whatever `eta` and the radii. -/
theorem C65_diagonal_not_admissible (hgeo : S.geo = ballGeo dim x rx w) (h : Built S flog fuel n nc arg t st) (eta : ℝ) :
    ∀ c ∈ t.pre, rjasanowSteinbach dim eta c.label c.label = false := by
  intro c hc
  have r := radius_nonneg hgeo h c hc
  rw [← Bool.not_eq_true, rs_iff, eDist_self, max_eq_right (by linarith), mul_zero, min_self]
  linarith

/-- **C65.** A square H-matrix built with this condition meets the hypotheses of the results on factorizations (`C37_built`, `C38_built_partial`): its
diagonal blocks are not compressed. -/
theorem C65_setting (hgeo : S.geo = ballGeo dim x rx w) (h : Built S flog fuel n nc arg t st) {eta : ℝ} {E : BEnv (ℝ × (ℕ → ℝ))}
    (hEt : E.tct = clusterTreeOf t st) (hEs : E.sct = clusterTreeOf t st) (hcons : E.consistent = true) (htp : E.tp = none) (hps : E.psym = none)
    (hu : E.sym ≠ .N → E.uplo ≠ .N) (hadm : E.adm = rjasanowSteinbach dim eta) : Setting S flog fuel n nc arg t st E :=
  ⟨h, hEt, hEs, hcons, htp, hps, hu, by rw [hadm]; exact C65_diagonal_not_admissible hgeo h eta⟩

/-- **C65 for the H-matrix.** In every H-matrix returned by `build` with this condition, under every schedule and for every
compressor, a block which holds low-rank data couples well separated sets of points. -/
theorem C65_low_rank_blocks_are_separated {R : Type*} [Zero R]
    (h : Clouds dim x rx w y ry w' S S' flog flog' fuel n nc fuel' m nc' arg arg' t s st st') {eta : ℝ}
    {E : BEnv (ℝ × (ℕ → ℝ))} (hEt : E.tct = clusterTreeOf t st) (hEs : E.sct = clusterTreeOf s st')
    (hadm : E.adm = rjasanowSteinbach dim eta) (hp : ∀ p : ℕ, E.tp = some p → ∃ P, E.tct.parts[p]? = some P ∧ (t.rk < 0 ∨ t.rk = (p : ℤ)))
    {T : ℕ} (hT : 0 < T) {lr : LRGen R} {dg : Option (DenseGen R)} {gen : ℕ → ℕ → R} {mem mem' : Mem R} {B' : Builder} {H : Tree ℕ} {f : ℕ}
    (hb : BuildStep T E lr dg f t s gen mem Builder.empty mem' B' H) :
    ∀ l ∈ (H.map mem'.heap).pre, ∀ r U V, l.label.data = .lowRank r U V →
      WellSeparated dim eta x rx y ry (slice st.perm l.label.toff l.label.tsz) (slice st'.perm l.label.soff l.label.ssz) := by
  have mt : t ∈ E.tct.root.pre := by rw [hEt]; exact Tree.mem_pre_self t
  have ms : s ∈ E.sct.root.pre := by rw [hEs]; exact Tree.mem_pre_self s
  have hOK : BuildOK E t s := ⟨hEt ▸ h.target.wf.1, hEs ▸ h.source.wf.1, mt, ms, hp⟩
  obtain ⟨b, hbb, hrel, -⟩ := C17_fallback_every_schedule hT hOK hb
  have pick : ∀ (b : BTree (ℝ × (ℕ → ℝ))) (A : HTree R), Tree.Rel (HoldsBlock lr dg gen) b A →
      ∀ l ∈ A.pre, ∃ c ∈ b.pre, HoldsBlock lr dg gen c.label l.label := by
    intro b
    induction b using Tree.ind with
    | h a cs ih =>
      intro A hA l hl
      cases A with
      | node q ds =>
        obtain ⟨h1, h2⟩ := Tree.Rel_node.1 hA
        rcases Tree.mem_pre.1 hl with rfl | ⟨d, hd, hl⟩
        · exact ⟨_, Tree.mem_pre_self _, h1⟩
        · have : ∃ c ∈ cs, Tree.Rel (HoldsBlock lr dg gen) c d := forall₂_mem_right h2 hd
          obtain ⟨c, hc, r⟩ := this
          obtain ⟨c', hc', r'⟩ := ih c hc d r l hl
          exact ⟨c', Tree.mem_pre.2 (Or.inr ⟨c, hc, hc'⟩), r'⟩
  intro l hl r U V hd
  obtain ⟨c, hc, hh⟩ := pick b _ hrel l hl
  have hk : c.label.kind = .adm := by
    cases hk : c.label.kind with
    | adm => rfl
    | dense => have := hh.dense hk; rw [hd] at this; cases this
    | hier => have := hh.hier hk; rw [hd] at this; cases this
  have c15 := (C15_only_admissible_compressed (E := E) hOK.wfT hOK.wfS mt ms hp hbb c hc).1 hk
  rw [hadm] at c15
  have hct : c.label.t ∈ t.pre ∧ c.label.s ∈ s.pre := by
    obtain ⟨b0, h0, hb0⟩ := buildBlocks_inv hbb
    rcases buildBlocks_nodes h0 hb0 c hc with h1 | ⟨rfl, hk2⟩
    · obtain ⟨q1, q2, -⟩ := buildBlockTree_nodes hOK.wfT hOK.wfS f t s b0 mt ms h0 c h1
      exact ⟨q1, q2⟩
    · have q := buildBlockTree_nodes hOK.wfT hOK.wfS f t s b0 mt ms h0 b0 (Tree.mem_pre_self _)
      have e : (resetRoot E b0).label.s = b0.label.s := by
        unfold resetRoot
        split
        · rfl
        · split_ifs
          · rfl
          · split <;> rfl
      obtain ⟨P, hP, hPt⟩ := c15.2.2.2.1
      have hPr := hOK.wfT.parts_mem P hP
      rw [hEt] at hPr
      refine ⟨Tree.mem_pre_trans hPr hPt, ?_⟩
      rw [hb0, e]
      exact q.2.1
  have e1 := hh.rows
  have e2 := hh.cols
  have w := C65_admissible_pairs_are_separated h hct.1 hct.2 c15.1
  unfold Tree.iv at e1 e2
  rw [Prod.mk.injEq] at e1 e2
  rw [e1.1, e1.2, e2.1, e2.2]
  exact w

end

/-! ### Non-vacuity: three points on a line against three points further away -/

/-- Regular splitting of points on a line, in the given order. -/
noncomputable def exLine (x : ℕ → ℝ) : Strategies Unit (ℝ × (ℕ → ℝ)) :=
  { dir := fun _ _ => (), sort := fun _ l => l, split := fun _ _ off size k => regularSplitting off size k 10,
    geo := ballGeo 1 x (fun _ => 0) (fun _ => 1) }

theorem exLine_ok (x : ℕ → ℝ) : (exLine x).OK := strategies_ok_of_regular _ 10 (fun _ l => List.Perm.refl l) rfl

/-- The cluster of all points of `exLine`, below the root. -/
noncomputable def exKid (x : ℕ → ℝ) : CTree (ℝ × (ℕ → ℝ)) :=
  .node ⟨0, 3, 1, 0, 0, true, ballGeo 1 x (fun _ => 0) (fun _ => 1) [0, 1, 2] 0 3⟩ []

/-- The cluster tree of `exLine`. -/
noncomputable def exRoot (x : ℕ → ℝ) : CTree (ℝ × (ℕ → ℝ)) :=
  .node ⟨0, 3, 0, -1, 0, false, ballGeo 1 x (fun _ => 0) (fun _ => 1) [0, 1, 2] 0 3⟩ [exKid x]

/-- Final state of the builder. -/
noncomputable def exSt (x : ℕ → ℝ) : CState (ℝ × (ℕ → ℝ)) := ⟨[0, 1, 2], 1, 1, [some (exKid x).label]⟩

theorem exLine_built (x : ℕ → ℝ) : Built (exLine x) Nat.log 5 3 2 (.given [(0, 3)]) (exRoot x) (exSt x) := by
  refine ⟨exLine_ok x, flogOK_log, by omega, ?_, ?_, by with_unfolding_all rfl, ?_⟩
  · simp [PartArg.ok, Tiles]
  · simp [PartArg.posOK]
  · intro l hl
    rw [show (exRoot x).leaves = [exKid x] from rfl, List.mem_singleton] at hl
    subst hl
    exact le_refl _

theorem exKid_geo (k : ℝ) : (exKid (fun i => (i : ℝ) + k)).label.geo.1 = 1 ∧ (exKid (fun i => (i : ℝ) + k)).label.geo.2 0 = 1 + k := by
  have c : ∀ p, computeCenter 1 (fun i => (i : ℝ) + k) (fun _ => 1) [0, 1, 2] 0 3 p = (p : ℝ) + 1 + k := by
    intro p
    simp [computeCenter, slice, coord]
    ring
  refine ⟨?_, ?_⟩
  · show computeRadius 1 _ _ _ _ _ _ = 1
    simp only [computeRadius, slice, distTo, coord, c]
    norm_num
  · show computeCenter 1 _ _ _ _ _ 0 = _
    rw [c]
    norm_num

theorem exKid_adm : rjasanowSteinbach 1 10 (exKid fun i => (i : ℝ) + 0).label (exKid fun i => (i : ℝ) + 10).label = true := by
  obtain ⟨a1, a2⟩ := exKid_geo 0
  obtain ⟨b1, b2⟩ := exKid_geo 10
  rw [rs_iff, a1, b1]
  unfold eDist
  rw [Finset.sum_range_one, a2, b2, show ((1 + 0 - (1 + 10)) ^ 2 : ℝ) = 10 ^ 2 by norm_num, Real.sqrt_sq (by norm_num)]
  norm_num

/-- Settings of the example. -/
noncomputable def exLineEnv : BEnv (ℝ × (ℕ → ℝ)) :=
  { tct := clusterTreeOf (exRoot fun i => (i : ℝ) + 0) (exSt fun i => (i : ℝ) + 0),
    sct := clusterTreeOf (exRoot fun i => (i : ℝ) + 10) (exSt fun i => (i : ℝ) + 10),
    adm := rjasanowSteinbach 1 10, mint := 0, mins := 0, tp := none, sym := .N, uplo := .N, psym := none, consistent := true }

/-- Three points on a line against the same points translated by 10, with `eta = 10`: the hypotheses of C65 hold and the H-matrix
has one compressed block. -/
example : ∃ (mem' : Mem ℚ) (B' : Builder) (H : Tree ℕ),
    Clouds 1 (fun i => (i : ℝ) + 0) (fun _ => 0) (fun _ => 1) (fun i => (i : ℝ) + 10) (fun _ => 0) (fun _ => 1)
      (exLine fun i => (i : ℝ) + 0) (exLine fun i => (i : ℝ) + 10) Nat.log Nat.log 5 3 2 5 3 2 (.given [(0, 3)]) (.given [(0, 3)])
      (exRoot fun i => (i : ℝ) + 0) (exRoot fun i => (i : ℝ) + 10) (exSt fun i => (i : ℝ) + 0) (exSt fun i => (i : ℝ) + 10) ∧
    BuildStep 3 exLineEnv (exactLr ℚ) none 2 (exRoot fun i => (i : ℝ) + 0) (exRoot fun i => (i : ℝ) + 10) (fun i j => ((i * j : ℕ) : ℚ)) (memZero ℚ)
      Builder.empty mem' B' H ∧
    ∃ l ∈ (H.map mem'.heap).pre, l.label.tsz = 3 ∧ ∃ r U V, l.label.data = .lowRank r U V := by
  have h : Clouds 1 (fun i => (i : ℝ) + 0) (fun _ => 0) (fun _ => 1) (fun i => (i : ℝ) + 10) (fun _ => 0) (fun _ => 1)
      (exLine fun i => (i : ℝ) + 0) (exLine fun i => (i : ℝ) + 10) Nat.log Nat.log 5 3 2 5 3 2 (.given [(0, 3)]) (.given [(0, 3)])
      (exRoot fun i => (i : ℝ) + 0) (exRoot fun i => (i : ℝ) + 10) (exSt fun i => (i : ℝ) + 0) (exSt fun i => (i : ℝ) + 10) :=
    ⟨exLine_built _, exLine_built _, rfl, rfl⟩
  have hb : buildBlocks exLineEnv 2 (exRoot fun i => (i : ℝ) + 0) (exRoot fun i => (i : ℝ) + 10) = some
      (.node ⟨exRoot fun i => (i : ℝ) + 0, exRoot fun i => (i : ℝ) + 10, .hier, false⟩
        [.node ⟨exKid fun i => (i : ℝ) + 0, exKid fun i => (i : ℝ) + 10, .adm, false⟩ []]) := by
    have s1 : exLineEnv.step (exRoot fun i => (i : ℝ) + 0) (exRoot fun i => (i : ℝ) + 10) =
        .split [(exKid fun i => (i : ℝ) + 0, exKid fun i => (i : ℝ) + 10)] := by
      have : exLineEnv.isAdmTask (exRoot fun i => (i : ℝ) + 0) (exRoot fun i => (i : ℝ) + 10) = false := by
        simp [BEnv.isAdmTask, exRoot, Tree.rk, Tree.label]
      unfold BEnv.step
      rw [if_neg (by rw [this]; simp)]
      rfl
    have s2 : exLineEnv.step (exKid fun i => (i : ℝ) + 0) (exKid fun i => (i : ℝ) + 10) = .adm := by
      have : exLineEnv.isAdmTask (exKid fun i => (i : ℝ) + 0) (exKid fun i => (i : ℝ) + 10) = true := by
        unfold BEnv.isAdmTask
        rw [show exLineEnv.adm = rjasanowSteinbach 1 10 from rfl, exKid_adm]
        rfl
      unfold BEnv.step
      rw [if_pos this]
    have b2 : buildBlockTree exLineEnv 1 (exKid fun i => (i : ℝ) + 0) (exKid fun i => (i : ℝ) + 10) =
        some (.node ⟨exKid fun i => (i : ℝ) + 0, exKid fun i => (i : ℝ) + 10, .adm, false⟩ []) := by
      unfold buildBlockTree
      rw [s2]; rfl
    unfold buildBlocks buildBlockTree
    rw [s1]
    simp only [mapOpt, b2]
    rfl
  have hOK : BuildOK exLineEnv (exRoot fun i => (i : ℝ) + 0) (exRoot fun i => (i : ℝ) + 10) :=
    ⟨h.target.wf.1, h.source.wf.1, Tree.mem_pre_self _, Tree.mem_pre_self _, fun p hp => by cases hp⟩
  obtain ⟨m', B', H, hst⟩ := build_exists (T := 3) (lr := exactLr ℚ) (dg := none) hOK (gen := fun i j => ((i * j : ℕ) : ℚ))
    (sysInv_empty (memZero ℚ)) hb
  refine ⟨m', B', H, h, hst, ?_⟩
  obtain ⟨b, h1, h2, -⟩ := C17_fallback_every_schedule (by omega) hOK hst
  rw [hb] at h1
  injection h1 with h1
  subst h1
  cases hA : H.map m'.heap with
  | node q ds =>
    rw [hA] at h2
    obtain ⟨-, h3⟩ := Tree.Rel_node.1 h2
    cases h3 with
    | cons h4 h5 =>
      rename_i d ds'
      have h6 := h4.label
      refine ⟨d, Tree.mem_pre.2 (Or.inr ⟨d, by simp [Tree.children], Tree.mem_pre_self d⟩), congrArg Prod.snd h6.rows, ?_⟩
      rcases h6.adm rfl with ⟨-, -, e⟩ | ⟨e, -⟩
      · exact ⟨_, _, _, e⟩
      · exact absurd e (by simp [exactLr, Tree.iv, Tree.sz])

end Htool
