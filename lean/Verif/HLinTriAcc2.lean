import Verif.HLinTriAcc

/-! # Accuracy of triangular solves with hierarchical right-hand sides: the loops -/

namespace Htool
open Finset

section blocks
variable {G R : Type*} [CommRing R]

/-- What the leaves contain, according to the pair of clusters they are in. -/
def LeafQ (lt ls : List (ClusterTree G)) (Q : ClusterTree G → ClusterTree G → FNode G R → Prop) (n : FNode G R) : Prop :=
  n.data ≠ .hier → ∀ p ∈ lt, ∀ q ∈ ls, p.Desc n.t → q.Desc n.s → Q p q n

/-- Reading or replacing a block, with the contents of the other ones. -/
theorem Shape.focusQ {P : FNode G R → Prop} {Q : ClusterTree G → ClusterTree G → FNode G R → Prop} {A : FTree G R} {bad : Bool}
    (h : Shape .full (fun n => P n ∧ LeafQ (clList bad A.label.t) (clList bad A.label.s) Q n) A) (t1 : A.label.t.Top) (t2 : A.label.s.Top)
    (hb : A.bad = true → bad = true) (hf : bad = true ∨ A.isHier = true) {p q : ClusterTree G} (hp : p ∈ clList bad A.label.t)
    (hq : q ∈ clList bad A.label.s) :
    ∃ X, Shape .full (fun n => P n ∧ (n.data ≠ .hier → Q p q n)) X ∧ X.label.t = p ∧ X.label.s = q ∧ X.ht ≤ A.ht ∧
      (bad = false ∨ A.bad = true → X.ht < A.ht) ∧ getBlock p q A = some X ∧
      ∀ (f : FTree G R → Option (FTree G R)) (P' : FNode G R → Prop) (Q' : ClusterTree G → ClusterTree G → FNode G R → Prop) (X' : FTree G R),
        f X = some X' → Shape .full (fun n => P' n ∧ (n.data ≠ .hier → Q' p q n)) X' → X'.label.t = p → X'.label.s = q → X'.ht ≤ X.ht →
        (∀ n, P n → (n.data = .hier ∨ n.Disj X.label) → P' n) →
        (∀ p' ∈ clList bad A.label.t, ∀ q' ∈ clList bad A.label.s, ∀ n, ¬ (p' = p ∧ q' = q) → Q p' q' n → Q' p' q' n) →
        ∃ A', updSub p q f A = some A' ∧ Shape .full (fun n => P' n ∧ LeafQ (clList bad A.label.t) (clList bad A.label.s) Q' n) A' ∧
          A'.label.t = A.label.t ∧ A'.label.s = A.label.s ∧ A'.ht ≤ A.ht ∧ (bad = true ∨ A'.isHier = true) := by
  have okT := h.self.clT
  have okS := h.self.clS
  have op := okT.desc (clList_desc okT t1 hp)
  have oq := okS.desc (clList_desc okS t2 hq)
  obtain ⟨X, x1, x2, x3, x4, x5, x6, x7⟩ := Shape.focus h t1 t2 hb hf hp hq rfl
  refine ⟨X, ?_, x2, x3, x4, x5, x6, fun f P' Q' X' g1 g2 g3 g4 g5 g6 g7 => ?_⟩
  · refine Shape.imp x1 fun Y hY hP => ⟨hP.1, fun hh => ?_⟩
    have d := Shape.pre_desc x1 hY
    rw [x2, x3] at d
    exact hP.2 hh p hp q hq d.1 d.2.1
  · refine x7 f _ X' g1 (Shape.imp g2 fun Y hY hP => ⟨hP.1, fun hh p' hp' q' hq' d1 d2 => ?_⟩) g3 g4 g5 fun n hn hd => ⟨g6 n hn.1 hd, fun hh p' hp' q' hq' d1 d2 => ?_⟩
    · have d := Shape.pre_desc g2 hY
      rw [g3, g4] at d
      rw [clL_unique okT t1 hp' hp d1 d.1, clL_unique okS t2 hq' hq d2 d.2.1]
      exact hP.2 hh
    · refine g7 p' hp' q' hq' n ?_ (hn.2 hh p' hp' q' hq' d1 d2)
      rintro ⟨rfl, rfl⟩
      have hd := hd.resolve_left hh
      have b1 := op.desc_bounds d1
      have b2 := oq.desc_bounds d2
      have s1 := (op.desc d1).sz_pos
      have s2 := (oq.desc d2).sz_pos
      refine hd n.t.off n.s.off ?_
      unfold FNode.Has
      rw [x2, x3]
      unfold ClusterTree.fin at *
      omega

/-- Order of the clusters of a block of a right-hand side. -/
def qs (side : Side) (Q : ClusterTree G → ClusterTree G → FNode G R → Prop) : ClusterTree G → ClusterTree G → FNode G R → Prop :=
  if side = .L then Q else fun p q => Q q p

/-- State of the loops of a triangular solve: the matrix stored, and what is known of the leaves of every block. -/
structure HHQ (side : Side) (adB : ClusterTree G → ClusterTree G → Prop) (bad : Bool) (B0 : FTree G R)
    (Q : ClusterTree G → ClusterTree G → FNode G R → Prop) (B : FTree G R) (x : ℕ → ℕ → R) : Prop where
  rep : Shape .full (fun n => RepP .full adB (sv side x) n ∧ LeafQ (clList bad B0.label.t) (clList bad B0.label.s) (qs side Q) n) B
  t : B.label.t = B0.label.t
  s : B.label.s = B0.label.s
  ht : B.ht ≤ B0.ht
  hier : bad = true ∨ B.isHier = true

variable {side : Side} {adB : ClusterTree G → ClusterTree G → Prop} {bad : Bool} {B0 B : FTree G R} {x : ℕ → ℕ → R}
  {Q Q' : ClusterTree G → ClusterTree G → FNode G R → Prop}

theorem HHQ.mono (h : HHQ side adB bad B0 Q B x) (hQ : ∀ p ∈ clList bad (B0.own side), ∀ r ∈ clList bad (B0.oth side), ∀ n, Q p r n → Q' p r n) :
    HHQ side adB bad B0 Q' B x := by
  refine ⟨Shape.imp h.rep fun X _ hX => ⟨hX.1, fun hh p hp q hq d1 d2 => ?_⟩, h.t, h.s, h.ht, h.hier⟩
  have := hX.2 hh p hp q hq d1 d2
  cases side with
  | L => exact hQ p hp q hq _ this
  | R => exact hQ q hq p hp _ this

theorem HHQ.focus (h : HHQ side adB bad B0 Q B x) (t1 : B0.label.t.Top) (t2 : B0.label.s.Top) (hb : B0.bad = true → bad = true) {p r : ClusterTree G}
    (hp : p ∈ clList bad (B0.own side)) (hr : r ∈ clList bad (B0.oth side)) :
    ∃ X, getB side p r B = some X ∧ Shape .full (fun n => RepP .full adB (sv side x) n ∧ (n.data ≠ .hier → Q p r n)) X ∧ X.own side = p ∧
      X.oth side = r ∧ X.ht ≤ B0.ht ∧ (bad = false ∨ B0.bad = true → X.ht < B0.ht) ∧ 0 ≤ p.rk ∧ 0 ≤ r.rk ∧
      ∀ (g : FTree G R → Option (FTree G R)) (Q' : ClusterTree G → ClusterTree G → FNode G R → Prop) (x' : ℕ → ℕ → R) (X' : FTree G R), g X = some X' →
        Shape .full (fun n => RepP .full adB (sv side x') n ∧ (n.data ≠ .hier → Q' p r n)) X' →
        X'.label.t = X.label.t → X'.label.s = X.label.s → X'.ht ≤ X.ht → (∀ i k, ¬ (i ∈ Ico p.off p.fin ∧ k ∈ Ico r.off r.fin) → x' i k = x i k) →
        (∀ p' ∈ clList bad (B0.own side), ∀ r' ∈ clList bad (B0.oth side), ∀ n, ¬ (p' = p ∧ r' = r) → Q p' r' n → Q' p' r' n) →
        ∃ B', updB side p r g B = some B' ∧ HHQ side adB bad B0 Q' B' x' := by
  have hbB : B.bad = B0.bad := by unfold FTree.bad; rw [h.t, h.s]
  have b := Shape.self h.rep
  have hrep : Shape .full (fun n => RepP .full adB (sv side x) n ∧ LeafQ (clList bad B.label.t) (clList bad B.label.s) (qs side Q) n) B := by
    rw [h.t, h.s]; exact h.rep
  have go : ∀ (p' q' : ClusterTree G), p' ∈ clList bad B.label.t → q' ∈ clList bad B.label.s → _ :=
    fun p' q' hp' hq' => Shape.focusQ hrep (by rw [h.t]; exact t1) (by rw [h.s]; exact t2) (by rw [hbB]; exact hb) h.hier hp' hq'
  have rkt : ∀ p' ∈ clList bad B.label.t, 0 ≤ p'.rk := fun p' hp' =>
    clList_rank b.clT (by rw [h.t]; exact t1) (fun hr => hb (by rw [← hbB]; exact bad_iff.2 (Or.inl hr))) hp'
  have rks : ∀ p' ∈ clList bad B.label.s, 0 ≤ p'.rk := fun p' hp' =>
    clList_rank b.clS (by rw [h.s]; exact t2) (fun hr => hb (by rw [← hbB]; exact bad_iff.2 (Or.inr hr))) hp'
  cases side with
  | L =>
    have hp' : p ∈ clList bad B.label.t := by rw [h.t]; exact hp
    have hr' : r ∈ clList bad B.label.s := by rw [h.s]; exact hr
    obtain ⟨X, s1, s2, s3, s4, s5, s6, s7⟩ := go p r hp' hr'
    refine ⟨X, s6, s1, s2, s3, Nat.le_trans s4 h.ht, fun hh => Nat.lt_of_lt_of_le (s5 (by rw [hbB]; exact hh)) h.ht, rkt p hp', rks r hr', ?_⟩
    intro g Q' x' X' g1 g2 g3 g4 g5 g6 g7
    obtain ⟨B', e1, e2, e3, e4, e5, e6⟩ := s7 g (RepP .full adB (sv .L x')) (qs .L Q') X' g1 g2 (g3.trans s2) (g4.trans s3) g5 (by
      intro n hn hd
      refine RepP.outside (M := sv .L x) (x := X.label) (fun i j hij _ => ?_) hn hd
      refine (g6 i j fun hc => hij ?_).symm
      unfold FNode.Has; rw [s2, s3]
      exact ⟨mem_Ico.1 hc.1, mem_Ico.1 hc.2⟩) (by
      intro p' hp' q' hq' n hne hn
      rw [h.t] at hp'
      rw [h.s] at hq'
      exact g7 p' hp' q' hq' n hne hn)
    rw [h.t, h.s] at e2
    exact ⟨B', e1, ⟨e2, e3.trans h.t, e4.trans h.s, Nat.le_trans e5 h.ht, e6⟩⟩
  | R =>
    have hp' : p ∈ clList bad B.label.s := by rw [h.s]; exact hp
    have hr' : r ∈ clList bad B.label.t := by rw [h.t]; exact hr
    obtain ⟨X, s1, s2, s3, s4, s5, s6, s7⟩ := go r p hr' hp'
    refine ⟨X, s6, s1, s3, s2, Nat.le_trans s4 h.ht, fun hh => Nat.lt_of_lt_of_le (s5 (by rw [hbB]; exact hh)) h.ht, rks p hp', rkt r hr', ?_⟩
    intro g Q' x' X' g1 g2 g3 g4 g5 g6 g7
    obtain ⟨B', e1, e2, e3, e4, e5, e6⟩ := s7 g (RepP .full adB (sv .R x')) (qs .R Q') X' g1 g2 (g3.trans s2) (g4.trans s3) g5 (by
      intro n hn hd
      refine RepP.outside (M := sv .R x) (x := X.label) (fun i j hij _ => ?_) hn hd
      refine (g6 j i fun hc => hij ?_).symm
      unfold FNode.Has; rw [s2, s3]
      exact ⟨mem_Ico.1 hc.2, mem_Ico.1 hc.1⟩) (by
      intro p' hp' q' hq' n hne hn
      rw [h.t] at hp'
      rw [h.s] at hq'
      exact g7 q' hq' p' hp' n (fun e => hne ⟨e.2, e.1⟩) hn)
    rw [h.t, h.s] at e2
    exact ⟨B', e1, ⟨e2, e3.trans h.t, e4.trans h.s, Nat.le_trans e5 h.ht, e6⟩⟩

end blocks


section tri
variable {G 𝕜 : Type*} [RCLike 𝕜] [DecidableEq 𝕜] {E : LinOps 𝕜} {ε : ℝ} {a hm : ℕ}
variable {u : UploType} {unit : Bool} {m : Mask} {ad adB : ClusterTree G → ClusterTree G → Prop} {T : ℕ → ℕ → 𝕜}

omit [RCLike 𝕜] [DecidableEq 𝕜] in
theorem ClusterTree.Arity.desc {c d : ClusterTree G} (h : c.Arity a) (hd : c.Desc d) : d.Arity a :=
  ⟨h.pos, by rw [hd.2]; exact h.parts, fun x hx => h.kids x (Tree.mem_pre_trans hd.1 hx)⟩

omit [DecidableEq 𝕜] in
theorem nearT_of {m : Mask} {e : ℝ} {M H : ℕ → ℕ → 𝕜} {P : FNode G 𝕜 → Prop} {A : FTree G 𝕜}
    (h : Shape m (fun n => RepP m ad M n ∧ (n.data ≠ .hier → P n)) A) (hP : ∀ n, P n → NearP m e ad H n) : NearT m e ad H A := by
  refine Shape.imp h fun X hX hp => ?_
  by_cases hd : X.label.data = .hier
  · exact ⟨hp.1.1, by rw [hd]; trivial⟩
  · exact hP _ (hp.2 hd)

/-- Solutions of a triangular system near an exact right-hand side: if the right-hand side stored is the matrix `H` after `k` truncations, the residual of
the solution is that of `k + K` truncations. `W`: a bound of the entries of `|H| + |T| |X|`, of norm `Bd`. -/
def TriNear (ε : ℝ) (K : ℕ) (side : Side) (tr : Trans) (adB : ClusterTree G → ClusterTree G → Prop) (T : ℕ → ℕ → 𝕜) (c : ClusterTree G) (B : FTree G 𝕜)
    (x : ℕ → ℕ → 𝕜) : Prop :=
  ∀ (W : ℕ → ℕ → ℝ) (Bd : ℝ) (k : ℕ) (H : ℕ → ℕ → 𝕜), Maj W Bd → NearT .full (accErr ε Bd k) adB (sv side H) B →
    (∀ i ∈ Ico c.off c.fin, ∀ j ∈ Ico (B.oth side).off (B.oth side).fin,
      ‖H i j‖ + ∑ l ∈ Ico c.off c.fin, ‖tv side tr T i l‖ * ‖x l j‖ ≤ sv side W i j) →
    ∀ i ∈ Ico c.off c.fin, ∀ j ∈ Ico (B.oth side).off (B.oth side).fin,
      ‖∑ l ∈ Ico c.off c.fin, tv side tr T i l * x l j - H i j‖ ≤ accErr ε Bd (k + K)

/-- What the solves of blocks are known to do. -/
def RecOK (ε : ℝ) (K a hm n : ℕ) (side : Side) (tr : Trans) (u : UploType) (unit : Bool) (m : Mask) (ad adB : ClusterTree G → ClusterTree G → Prop) (T : ℕ → ℕ → 𝕜)
    (rec : FTree G 𝕜 → FTree G 𝕜 → Option (FTree G 𝕜)) : Prop :=
  ∀ (A B : FTree G 𝕜) (MB : ℕ → ℕ → 𝕜), A.ht + B.ht ≤ n → A.ht + 1 ≤ hm → B.ht + 1 ≤ hm → A.label.t.Arity a → (B.oth side).Arity a →
    TriRep u unit m ad T A → Rep .full adB MB B → A.label.t.Top → (B.oth side).Top → B.own side = A.label.t →
    (A.isHier = true ∨ 0 ≤ (B.oth side).rk) →
    ∃ B' x, rec A B = some B' ∧ Rep .full adB (sv side x) B' ∧ B'.label.t = B.label.t ∧ B'.label.s = B.label.s ∧ B'.ht ≤ B.ht ∧
      TriNear ε K side tr adB T A.label.t B x

/-- The block `p`, `r` after the updates by the clusters `d1`, whose unknowns are given by `x0`. -/
def Fam (ε : ℝ) (tau : ℕ) (side : Side) (tr : Trans) (adB : ClusterTree G → ClusterTree G → Prop) (T : ℕ → ℕ → 𝕜) (B0 : FTree G 𝕜)
    (d1 : List (ClusterTree G)) (x0 : ℕ → ℕ → 𝕜) (p r : ClusterTree G) (n : FNode G 𝕜) : Prop :=
  ∀ (W : ℕ → ℕ → ℝ) (Bd : ℝ) (k : ℕ) (H : ℕ → ℕ → 𝕜), Maj W Bd → NearT .full (accErr ε Bd k) adB (sv side H) B0 →
    (∀ i ∈ Ico p.off p.fin, ∀ j ∈ Ico r.off r.fin,
      ‖H i j‖ + blkSum (fun i l => ‖tv side tr T i l‖) (fun l j => ‖x0 l j‖) d1 i j ≤ sv side W i j) →
    NearP .full (accErr ε Bd (k + d1.length * tau)) adB (sv side (fun i j => H i j - blkSum (tv side tr T) x0 d1 i j)) n

omit [DecidableEq 𝕜] in
theorem blkSum_norm_nonneg (V x : ℕ → ℕ → 𝕜) (l : List (ClusterTree G)) (i j : ℕ) : 0 ≤ blkSum (fun i l => ‖V i l‖) (fun l j => ‖x l j‖) l i j := by
  unfold blkSum
  refine List.sum_nonneg fun y hy => ?_
  obtain ⟨q, -, rfl⟩ := List.mem_map.1 hy
  exact sum_nonneg fun _ _ => mul_nonneg (norm_nonneg _) (norm_nonneg _)

omit [DecidableEq 𝕜] in
theorem norm_blkSum_le (V x : ℕ → ℕ → 𝕜) (l : List (ClusterTree G)) (i j : ℕ) : ‖blkSum V x l i j‖ ≤ blkSum (fun i l => ‖V i l‖) (fun l j => ‖x l j‖) l i j := by
  induction l with
  | nil => simp [blkSum]
  | cons q l ih =>
    rw [show q :: l = [q] ++ l from rfl, blkSum_append, blkSum_append, blkSum_single, blkSum_single]
    refine (norm_add_le _ _).trans (add_le_add ((norm_sum_le _ _).trans (le_of_eq (sum_congr rfl fun _ _ => norm_mul _ _))) ih)

/-- The blocks of a triangular solve between hierarchical matrices. -/
structure TriCtx (a hm n : ℕ) (bad : Bool) (side : Side) (tr : Trans) (u : UploType) (unit : Bool) (m : Mask) (ad : ClusterTree G → ClusterTree G → Prop)
    (T : ℕ → ℕ → 𝕜) (A B0 : FTree G 𝕜) : Prop where
  tri : TriRep u unit m ad T A
  hier : A.isHier = true
  topA : A.label.t.Top
  topT : B0.label.t.Top
  topS : B0.label.s.Top
  own : B0.own side = A.label.t
  okO : ClOK (B0.oth side)
  okA : ClOK A.label.t
  badA : A.bad = true → bad = true
  badB : B0.bad = true → bad = true
  cases : bad = false ∨ A.bad = true ∨ B0.bad = true
  arA : A.label.t.Arity a
  arO : (B0.oth side).Arity a
  hmA : A.ht + 1 ≤ hm
  hmB : B0.ht + 1 ≤ hm
  hts : A.ht + B0.ht ≤ n + 1

namespace TriCtx
variable {n K : ℕ} {bad : Bool} {side : Side} {tr : Trans} {A B0 : FTree G 𝕜}

omit [DecidableEq 𝕜] in
theorem topO (h : TriCtx a hm n bad side tr u unit m ad T A B0) : (B0.oth side).Top := by
  cases side
  · exact h.topS
  · exact h.topT

/-- One block: the updates by the clusters `done`. -/
theorem updates (hE : E.Acc ε) (hε : 0 ≤ ε) (h : TriCtx a hm n bad side tr u unit m ad T A B0) {f : ℕ} (hf : n ≤ f)
    {rec : FTree G 𝕜 → FTree G 𝕜 → Option (FTree G 𝕜)} {p r : ClusterTree G} (hp : p ∈ clList bad A.label.t) (hr : r ∈ clList bad (B0.oth side))
    {done : List (ClusterTree G)} (hd : ∀ q ∈ done, q ∈ clList bad A.label.t ∧ after (fwS side u tr) p q = true) {und : ClusterTree G → ClusterTree G → Prop} (hund : und p r) {s : FTree G 𝕜} {x0 : ℕ → ℕ → 𝕜}
    (hx : HHQ side adB bad B0 (fun p' r' n => und p' r' → Fam ε (truncs a hm) side tr adB T B0 [] 0 p' r' n) s x0) :
    ∃ s' x', (done.map (fun q => (p, r, q))).foldlM (triStep E side rec f (fwS side u tr) tr A) s = some s' ∧
      HHQ side adB bad B0 (fun p' r' n => (und p' r' ∧ ¬ (p' = p ∧ r' = r) → Fam ε (truncs a hm) side tr adB T B0 [] 0 p' r' n) ∧
        (p' = p ∧ r' = r → Fam ε (truncs a hm) side tr adB T B0 done x0 p r n)) s' x' ∧
      ∀ i k, ¬ (i ∈ Ico p.off p.fin ∧ k ∈ Ico r.off r.fin) → x' i k = x0 i k := by
  have cl := clL_of h.okA h.topA bad
  have hdis : ∀ q ∈ done, ∀ i ∈ Ico q.off q.fin, i ∉ Ico p.off p.fin := by
    intro q hq i hi hi'
    obtain ⟨hqL, hb⟩ := hd q hq
    rw [mem_Ico] at hi hi'
    rw [after_iff] at hb
    have f1 := fun hh => after_fin cl.tiles cl.pos hp hqL hh
    have f2 := fun hh => after_fin cl.tiles cl.pos hqL hp hh
    cases hfw' : fwS side u tr <;> rw [hfw'] at hb <;> simp only [Bool.false_eq_true, if_false, if_true] at hb <;> have := f1 <;> have := f2 <;> omega
  have key := foldlM_inv (f := fun s q => triStep E side rec f (fwS side u tr) tr A s (p, r, q)) (fun d1 s => ∃ x,
      HHQ side adB bad B0 (fun p' r' n => (und p' r' ∧ ¬ (p' = p ∧ r' = r) → Fam ε (truncs a hm) side tr adB T B0 [] 0 p' r' n) ∧
        (p' = p ∧ r' = r → Fam ε (truncs a hm) side tr adB T B0 d1 x0 p r n)) s x ∧
      ∀ i k, ¬ (i ∈ Ico p.off p.fin ∧ k ∈ Ico r.off r.fin) → x i k = x0 i k) done [] s
    ⟨x0, hx.mono fun p' _ r' _ n hn => ⟨fun hu => hn hu.1, fun e => by
      obtain ⟨rfl, rfl⟩ := e
      intro W Bd k H h1 h2 h3
      have := hn hund W Bd k H h1 h2 (fun i hi j hj => by have := h3 i hi j hj; simpa [blkSum] using this)
      simpa [blkSum] using this⟩, fun _ _ _ => rfl⟩
    (by
      intro d1 q d2 s1 hl _ hI
      obtain ⟨x, i1, i2⟩ := hI
      rw [List.nil_append] at hl
      have hqd : q ∈ done := by rw [hl]; simp
      obtain ⟨hq, hb⟩ := hd q hqd
      obtain ⟨X, b1, b2, b3, b4, b5, b6, b7, b8⟩ := h.tri.off_side h.topA h.badA (Or.inr h.hier) side tr hp hq hb
      obtain ⟨Y, y1, y2, y3, y4, y5, y6, y7, y8, y9⟩ := i1.focus h.topT h.topS h.badB (p := p) (r := r) (by rw [h.own]; exact hp) hr
      obtain ⟨Z, w1, w2, w3, w4, w5, w6, w7, w8, w9⟩ := i1.focus h.topT h.topS h.badB (p := q) (r := r) (by rw [h.own]; exact hq) hr
      have rY : Rep .full adB (sv side x) Y := Shape.imp y2 fun _ _ h => h.1
      have rZ : Rep .full adB (sv side x) Z := Shape.imp w2 fun _ _ h => h.1
      have hlt : X.ht + Z.ht ≤ f := by
        have := h.hts
        rcases h.cases with h | h | h
        · have := b6 (Or.inl h); omega
        · have := b6 (Or.inr h); omega
        · have := w6 (Or.inr h); omega
      have ap := h.arA.desc (clList_desc h.okA h.topA hp)
      have aq := h.arA.desc (clList_desc h.okA h.topA hq)
      have ar := h.arO.desc (clList_desc h.okO h.topO hr)
      have oX : Opnd ad T a X := by
        refine b2.opnd ?_ ?_
        · revert b3 b4
          unfold FTree.outC FTree.inC
          cases side <;> cases tr <;> simp <;> intro e1 e2 <;> first | (rw [e1]; exact ap) | (rw [e2]; exact aq)
        · revert b3 b4
          unfold FTree.outC FTree.inC
          cases side <;> cases tr <;> simp <;> intro e1 e2 <;> first | (rw [e1]; exact ap) | (rw [e2]; exact aq)
      have oZ : Opnd adB (sv side x) a Z := by
        refine rZ.opnd ?_ ?_
        · revert w3 w4
          unfold FTree.own FTree.oth
          cases side <;> simp <;> intro e1 e2 <;> first | (rw [e1]; exact aq) | (rw [e2]; exact ar)
        · revert w3 w4
          unfold FTree.own FTree.oth
          cases side <;> simp <;> intro e1 e2 <;> first | (rw [e1]; exact aq) | (rw [e2]; exact ar)
      have hm1 := h.hmA
      have hm2 := h.hmB
      obtain ⟨Y', x1, z1, z2, z3, z4, z5, z6⟩ := prodS_near (hm := hm) hE hε side f tr hlt (by omega) (by omega) oX oZ rY b3 b4 ⟨b7, b8⟩ w3 w4 w7 w8 y3 y4
      have hxq : ∀ l ∈ Ico q.off q.fin, ∀ k, x l k = x0 l k := fun l hl k => i2 l k fun hc => hdis q hqd l hl hc.1
      let x' : ℕ → ℕ → 𝕜 := fun i k => if i ∈ Ico p.off p.fin ∧ k ∈ Ico r.off r.fin then x1 i k else x i k
      have hrep : Rep .full adB (sv side x') Y' := by
        refine Rep.congr z2 fun i j hij _ => ?_
        have hij' : Y.label.Has i j := by unfold FNode.Has at hij ⊢; rw [← z3, ← z4]; exact hij
        cases side with
        | L =>
          have := (has_side .L Y i j).1 hij'
          rw [y3, y4] at this
          exact (if_pos this).symm
        | R =>
          have := (has_side .R Y j i).1 hij'
          rw [y3, y4] at this
          exact (if_pos this).symm
      obtain ⟨s', e1, e2⟩ := y9 (prodS E side f tr X Z) (fun p' r' n => (und p' r' ∧ ¬ (p' = p ∧ r' = r) → Fam ε (truncs a hm) side tr adB T B0 [] 0 p' r' n) ∧
        (p' = p ∧ r' = r → Fam ε (truncs a hm) side tr adB T B0 (d1 ++ [q]) x0 p r n)) x' Y' z1
        (by
          intro V hV
          have bV := hrep V hV
          refine ⟨⟨bV.prop, fun _ => ⟨fun hc => absurd ⟨rfl, rfl⟩ hc.2, fun _ => ?_⟩⟩, bV.clT, bV.clS, bV.leaf, bV.split⟩
          intro W Bd k H h1 h2 h3
          have hdom : ∀ i ∈ Ico p.off p.fin, ∀ j ∈ Ico r.off r.fin, ‖H i j‖ + blkSum (fun i l => ‖tv side tr T i l‖) (fun l j => ‖x0 l j‖) d1 i j +
              ∑ l ∈ Ico q.off q.fin, ‖tv side tr T i l‖ * ‖x l j‖ ≤ sv side W i j := by
            intro i hi j hj
            have := h3 i hi j hj
            rw [blkSum_append, blkSum_single] at this
            rw [sum_congr rfl fun l hl => by rw [hxq l hl j]]
            linarith
          have nY : NearT .full (accErr ε Bd (k + d1.length * truncs a hm)) adB (sv side (fun i j => H i j - blkSum (tv side tr T) x0 d1 i j)) Y := by
            refine nearT_of y2 fun n hn => hn.2 ⟨rfl, rfl⟩ W Bd k H h1 h2 fun i hi j hj => ?_
            refine le_trans ?_ (hdom i hi j hj)
            exact le_add_of_nonneg_right (sum_nonneg fun _ _ => mul_nonneg (norm_nonneg _) (norm_nonneg _))
          have nY' := z6 W Bd _ _ h1 nY (by
            intro i hi j hj
            refine le_trans ?_ (hdom i hi j hj)
            refine add_le_add ?_ (le_refl _)
            exact (norm_sub_le _ _).trans (add_le_add (le_refl _) (norm_blkSum_le _ _ _ _ _)))
          have := (nY' V hV).prop
          rw [List.length_append, List.length_singleton]
          refine NearP.congr (by rw [show k + (d1.length + 1) * truncs a hm = k + d1.length * truncs a hm + truncs a hm by ring]; exact this) fun i j _ => ?_
          have : ∀ i j, H i j - blkSum (tv side tr T) x0 d1 i j - ∑ l ∈ Ico q.off q.fin, tv side tr T i l * x l j =
              H i j - blkSum (tv side tr T) x0 (d1 ++ [q]) i j := by
            intro i j
            rw [blkSum_append, blkSum_single, sum_congr rfl fun l hl => by rw [hxq l hl j]]
            ring
          cases side with
          | L => exact this i j
          | R => exact this j i) z3 z4 z5 (fun i k hik => if_neg hik)
        (fun p' _ r' _ n hne hn => ⟨fun hc => hn.1 hc, fun hc => absurd hc hne⟩)
      have hne : p.ceq q = false := by
        by_contra hc
        have := (ceq_iff cl.tiles cl.pos hp hq).1 (by simpa using hc)
        subst this
        exact after_asymm hb hb
      exact ⟨s', by rw [triStep_off hne hb b1 w1]; exact e1, x', e2, fun i k hik => (if_neg hik).trans (i2 i k hik)⟩)
  obtain ⟨s', e1, x', e2, e3⟩ := key
  rw [List.nil_append] at e2
  exact ⟨s', x', by rw [List.foldlM_map]; exact e1, e2, e3⟩

end TriCtx
end tri
end Htool
