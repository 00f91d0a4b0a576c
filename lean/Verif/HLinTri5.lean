import Verif.HLinTri4

/-! # Triangular solves with hierarchical right-hand sides -/

namespace Htool
variable {G R : Type*}
open Finset

section tri
variable [CommRing R] [StarRing R] [DecidableEq R] {E : LinOps R}
variable {u : UploType} {unit : Bool} {m : Mask} {ad adB : ClusterTree G → ClusterTree G → Prop} {T : ℕ → ℕ → R}

omit [CommRing R] [StarRing R] [DecidableEq R] in
/-- The cluster of the unknowns of a right-hand side. -/
def FTree.own (side : Side) (B : FTree G R) : ClusterTree G := if side = .L then B.label.t else B.label.s

omit [CommRing R] [StarRing R] [DecidableEq R] in
/-- The cluster numbering the systems. -/
def FTree.oth (side : Side) (B : FTree G R) : ClusterTree G := if side = .L then B.label.s else B.label.t

omit [CommRing R] [StarRing R] [DecidableEq R] in
/-- Block of unknowns `p`, systems `r`. -/
def getB (side : Side) (p r : ClusterTree G) (B : FTree G R) : Option (FTree G R) := if side = .L then getBlock p r B else getBlock r p B

omit [CommRing R] [StarRing R] [DecidableEq R] in
/-- Update of that block. -/
def updB (side : Side) (p r : ClusterTree G) (g : FTree G R → Option (FTree G R)) (B : FTree G R) : Option (FTree G R) :=
  if side = .L then updSub p r g B else updSub r p g B

/-- The product of an update. -/
def prodS (E : LinOps R) (side : Side) (f : ℕ) (tr : Trans) (Ac Bc : FTree G R) : FTree G R → Option (FTree G R) :=
  if side = .L then hhH E f tr .N (-1) Ac Bc 1 else hhH E f .N tr (-1) Bc Ac 1

/-- One pass of the loops, either side. -/
def triStep (E : LinOps R) (side : Side) (rec : FTree G R → FTree G R → Option (FTree G R)) (f : ℕ) (fw : Bool) (tr : Trans) (A B : FTree G R)
    (x : ClusterTree G × ClusterTree G × ClusterTree G) : Option (FTree G R) :=
  if side = .L then triRowStep E rec f fw tr A B x else triColStep E rec f fw tr A B x

theorem triStep_diag {side : Side} {rec : FTree G R → FTree G R → Option (FTree G R)} {f : ℕ} {fw : Bool} {tr : Trans} {A B : FTree G R}
    {p r : ClusterTree G} {X : FTree G R} (h : getBlock p p A = some X) :
    triStep E side rec f fw tr A B (p, r, p) = updB side p r (rec X) B := by
  have hp : p.ceq p = true := by simp [ClusterTree.ceq]
  have ho : getOp tr p p A = some X := by unfold getOp; rw [h]; simp
  cases side with
  | L =>
    show triRowStep E rec f fw tr A B (p, r, p) = updSub p r (rec X) B
    unfold triRowStep
    simp only [hp, if_true, ho]
  | R =>
    show triColStep E rec f fw tr A B (p, r, p) = updSub r p (rec X) B
    unfold triColStep
    simp only [hp, if_true, ho]

theorem triStep_off {side : Side} {rec : FTree G R → FTree G R → Option (FTree G R)} {f : ℕ} {fw : Bool} {tr : Trans} {A B : FTree G R}
    {p q r : ClusterTree G} (hne : p.ceq q = false) (ha : after fw p q = true) {X Y : FTree G R} (hX : getSide side tr p q A = some X)
    (hY : getB side q r B = some Y) : triStep E side rec f fw tr A B (p, r, q) = updB side p r (prodS E side f tr X Y) B := by
  cases side with
  | L =>
    have h1 : getOp tr p q A = some X := hX
    have h2 : getBlock q r B = some Y := hY
    show triRowStep E rec f fw tr A B (p, r, q) = _
    unfold triRowStep
    simp only [hne, Bool.false_eq_true, if_false, ha, if_true, h1, h2]
    rfl
  | R =>
    have h1 : getOp tr q p A = some X := hX
    have h2 : getBlock r q B = some Y := hY
    show triColStep E rec f fw tr A B (p, r, q) = _
    unfold triColStep
    simp only [hne, Bool.false_eq_true, if_false, ha, if_true, h1, h2]
    rfl

theorem triStep_skip {side : Side} {rec : FTree G R → FTree G R → Option (FTree G R)} {f : ℕ} {fw : Bool} {tr : Trans} {A B : FTree G R}
    {p q r : ClusterTree G} (hne : p.ceq q = false) (ha : after fw p q = false) : triStep E side rec f fw tr A B (p, r, q) = some B := by
  cases side with
  | L =>
    show triRowStep E rec f fw tr A B (p, r, q) = _
    unfold triRowStep
    simp only [hne, Bool.false_eq_true, if_false, ha]
  | R =>
    show triColStep E rec f fw tr A B (p, r, q) = _
    unfold triColStep
    simp only [hne, Bool.false_eq_true, if_false, ha]

omit [CommRing R] [StarRing R] [DecidableEq R] in
theorem sv_sv (side : Side) (X : ℕ → ℕ → R) : sv side (sv side X) = X := by cases side <;> rfl

omit [CommRing R] [StarRing R] [DecidableEq R] in
/-- Entries of a block, by unknown and system. -/
theorem has_side (side : Side) (B : FTree G R) (l k : ℕ) :
    (if side = .L then B.label.Has l k else B.label.Has k l) ↔ l ∈ Ico (B.own side).off (B.own side).fin ∧ k ∈ Ico (B.oth side).off (B.oth side).fin := by
  cases side with
  | L => simp [FNode.Has, FTree.own, FTree.oth, mem_Ico]
  | R => simp [FNode.Has, FTree.own, FTree.oth, mem_Ico]; tauto

/-- The state of the loops. -/
structure HHState (side : Side) (adB : ClusterTree G → ClusterTree G → Prop) (bad : Bool) (B0 B : FTree G R) (x : ℕ → ℕ → R) : Prop where
  rep : Rep .full adB (sv side x) B
  t : B.label.t = B0.label.t
  s : B.label.s = B0.label.s
  ht : B.ht ≤ B0.ht
  hier : bad = true ∨ B.isHier = true

theorem HHState.focus {side : Side} {bad : Bool} {B0 B : FTree G R} {x : ℕ → ℕ → R} (h : HHState side adB bad B0 B x) (t1 : B0.label.t.Top)
    (t2 : B0.label.s.Top) (hb : B0.bad = true → bad = true) {p r : ClusterTree G} (hp : p ∈ clList bad (B0.own side))
    (hr : r ∈ clList bad (B0.oth side)) :
    ∃ X, getB side p r B = some X ∧ Rep .full adB (sv side x) X ∧ X.own side = p ∧ X.oth side = r ∧ X.ht ≤ B0.ht ∧
      (bad = false ∨ B0.bad = true → X.ht < B0.ht) ∧ 0 ≤ p.rk ∧ 0 ≤ r.rk ∧
      ∀ (g : FTree G R → Option (FTree G R)) (x' : ℕ → ℕ → R) (X' : FTree G R), g X = some X' → Rep .full adB (sv side x') X' →
        X'.label.t = X.label.t → X'.label.s = X.label.s → X'.ht ≤ X.ht →
        (∀ i k, ¬ (i ∈ Ico p.off p.fin ∧ k ∈ Ico r.off r.fin) → x' i k = x i k) →
        ∃ B', updB side p r g B = some B' ∧ HHState side adB bad B0 B' x' := by
  have hbB : B.bad = B0.bad := by unfold FTree.bad; rw [h.t, h.s]
  have b := Shape.self h.rep
  have go : ∀ (p' q' : ClusterTree G), p' ∈ clList bad B.label.t → q' ∈ clList bad B.label.s → _ :=
    fun p' q' hp' hq' => Shape.focus h.rep (by rw [h.t]; exact t1) (by rw [h.s]; exact t2) (bad := bad) (by rw [hbB]; exact hb) h.hier hp' hq' rfl
  have rkt : ∀ p' ∈ clList bad B.label.t, 0 ≤ p'.rk := fun p' hp' =>
    clList_rank b.clT (by rw [h.t]; exact t1) (fun hr => hb (by rw [← hbB]; exact bad_iff.2 (Or.inl hr))) hp'
  have rks : ∀ p' ∈ clList bad B.label.s, 0 ≤ p'.rk := fun p' hp' =>
    clList_rank b.clS (by rw [h.s]; exact t2) (fun hr => hb (by rw [← hbB]; exact bad_iff.2 (Or.inr hr))) hp'
  cases side with
  | L =>
    have hp' : p ∈ clList bad B.label.t := by rw [h.t]; exact hp
    have hr' : r ∈ clList bad B.label.s := by rw [h.s]; exact hr
    obtain ⟨X, s1, s2, s3, s4, s5, s6, s7⟩ := go p r hp' hr'
    refine ⟨X, s6, s1, s2, s3, Nat.le_trans s4 h.ht, fun hh => Nat.lt_of_lt_of_le (s5 (by rw [hbB]; exact hh)) h.ht, rkt p hp', rks r hr', ?_⟩
    intro g x' X' g1 g2 g3 g4 g5 g6
    obtain ⟨B', e1, e2, e3, e4, e5, e6⟩ := s7 g (RepP .full adB (sv .L x')) X' g1 g2 (g3.trans s2) (g4.trans s3) g5 (by
      intro n hn hd
      refine RepP.outside (M := sv .L x) (x := X.label) (fun i j hij _ => ?_) hn hd
      refine (g6 i j fun hc => hij ?_).symm
      unfold FNode.Has; rw [s2, s3]
      exact ⟨mem_Ico.1 hc.1, mem_Ico.1 hc.2⟩)
    exact ⟨B', e1, ⟨e2, e3.trans h.t, e4.trans h.s, Nat.le_trans e5 h.ht, e6⟩⟩
  | R =>
    have hp' : p ∈ clList bad B.label.s := by rw [h.s]; exact hp
    have hr' : r ∈ clList bad B.label.t := by rw [h.t]; exact hr
    obtain ⟨X, s1, s2, s3, s4, s5, s6, s7⟩ := go r p hr' hp'
    refine ⟨X, s6, s1, s3, s2, Nat.le_trans s4 h.ht, fun hh => Nat.lt_of_lt_of_le (s5 (by rw [hbB]; exact hh)) h.ht, rks p hp', rkt r hr', ?_⟩
    intro g x' X' g1 g2 g3 g4 g5 g6
    obtain ⟨B', e1, e2, e3, e4, e5, e6⟩ := s7 g (RepP .full adB (sv .R x')) X' g1 g2 (g3.trans s2) (g4.trans s3) g5 (by
      intro n hn hd
      refine RepP.outside (M := sv .R x) (x := X.label) (fun i j hij _ => ?_) hn hd
      refine (g6 j i fun hc => hij ?_).symm
      unfold FNode.Has; rw [s2, s3]
      exact ⟨mem_Ico.1 hc.2, mem_Ico.1 hc.1⟩)
    exact ⟨B', e1, ⟨e2, e3.trans h.t, e4.trans h.s, Nat.le_trans e5 h.ht, e6⟩⟩

/-- The update of a block by a product. -/
theorem prodS_spec (hE : E.Exact) (side : Side) (f : ℕ) (tr : Trans) {p q r : ClusterTree G} {Ac Bc C : FTree G R} {x : ℕ → ℕ → R}
    (hf : Ac.ht + Bc.ht ≤ f) (hA : Rep .full ad T Ac) (hB : Rep .full adB (sv side x) Bc) (hC : Rep .full adB (sv side x) C)
    (a1 : (if side = .L then Ac.outC tr else Ac.inC tr) = p) (a2 : (if side = .L then Ac.inC tr else Ac.outC tr) = q)
    (ra : 0 ≤ Ac.label.t.rk ∧ 0 ≤ Ac.label.s.rk) (b1 : Bc.own side = q) (b2 : Bc.oth side = r) (rq : 0 ≤ q.rk) (rr : 0 ≤ r.rk)
    (c1 : C.own side = p) (c2 : C.oth side = r) :
    ∃ C', prodS E side f tr Ac Bc C = some C' ∧
      Rep .full adB (sv side (fun i k => x i k - ∑ l ∈ Ico q.off q.fin, tv side tr T i l * x l k)) C' ∧
      C'.label.t = C.label.t ∧ C'.label.s = C.label.s ∧ C'.ht ≤ C.ht := by
  cases side with
  | L =>
    have b1' : Bc.label.t = q := b1
    have b2' : Bc.label.s = r := b2
    obtain ⟨C', e1, e2, e3, e4, e5⟩ := hhH_spec (m := .full) hE tr .N (-1) f Ac Bc C (sv .L x) 1 hf hA hB hC (Or.inl ra.1) (Or.inl ra.2)
      (Or.inl (by rw [b1']; exact rq)) (Or.inl (by rw [b2']; exact rr)) (a2.trans b1'.symm) (Eq.trans c1 a1.symm) (Eq.trans c2 b2'.symm) rfl (Or.inl rfl)
    refine ⟨C', e1, Rep.congr e2 fun i j _ _ => ?_, e3, e4, e5⟩
    have a2' : Ac.inC tr = q := a2
    rw [a2']
    show -1 * ∑ l ∈ Ico q.off q.fin, opE tr T i l * x l j + 1 * x i j = x i j - ∑ l ∈ Ico q.off q.fin, opE tr T i l * x l j
    ring
  | R =>
    have b1' : Bc.label.s = q := b1
    have b2' : Bc.label.t = r := b2
    have a2' : Ac.outC tr = q := a2
    obtain ⟨C', e1, e2, e3, e4, e5⟩ := hhH_spec (m := .full) hE .N tr (-1) f Bc Ac C (sv .R x) 1 (by omega) hB hA hC
      (Or.inl (by rw [b2']; exact rr)) (Or.inl (by rw [b1']; exact rq)) (Or.inl ra.1) (Or.inl ra.2)
      (Eq.trans b1' a2'.symm) (Eq.trans c2 b2'.symm) (Eq.trans c1 a1.symm) rfl (Or.inl rfl)
    refine ⟨C', e1, Rep.congr e2 fun i j _ _ => ?_, e3, e4, e5⟩
    have b1'' : Bc.inC .N = q := b1
    rw [b1'']
    show -1 * ∑ l ∈ Ico q.off q.fin, x l i * opE tr T l j + 1 * x j i = x j i - ∑ l ∈ Ico q.off q.fin, opE tr T l j * x l i
    rw [Finset.sum_congr rfl fun l _ => mul_comm (x l i) (opE tr T l j)]
    ring

/-- `X` solves the triangular system with right-hand side `alpha MB`, for the unknowns `c` and the systems `d`. -/
def Solved (side : Side) (tr : Trans) (T : ℕ → ℕ → R) (c d : ClusterTree G) (α : R) (X MB : ℕ → ℕ → R) : Prop :=
  ∀ i ∈ Ico c.off c.fin, ∀ k ∈ Ico d.off d.fin, ∑ l ∈ Ico c.off c.fin, tv side tr T i l * sv side X l k = α * sv side MB i k

theorem solved_of_local {side : Side} {tr : Trans} {B : FTree G R} {MB F X : ℕ → ℕ → R} {c : ClusterTree G} (hc : B.own side = c)
    (hF : ∀ i j, B.label.Has i j → MB i j = F (i - B.label.t.off) (j - B.label.s.off))
    (hloc : ∀ i < c.sz, ∀ k < (B.oth side).sz, ∑ l ∈ range c.sz, tv side tr T (c.off + i) (c.off + l) * sv side X l k = 1 * sv side F i k) :
    Solved side tr T c (B.oth side) 1 (fun i j => X (i - B.label.t.off) (j - B.label.s.off)) MB := by
  intro i hi k hk
  have hi' := mem_Ico.1 hi
  have hk' := mem_Ico.1 hk
  have i1 : i - c.off < c.sz := by unfold ClusterTree.fin at hi'; omega
  have k1 : k - (B.oth side).off < (B.oth side).sz := by unfold ClusterTree.fin at hk'; omega
  have v := hloc _ i1 _ k1
  have hm : sv side MB i k = sv side F (i - c.off) (k - (B.oth side).off) := by
    have hh := (has_side side B i k).2 ⟨by rw [hc]; exact hi, hk⟩
    subst hc
    cases side with
    | L => exact hF i k hh
    | R => exact hF k i hh
  rw [hm, ← v, show c.fin = c.off + c.sz from rfl, sum_Ico_range]
  refine Finset.sum_congr rfl fun l _ => ?_
  rw [show c.off + (i - c.off) = i by omega]
  congr 1
  subst hc
  cases side with
  | L => show X (B.label.t.off + l - B.label.t.off) (k - B.label.s.off) = X l (k - B.label.s.off); rw [Nat.add_sub_cancel_left]
  | R => show X (k - B.label.t.off) (B.label.s.off + l - B.label.s.off) = X (k - B.label.t.off) l; rw [Nat.add_sub_cancel_left]

omit [DecidableEq R] in
theorem dense_tv {A : FTree G R} (hA : TriRep u unit m ad T A) {D : Mat R} {piv : List ℕ}
    (h : ∀ i j, A.label.Has i j → T i j = ptri u unit D.get piv (i - A.label.t.off) (j - A.label.t.off)) (side : Side) (tr : Trans) {i l : ℕ}
    (hi : i < A.label.t.sz) (hl : l < A.label.t.sz) :
    tv side tr T (A.label.t.off + i) (A.label.t.off + l) = tv side tr (ptri u unit D.get piv) i l := by
  have ht : ∀ a b, a < A.label.t.sz → b < A.label.t.sz → T (A.label.t.off + a) (A.label.t.off + b) = ptri u unit D.get piv a b := fun a b ha hb => by
    have := h (A.label.t.off + a) (A.label.t.off + b) (by
      unfold FNode.Has; rw [← hA.square]
      unfold ClusterTree.fin; omega)
    simpa using this
  rw [tv_eq, tv_eq, ht _ _ hi hl, ht _ _ hl hi]

omit [StarRing R] [DecidableEq R] in
theorem Rep.setDense {B : FTree G R} {M : ℕ → ℕ → R} (h : Rep .full adB M B) (hB : B.isHier = false) {D : Mat R} {piv : List ℕ}
    (h1 : D.nr = B.label.t.sz) (h2 : D.nc = B.label.s.sz) :
    Rep .full adB (fun i j => D.get (i - B.label.t.off) (j - B.label.s.off)) (B.setData (.dense D piv)) := by
  refine Shape.setLeaf h hB (by simp) ⟨(Shape.self h).prop.1, ?_⟩
  exact ⟨h1, h2, fun i j _ _ => rfl⟩

omit [StarRing R] [DecidableEq R] in
theorem Rep.setLR {B : FTree G R} {M : ℕ → ℕ → R} (h : Rep .full adB M B) {L L' : LR R} (hB : B.label.data = .lowRank L)
    (h0 : L'.WF) (h1 : L'.nr = B.label.t.sz) (h2 : L'.nc = B.label.s.sz) :
    Rep .full adB (fun i j => L'.entry (i - B.label.t.off) (j - B.label.s.off)) (B.setData (.lowRank L')) := by
  have hp := (Shape.self h).prop
  have hh : B.isHier = false := by unfold FTree.isHier; rw [hB]
  have h2' := hp.2
  rw [hB] at h2'
  exact Shape.setLeaf h hh (by simp) ⟨hp.1, h2'.1, h0, h1, h2, fun i j _ _ => rfl⟩

/-- **Triangular solve with a hierarchical right-hand side.** -/
theorem triHH_spec (hEx : E.Exact) (hE : TrsmOK E) (side : Side) (tr : Trans) :
    ∀ (f : ℕ) (A B : FTree G R) (MB : ℕ → ℕ → R) (α : R), A.ht + B.ht ≤ f → TriRep u unit m ad T A → Rep .full adB MB B → A.label.t.Top →
      (B.oth side).Top → B.own side = A.label.t → (A.isHier = true ∨ 0 ≤ (B.oth side).rk) →
      ∃ B' X, triHH E f side u tr unit α A B = some B' ∧ Rep .full adB X B' ∧ B'.label.t = B.label.t ∧ B'.label.s = B.label.s ∧ B'.ht ≤ B.ht ∧
        (∀ i j, ¬ B.label.Has i j → X i j = MB i j) ∧ Solved side tr T A.label.t (B.oth side) α X MB := by
  intro f
  induction f with
  | zero => intro A B MB α hf; have := Tree.ht_pos A; omega
  | succ f ih =>
    intro A B MB α hf hA hB tA tO hown hrk
    -- it is enough to solve with the scaled right-hand side
    suffices H : ∀ (Bs : FTree G R) (Ms : ℕ → ℕ → R), Rep .full adB Ms Bs → Bs.label.t = B.label.t → Bs.label.s = B.label.s → Bs.ht = B.ht →
        (if α = 1 then B else fscale α B) = Bs →
        ∃ B' X, triHH E (f + 1) side u tr unit α A B = some B' ∧ Rep .full adB X B' ∧ B'.label.t = B.label.t ∧ B'.label.s = B.label.s ∧
          B'.ht ≤ B.ht ∧ Solved side tr T A.label.t (B.oth side) 1 X Ms by
      have main : ∃ B' X, triHH E (f + 1) side u tr unit α A B = some B' ∧ Rep .full adB X B' ∧ B'.label.t = B.label.t ∧ B'.label.s = B.label.s ∧
          B'.ht ≤ B.ht ∧ Solved side tr T A.label.t (B.oth side) 1 X (fun i j => α * MB i j) := by
        by_cases hα : α = 1
        · exact H B _ (Rep.congr hB fun i j _ _ => by rw [hα, one_mul]) rfl rfl rfl (if_pos hα)
        · exact H (fscale α B) _ (Rep.fscale hB α) (fscale_same α B).1 (fscale_same α B).2.1 (fscale_same α B).2.2.1 (if_neg hα)
      obtain ⟨B', X, e1, e2, e3, e4, e5, e6⟩ := main
      refine ⟨B', fun i j => if B.label.Has i j then X i j else MB i j, e1, Rep.congr e2 fun i j hij _ => ?_, e3, e4, e5,
        fun i j hij => if_neg hij, fun i hi k hk => ?_⟩
      · have : B.label.Has i j := by unfold FNode.Has at hij ⊢; rw [← e3, ← e4]; exact hij
        rw [if_pos this]
      · have v := e6 i hi k hk
        rw [one_mul] at v
        have hv : sv side (fun i j => α * MB i j) i k = α * sv side MB i k := by cases side <;> rfl
        rw [← hv, ← v]
        refine Finset.sum_congr rfl fun l hl => ?_
        congr 1
        have hh := (has_side side B l k).2 ⟨by rw [hown]; exact hl, hk⟩
        cases side with
        | L => exact if_pos hh
        | R => exact if_pos hh
    intro Bs Ms hBs l1 l2 l3 hsc
    have own' : Bs.own side = A.label.t := by rw [← hown]; unfold FTree.own; rw [l1, l2]
    have oth' : Bs.oth side = B.oth side := by unfold FTree.oth; rw [l1, l2]
    rw [← oth'] at tO hrk ⊢
    have ownsz : (Bs.label.t.sz, Bs.label.s.sz) = (if side = .L then (A.label.t.sz, (Bs.oth side).sz) else ((Bs.oth side).sz, A.label.t.sz)) := by
      rw [← own']; cases side <;> rfl
    have bOK := Shape.self hBs
    have hF : ∀ (F : ℕ → ℕ → R), (∀ i < Bs.label.t.sz, ∀ j < Bs.label.s.sz, F i j = rel Ms Bs.label.t.off Bs.label.s.off i j) →
        ∀ i j, Bs.label.Has i j → Ms i j = F (i - Bs.label.t.off) (j - Bs.label.s.off) := by
      intro F hF i j hij
      have h := hij.sub
      rw [hF _ h.1 _ h.2]
      unfold rel
      have := hij.1.1
      have := hij.2.1
      congr 1 <;> omega
    rw [triHH, hsc]
    cases hAh : A.isHier with
    | false =>
      obtain ⟨D, piv, hdA, a1, a2, a3, a4, a5⟩ := hA.dense_of_leaf hAh
      have hO : 0 ≤ (Bs.oth side).rk := by
        rcases hrk with h | h
        · rw [hAh] at h; simp at h
        · exact h
      have hAr := (hA.shape.self.leaf hAh).2.1
      have hloc : ∀ {W : Mat R} {mu : ℕ}, (W.nr, W.nc) = (if side = .L then (A.label.t.sz, mu) else (mu, A.label.t.sz)) →
          (triDense E side u tr unit 1 D piv W).nr = W.nr ∧ (triDense E side u tr unit 1 D piv W).nc = W.nc ∧
          ∀ i < A.label.t.sz, ∀ k < mu, ∑ l ∈ range A.label.t.sz, tv side tr T (A.label.t.off + i) (A.label.t.off + l) *
            sv side (triDense E side u tr unit 1 D piv W).get l k = 1 * sv side W.get i k := by
        intro W mu hW
        obtain ⟨t1, t2, t3⟩ := triDense_spec hE side hA.up tr unit 1 a1 a2 a3 a4 hW
        refine ⟨t1, t2, fun i hi k hk => ?_⟩
        rw [← t3 i hi k hk]
        refine Finset.sum_congr rfl fun l hl => ?_
        rw [dense_tv hA a5 side tr hi (mem_range.1 hl)]
      cases hdB : Bs.label.data with
      | dense D' piv' =>
        simp only [hdA, hdB]
        have hd := Rep.dense_is hBs hdB
        obtain ⟨t1, t2, t3⟩ := hloc (W := D') (mu := (Bs.oth side).sz) (by rw [hd.1, hd.2.1]; exact ownsz)
        refine ⟨_, fun i j => (triDense E side u tr unit 1 D piv D').get (i - Bs.label.t.off) (j - Bs.label.s.off), rfl,
          Rep.setDense hBs (by unfold FTree.isHier; rw [hdB]) (t1.trans hd.1) (t2.trans hd.2.1), ?_, ?_, ?_, ?_⟩
        · rw [setData_label]; exact l1
        · rw [setData_label]; exact l2
        · rw [setData_ht]; exact Nat.le_of_eq l3
        · exact solved_of_local own' (hF D'.get hd.2.2) t3
      | lowRank L =>
        have hL := Rep.lowRank_is hBs hdB
        simp only [hdA, hdB]
        cases side with
        | L =>
          simp only [if_true]
          obtain ⟨t1, t2, t3⟩ := hloc (W := L.U) (mu := L.U.nc) (by
            have : L.U.nr = A.label.t.sz := by rw [← own']; exact hL.2.1
            rw [this]; rfl)
          refine ⟨_, fun i j => LR.entry ⟨triDense E .L u tr unit 1 D piv L.U, L.V⟩ (i - Bs.label.t.off) (j - Bs.label.s.off), rfl,
            Rep.setLR hBs hdB (by unfold LR.WF; rw [t2]; exact hL.1) (t1.trans hL.2.1) hL.2.2.1, ?_, ?_, ?_, ?_⟩
          · rw [setData_label]; exact l1
          · rw [setData_label]; exact l2
          · rw [setData_ht]; exact Nat.le_of_eq l3
          · refine solved_of_local own' (hF L.entry hL.2.2.2) fun i hi k hk => ?_
            show ∑ l ∈ range A.label.t.sz, _ * LR.entry ⟨_, L.V⟩ l k = 1 * L.entry i k
            unfold LR.entry
            have hr : LR.rank ⟨triDense E .L u tr unit 1 D piv L.U, L.V⟩ = L.U.nc := t2
            rw [hr, show L.rank = L.U.nc from rfl, one_mul]
            simp only [Finset.mul_sum]
            rw [Finset.sum_comm]
            refine Finset.sum_congr rfl fun j hj => ?_
            have := t3 i hi j (mem_range.1 hj)
            rw [one_mul] at this
            rw [show L.U.get i j = sv Side.L L.U.get i j from rfl, ← this, Finset.sum_mul]
            refine Finset.sum_congr rfl fun l _ => ?_
            rw [mul_assoc]; rfl
        | R =>
          simp only [reduceCtorEq, if_false]
          obtain ⟨t1, t2, t3⟩ := hloc (W := L.V) (mu := L.V.nr) (by
            have : L.V.nc = A.label.t.sz := by rw [← own']; exact hL.2.2.1
            rw [this]; rfl)
          refine ⟨_, fun i j => LR.entry ⟨L.U, triDense E .R u tr unit 1 D piv L.V⟩ (i - Bs.label.t.off) (j - Bs.label.s.off), rfl,
            Rep.setLR hBs hdB (by unfold LR.WF; rw [t1]; exact hL.1) hL.2.1 (t2.trans hL.2.2.1), ?_, ?_, ?_, ?_⟩
          · rw [setData_label]; exact l1
          · rw [setData_label]; exact l2
          · rw [setData_ht]; exact Nat.le_of_eq l3
          · refine solved_of_local own' (hF L.entry hL.2.2.2) fun i hi k hk => ?_
            show ∑ l ∈ range A.label.t.sz, _ * LR.entry ⟨L.U, _⟩ k l = 1 * L.entry k i
            unfold LR.entry
            have hr : LR.rank ⟨L.U, triDense E .R u tr unit 1 D piv L.V⟩ = L.U.nc := rfl
            rw [hr, show L.rank = L.U.nc from rfl, one_mul]
            simp only [Finset.mul_sum]
            rw [Finset.sum_comm]
            refine Finset.sum_congr rfl fun j hj => ?_
            have := t3 i hi j (by rw [hL.1]; exact mem_range.1 hj)
            rw [one_mul] at this
            rw [show L.V.get j i = sv Side.R L.V.get i j from rfl, ← this, Finset.mul_sum]
            refine Finset.sum_congr rfl fun l _ => ?_
            show _ * (_ * (triDense E .R u tr unit 1 D piv L.V).get j l) = _ * (_ * (triDense E .R u tr unit 1 D piv L.V).get j l)
            ring
      | hier =>
        simp only [hdA, hdB]
        have hd := Rep.toDense_is hBs
        obtain ⟨t1, t2, t3⟩ := hloc (W := Bs.dense) (mu := (Bs.oth side).sz) (by rw [hd.1, hd.2.1]; exact ownsz)
        have hranks : 0 ≤ Bs.label.t.rk ∧ 0 ≤ Bs.label.s.rk := by
          have h1 : 0 ≤ (Bs.own side).rk := by rw [own']; exact hAr
          cases side with
          | L => exact ⟨h1, hO⟩
          | R => exact ⟨hO, h1⟩
        refine ⟨_, fun i j => (triDense E side u tr unit 1 D piv Bs.dense).get (i - Bs.label.t.off) (j - Bs.label.s.off), rfl, ?_, l1, l2, ?_, ?_⟩
        · intro Y hY
          rw [pre_leaf rfl, List.mem_singleton] at hY
          subst hY
          refine ⟨⟨bOK.prop.1, t1.trans hd.1, t2.trans hd.2.1, fun i j _ _ => rfl⟩, bOK.clT, bOK.clS, fun _ => ⟨rfl, hranks⟩, fun hh => ?_⟩
          simp [FTree.isHier] at hh
        · have := Tree.ht_pos B
          rw [Tree.ht, Tree.htL]; omega
        · exact solved_of_local own' (hF Bs.dense.get hd.2.2) t3
    | true =>
      have hdA := isHier_iff.1 hAh
      cases hdB : Bs.label.data with
      | dense D' piv' =>
        simp only [hdA, hdB]
        have hd := Rep.dense_is hBs hdB
        obtain ⟨X, x1, t1, t2, t3⟩ := triHM_spec hE hEx.real side tr (f + 1) (by omega) hA tA 1 (B := D') (mu := (Bs.oth side).sz)
          (by rw [hd.1, hd.2.1]; exact ownsz)
        rw [x1]
        refine ⟨_, fun i j => X.get (i - Bs.label.t.off) (j - Bs.label.s.off), rfl,
          Rep.setDense hBs (by unfold FTree.isHier; rw [hdB]) (t1.trans hd.1) (t2.trans hd.2.1), ?_, ?_, ?_, ?_⟩
        · rw [setData_label]; exact l1
        · rw [setData_label]; exact l2
        · rw [setData_ht]; exact Nat.le_of_eq l3
        · exact solved_of_local own' (hF D'.get hd.2.2) t3
      | lowRank L =>
        simp only [hdA, hdB]
        have hL := Rep.lowRank_is hBs hdB
        obtain ⟨X, x1, t0, t1, t2, t3⟩ := triHLr_spec hE hEx.real side tr (f + 1) (by omega) hA tA 1 (B := L) (mu := (Bs.oth side).sz) hL.1
          (by rw [hL.2.1, hL.2.2.1]; exact ownsz)
        rw [x1]
        refine ⟨_, fun i j => X.entry (i - Bs.label.t.off) (j - Bs.label.s.off), rfl,
          Rep.setLR hBs hdB t0 (t1.trans hL.2.1) (t2.trans hL.2.2.1), ?_, ?_, ?_, ?_⟩
        · rw [setData_label]; exact l1
        · rw [setData_label]; exact l2
        · rw [setData_ht]; exact Nat.le_of_eq l3
        · exact solved_of_local own' (hF L.entry hL.2.2.2) t3
      | hier =>
        simp only [hdA, hdB]
        set bad := A.bad || Bs.bad with hbad
        set fw := fwS side u tr with hfw
        have hbA : A.bad = true → bad = true := fun h => by rw [hbad, h]; rfl
        have hbB : Bs.bad = true → bad = true := fun h => by rw [hbad, h]; simp
        have hcase : (bad = false) ∨ A.bad = true ∨ Bs.bad = true := by
          rw [hbad]; cases A.bad <;> cases Bs.bad <;> simp
        have oOK : ClOK (Bs.oth side) := by cases side; exacts [bOK.clS, bOK.clT]
        have cl := clL_of hA.shape.self.clT tA bad
        have co := clL_of oOK tO bad
        set L := clList bad A.label.t with hL
        set K := clList bad (Bs.oth side) with hK
        have tBt : Bs.label.t.Top := by
          cases side with
          | L => have : Bs.label.t = A.label.t := own'; rw [this]; exact tA
          | R => exact tO
        have tBs : Bs.label.s.Top := by
          cases side with
          | L => exact tO
          | R => have : Bs.label.s = A.label.t := own'; rw [this]; exact tA
        have hne : ∀ p ∈ L, ∀ q ∈ L, after fw p q = true → p.ceq q = false := by
          intro p hp q hq hb
          by_contra hc
          have := (ceq_iff cl.tiles cl.pos hp hq).1 (by simpa using hc)
          subst this
          rw [after_iff] at hb
          cases fw <;> simp at hb
        have hdis : ∀ {c : ClusterTree G} {l : List (ClusterTree G)}, ClL c l → ∀ q ∈ l, ∀ p ∈ l, after fw p q = true → ∀ i,
            ¬ (i ∈ Ico q.off q.fin ∧ i ∈ Ico p.off p.fin) := by
          intro c l cl q hq p hp hb i hi
          rw [mem_Ico, mem_Ico] at hi
          rw [after_iff] at hb
          have f1 := fun hh => after_fin cl.tiles cl.pos hp hq hh
          have f2 := fun hh => after_fin cl.tiles cl.pos hq hp hh
          cases hfw' : fw <;> rw [hfw'] at hb <;> simp only [Bool.false_eq_true, if_false, if_true] at hb <;> have := f1 <;> have := f2 <;> omega
        have loop : TriLoop (HHState side adB bad Bs) (tv side tr T) (fun q p => after fw p q = true) (ordered fw L) (ordered fw K)
            (fun r k => k ∈ Ico r.off r.fin) (triStep E side (triHH E f side u tr unit 1) f fw tr A) := by
          refine ⟨ordered_pairwise cl.tiles cl.pos fw, ?_, ?_, ?_, ?_, ?_, ?_⟩
          · refine (ordered_pairwise co.tiles co.pos fw).imp_of_mem fun hr hr' ha k hk => ?_
            exact hdis co _ (ordered_mem.1 hr) _ (ordered_mem.1 hr') ha k hk
          · intro q hq p hp hb i hi
            exact hdis cl q (ordered_mem.1 hq) p (ordered_mem.1 hp) hb i hi
          · intro q hq p hp hb i hi l hl
            exact hA.zero_side tA hbA (Or.inr hAh) side tr (ordered_mem.1 hp) (ordered_mem.1 hq) hb hi hl
          · -- diagonal block
            intro p hp r hr s x hx
            rw [ordered_mem] at hp hr
            obtain ⟨X, b1, b2, b3, b4, b5, b6, b7⟩ := hA.diag tA hbA (Or.inr hAh) hp
            obtain ⟨Y, y1, y2, y3, y4, y5, y6, y7, y8, y9⟩ := hx.focus tBt tBs hbB (p := p) (r := r) (by rw [own']; exact hp) hr
            have hlt : X.ht + Y.ht ≤ f := by
              rcases hcase with h | h | h
              · have := b6 (Or.inl h); omega
              · have := b6 (Or.inr h); omega
              · have := y6 (Or.inr h); omega
            obtain ⟨Y', x', z1, z2, z3, z4, z5, z6, z7⟩ := ih X Y (sv side x) 1 hlt b2 y2 (by rw [b3]; exact top_of_rank b7)
              (by rw [y4]; exact top_of_rank y8) (by rw [y3, b3]) (Or.inr (by rw [y4]; exact y8))
            obtain ⟨s', e1, e2⟩ := y9 (triHH E f side u tr unit 1 X) (sv side x') Y' z1 (by rw [sv_sv]; exact z2) z3 z4 z5 (by
              intro i k hik
              have h1 : ¬ (if side = .L then Y.label.Has i k else Y.label.Has k i) := by
                rw [has_side, y3, y4]; exact hik
              have hx2 : sv side (sv side x) i k = x i k := by rw [sv_sv]
              rw [← hx2]
              cases side with
              | L => exact z6 i k h1
              | R => exact z6 k i h1)
            refine ⟨s', sv side x', by rw [triStep_diag b1]; exact e1, e2, ?_, ?_⟩
            · intro i k hik
              have h1 : ¬ (if side = .L then Y.label.Has i k else Y.label.Has k i) := by
                rw [has_side, y3, y4]; exact hik
              have hx2 : sv side (sv side x) i k = x i k := by rw [sv_sv]
              rw [← hx2]
              cases side with
              | L => exact z6 i k h1
              | R => exact z6 k i h1
            · intro i hi k hk
              have v := z7 i (by rw [b3]; exact hi) k (by rw [y4]; exact hk)
              rw [b3, one_mul, sv_sv] at v
              exact v
          · -- off-diagonal block
            intro q hq p hp hb r hr s x hx
            rw [ordered_mem] at hq hp hr
            obtain ⟨X, b1, b2, b3, b4, b5, b6, b7, b8⟩ := hA.off_side tA hbA (Or.inr hAh) side tr hp hq hb
            obtain ⟨Y, y1, y2, y3, y4, y5, y6, y7, y8, y9⟩ := hx.focus tBt tBs hbB (p := p) (r := r) (by rw [own']; exact hp) hr
            obtain ⟨Z, w1, w2, w3, w4, w5, w6, w7, w8, w9⟩ := hx.focus tBt tBs hbB (p := q) (r := r) (by rw [own']; exact hq) hr
            have hlt : X.ht + Z.ht ≤ f := by
              rcases hcase with h | h | h
              · have := b6 (Or.inl h); omega
              · have := b6 (Or.inr h); omega
              · have := w6 (Or.inr h); omega
            obtain ⟨Y', z1, z2, z3, z4, z5⟩ := prodS_spec hEx side f tr hlt b2 w2 y2 b3 b4 ⟨b7, b8⟩ w3 w4 w7 w8 y3 y4
            have hin : ∀ i k, (i ∈ Ico p.off p.fin ∧ k ∈ Ico r.off r.fin) ∨ ¬ (i ∈ Ico p.off p.fin ∧ k ∈ Ico r.off r.fin) := fun i k => em _
            let x' : ℕ → ℕ → R := fun i k => if i ∈ Ico p.off p.fin ∧ k ∈ Ico r.off r.fin then
              x i k - ∑ l ∈ Ico q.off q.fin, tv side tr T i l * x l k else x i k
            have hrep : Rep .full adB (sv side x') Y' := by
              refine Rep.congr z2 fun i j hij _ => ?_
              have hij' : Y.label.Has i j := by unfold FNode.Has at hij ⊢; rw [← z3, ← z4]; exact hij
              cases side with
              | L =>
                have := (has_side .L Y i j).1 hij'
                rw [y3, y4] at this
                exact (if_pos this).symm
              | R =>
                have := (has_side .R Y j i).1 hij'
                rw [y3, y4] at this
                exact (if_pos this).symm
            obtain ⟨s', e1, e2⟩ := y9 (prodS E side f tr X Z) x' Y' z1 hrep z3 z4 z5 (fun i k hik => if_neg hik)
            refine ⟨s', x', ?_, e2, fun i k hik => if_neg hik, fun i hi k hk => if_pos ⟨hi, hk⟩⟩
            rw [triStep_off (hne p hp q hq hb) hb b1 w1]; exact e1
          · intro p hp q hq hb r hr s
            rw [ordered_mem] at hp hq
            have hna : after fw p q = false := by
              by_contra hc
              exact after_asymm hb (by simpa using hc)
            have hne' : p.ceq q = false := by
              by_contra hc
              have := (ceq_iff cl.tiles cl.pos hp hq).1 (by simpa using hc)
              subst this
              rw [hb] at hna; simp at hna
            exact triStep_skip hne' hna
        have hst : HHState side adB bad Bs Bs (sv side Ms) := ⟨by rw [sv_sv]; exact hBs, rfl, rfl, Nat.le_refl _, Or.inr (isHier_iff.2 hdB)⟩
        obtain ⟨B', x', e, hB', sol⟩ := loop.solve hst
        refine ⟨B', sv side x', ?_, hB'.rep, hB'.t.trans l1, hB'.s.trans l2, by rw [← l3]; exact hB'.ht, ?_⟩
        · cases side with
          | L =>
            simp only [if_true]
            rw [(hA.label_t tr).1, (hA.label_t tr).2]
            exact e
          | R =>
            simp only [reduceCtorEq, if_false]
            rw [(hA.label_t tr).1, (hA.label_t tr).2]
            exact e
        · intro i hi k hk
          obtain ⟨p, hp, hip⟩ := cl.cover hi
          obtain ⟨r, hr, hkr⟩ := co.cover hk
          have s1 := sol p (ordered_mem.2 hp) i hip r (ordered_mem.2 hr) k hkr
          rw [blkSum_tiles cl.tiles] at s1
          rw [one_mul, sv_sv]
          exact s1

end tri
end Htool
