import Verif.HLinTriAcc2

/-! # Accuracy of triangular solves with hierarchical right-hand sides: the solve -/

namespace Htool
open Finset

section tri
variable {G 𝕜 : Type*} [RCLike 𝕜] [DecidableEq 𝕜] {E : LinOps 𝕜} {ε : ℝ} {a hm : ℕ}
variable {u : UploType} {unit : Bool} {m : Mask} {ad adB : ClusterTree G → ClusterTree G → Prop} {T : ℕ → ℕ → 𝕜}

/-- Residual of the rows `p` of the systems `r` after the clusters `done` and `p` are solved, `k` truncations having been made before and `K` during the solve. -/
def Res (ε : ℝ) (K : ℕ) (side : Side) (tr : Trans) (adB : ClusterTree G → ClusterTree G → Prop) (T : ℕ → ℕ → 𝕜) (B0 : FTree G 𝕜)
    (d : List (ClusterTree G)) (p r : ClusterTree G) (x : ℕ → ℕ → 𝕜) : Prop :=
  ∀ (W : ℕ → ℕ → ℝ) (Bd : ℝ) (k : ℕ) (H : ℕ → ℕ → 𝕜), Maj W Bd → NearT .full (accErr ε Bd k) adB (sv side H) B0 →
    (∀ i ∈ Ico p.off p.fin, ∀ j ∈ Ico r.off r.fin, ‖H i j‖ + blkSum (fun i l => ‖tv side tr T i l‖) (fun l j => ‖x l j‖) d i j ≤ sv side W i j) →
    ∀ i ∈ Ico p.off p.fin, ∀ j ∈ Ico r.off r.fin, ‖blkSum (tv side tr T) x d i j - H i j‖ ≤ accErr ε Bd (k + K)

omit [DecidableEq 𝕜] in
theorem Res.congr {K : ℕ} {side : Side} {tr : Trans} {B0 : FTree G 𝕜} {d : List (ClusterTree G)} {p r : ClusterTree G} {x x' : ℕ → ℕ → 𝕜}
    (h : Res ε K side tr adB T B0 d p r x) (hx : ∀ q ∈ d, ∀ l ∈ Ico q.off q.fin, ∀ j ∈ Ico r.off r.fin, x' l j = x l j) :
    Res ε K side tr adB T B0 d p r x' := by
  intro W Bd k H h1 h2 h3 i hi j hj
  have e : ∀ i, blkSum (tv side tr T) x' d i j = blkSum (tv side tr T) x d i j := fun i => blkSum_congr fun q hq l hl => hx q hq l hl j hj
  rw [e]
  refine h W Bd k H h1 h2 (fun i hi j hj => ?_) i hi j hj
  refine le_trans (le_of_eq ?_) (h3 i hi j hj)
  congr 1
  exact blkSum_congr fun q hq l hl => by rw [hx q hq l hl j hj]

namespace TriCtx
variable {n K : ℕ} {bad : Bool} {side : Side} {tr : Trans} {A B0 : FTree G 𝕜}

omit [DecidableEq 𝕜] in
theorem disj (h : TriCtx a hm n bad side tr u unit m ad T A B0) {fw : Bool} {p q : ClusterTree G} (hp : p ∈ clList bad A.label.t)
    (hq : q ∈ clList bad A.label.t) (hb : after fw p q = true) {i : ℕ} (hi : i ∈ Ico q.off q.fin) : i ∉ Ico p.off p.fin := by
  have cl := clL_of h.okA h.topA bad
  intro hi'
  rw [mem_Ico] at hi hi'
  rw [after_iff] at hb
  have f1 := fun hh => after_fin cl.tiles cl.pos hp hq hh
  have f2 := fun hh => after_fin cl.tiles cl.pos hq hp hh
  cases hfw' : fw <;> rw [hfw'] at hb <;> simp only [Bool.false_eq_true, if_false, if_true] at hb <;> have := f1 <;> have := f2 <;> omega

/-- One cluster, one column block. -/
theorem inner (hE : E.Acc ε) (hε : 0 ≤ ε) (h : TriCtx a hm n bad side tr u unit m ad T A B0) {f : ℕ} (hf : n ≤ f)
    {rec : FTree G 𝕜 → FTree G 𝕜 → Option (FTree G 𝕜)} (hrec : RecOK ε K a hm n side tr u unit m ad adB T rec) {done rest : List (ClusterTree G)}
    {p r : ClusterTree G} (hol : ordered (fwS side u tr) (clList bad A.label.t) = done ++ p :: rest) (hr : r ∈ clList bad (B0.oth side))
    {und : ClusterTree G → ClusterTree G → Prop} (hund : und p r) {s : FTree G 𝕜} {x0 : ℕ → ℕ → 𝕜}
    (hx : HHQ side adB bad B0 (fun p' r' n => und p' r' → Fam ε (truncs a hm) side tr adB T B0 [] 0 p' r' n) s x0) :
    ∃ s' x', ((ordered (fwS side u tr) (clList bad A.label.t)).map (fun q => (p, r, q))).foldlM (triStep E side rec f (fwS side u tr) tr A) s = some s' ∧
      HHQ side adB bad B0 (fun p' r' n => und p' r' ∧ ¬ (p' = p ∧ r' = r) → Fam ε (truncs a hm) side tr adB T B0 [] 0 p' r' n) s' x' ∧
      (∀ i k, ¬ (i ∈ Ico p.off p.fin ∧ k ∈ Ico r.off r.fin) → x' i k = x0 i k) ∧
      Res ε (done.length * truncs a hm + K) side tr adB T B0 (done ++ [p]) p r x' := by
  have cl := clL_of h.okA h.topA bad
  have mem : ∀ {q}, q ∈ done ++ p :: rest → q ∈ clList bad A.label.t := fun {q} hq => by rw [← hol] at hq; exact ordered_mem.1 hq
  have hp : p ∈ clList bad A.label.t := mem (by simp)
  have pw := ordered_pairwise cl.tiles cl.pos (fwS side u tr)
  rw [hol, List.pairwise_append, List.pairwise_cons] at pw
  have m1 : ∀ q ∈ done, q ∈ clList bad A.label.t ∧ after (fwS side u tr) p q = true := fun q hq => ⟨mem (by simp [hq]), pw.2.2 q hq p (by simp)⟩
  have m2 : ∀ q ∈ rest, q ∈ clList bad A.label.t ∧ after (fwS side u tr) q p = true := fun q hq => ⟨mem (by simp [hq]), pw.2.1.1 q hq⟩
  obtain ⟨s1, x1, e1, r1, f1⟩ := h.updates (adB := adB) hE hε hf (rec := rec) hp hr m1 hund hx
  obtain ⟨X, b1, b2, b3, b4, b5, b6, b7⟩ := h.tri.diag h.topA h.badA (Or.inr h.hier) hp
  obtain ⟨Y, y1, y2, y3, y4, y5, y6, y7, y8, y9⟩ := r1.focus h.topT h.topS h.badB (p := p) (r := r) (by rw [h.own]; exact hp) hr
  have rY : Rep .full adB (sv side x1) Y := Shape.imp y2 fun _ _ h => h.1
  have hlt : X.ht + Y.ht ≤ n := by
    have := h.hts
    rcases h.cases with h | h | h
    · have := b6 (Or.inl h); omega
    · have := b6 (Or.inr h); omega
    · have := y6 (Or.inr h); omega
  have hm1 := h.hmA
  have hm2 := h.hmB
  obtain ⟨Y', xx, z1, z2, z3, z4, z5, z6⟩ := hrec X Y (sv side x1) hlt (by omega) (by omega)
    (by rw [b3]; exact h.arA.desc (clList_desc h.okA h.topA hp)) (by rw [y4]; exact h.arO.desc (clList_desc h.okO h.topO hr)) b2 rY
    (by rw [b3]; exact top_of_rank b7) (by rw [y4]; exact top_of_rank y8) (by rw [y3, b3]) (Or.inr (by rw [y4]; exact y8))
  let x' : ℕ → ℕ → 𝕜 := fun i k => if i ∈ Ico p.off p.fin ∧ k ∈ Ico r.off r.fin then xx i k else x1 i k
  have hrep : Rep .full adB (sv side x') Y' := by
    refine Rep.congr z2 fun i j hij _ => ?_
    have hij' : Y.label.Has i j := by unfold FNode.Has at hij ⊢; rw [← z3, ← z4]; exact hij
    cases side with
    | L =>
      have := (has_side .L Y i j).1 hij'
      rw [y3, y4] at this
      exact (if_pos this).symm
    | R =>
      have := (has_side .R Y j i).1 hij'
      rw [y3, y4] at this
      exact (if_pos this).symm
  obtain ⟨s2, e2, e3⟩ := y9 (rec X) (fun p' r' n => und p' r' ∧ ¬ (p' = p ∧ r' = r) → Fam ε (truncs a hm) side tr adB T B0 [] 0 p' r' n) x' Y' z1
    (Shape.imp hrep fun Z _ hZ => ⟨hZ, fun _ hc => absurd ⟨rfl, rfl⟩ hc.2⟩) z3 z4 z5 (fun i k hik => if_neg hik)
    (fun p' _ r' _ n hne hn => hn.1)
  have skips : ∀ (l : List (ClusterTree G)), (∀ q ∈ l, q ∈ clList bad A.label.t ∧ after (fwS side u tr) q p = true) →
      (l.map (fun q => (p, r, q))).foldlM (triStep E side rec f (fwS side u tr) tr A) s2 = some s2 := by
    intro l
    induction l with
    | nil => intro _; rfl
    | cons q l ih =>
      intro hd
      obtain ⟨hq, hb⟩ := hd q (by simp)
      have hna : after (fwS side u tr) p q = false := by
        by_contra hc
        exact after_asymm hb (by simpa using hc)
      have hne' : p.ceq q = false := by
        by_contra hc
        have := (ceq_iff cl.tiles cl.pos hp hq).1 (by simpa using hc)
        subst this
        rw [hb] at hna; simp at hna
      rw [List.map_cons, List.foldlM_cons, triStep_skip hne' hna]
      exact ih fun y hy => hd y (by simp [hy])
  have hxd : ∀ q ∈ done, ∀ l ∈ Ico q.off q.fin, ∀ k, x' l k = x0 l k := fun q hq l hl k => by
    have hn : ¬ (l ∈ Ico p.off p.fin ∧ k ∈ Ico r.off r.fin) := fun hc => h.disj hp (m1 q hq).1 (m1 q hq).2 hl hc.1
    exact (if_neg hn).trans (f1 l k hn)
  refine ⟨s2, x', ?_, e3, fun i k hik => (if_neg hik).trans (f1 i k hik), ?_⟩
  · rw [hol, List.map_append, List.map_cons, List.foldlM_append, e1]
    show List.foldlM _ s1 _ = _
    rw [List.foldlM_cons, triStep_diag b1, e2]
    exact skips rest m2
  · intro W Bd k H h1 h2 h3 i hi j hj
    have hb1 : ∀ i j, blkSum (tv side tr T) x' done i j = blkSum (tv side tr T) x0 done i j := fun i j => blkSum_congr fun q hq l hl => hxd q hq l hl j
    have hb2 : ∀ i j, blkSum (fun i l => ‖tv side tr T i l‖) (fun l j => ‖x' l j‖) done i j =
        blkSum (fun i l => ‖tv side tr T i l‖) (fun l j => ‖x0 l j‖) done i j :=
      fun i j => blkSum_congr fun q hq l hl => by rw [hxd q hq l hl j]
    have hxx : ∀ l ∈ Ico p.off p.fin, ∀ j ∈ Ico r.off r.fin, x' l j = xx l j := fun l hl j hj => if_pos ⟨hl, hj⟩
    have nY : NearT .full (accErr ε Bd (k + done.length * truncs a hm)) adB (sv side (fun i j => H i j - blkSum (tv side tr T) x0 done i j)) Y := by
      refine nearT_of y2 fun n hn => hn.2 ⟨rfl, rfl⟩ W Bd k H h1 h2 fun i hi j hj => ?_
      refine le_trans ?_ (h3 i hi j hj)
      rw [blkSum_append, blkSum_single, hb2, ← add_assoc]
      exact le_add_of_nonneg_right (sum_nonneg fun _ _ => mul_nonneg (norm_nonneg _) (norm_nonneg _))
    have v := z6 W Bd _ _ h1 nY (by
      rw [b3, y4]
      intro i hi j hj
      refine le_trans ?_ (h3 i hi j hj)
      rw [blkSum_append, blkSum_single, hb2, ← add_assoc]
      refine add_le_add ((norm_sub_le _ _).trans (add_le_add (le_refl _) (norm_blkSum_le _ _ _ _ _))) (le_of_eq ?_)
      exact sum_congr rfl fun l hl => by rw [hxx l hl j hj]) i (by rw [b3]; exact hi) j (by rw [y4]; exact hj)
    rw [b3] at v
    rw [blkSum_append, blkSum_single, hb1, sum_congr rfl fun l hl => by rw [hxx l hl j hj], ← Nat.add_assoc]
    refine le_trans (le_of_eq ?_) v
    congr 1
    ring

/-- One cluster, all column blocks. -/
theorem row (hE : E.Acc ε) (hε : 0 ≤ ε) (h : TriCtx a hm n bad side tr u unit m ad T A B0) {f : ℕ} (hf : n ≤ f)
    {rec : FTree G 𝕜 → FTree G 𝕜 → Option (FTree G 𝕜)} (hrec : RecOK ε K a hm n side tr u unit m ad adB T rec) {done rest : List (ClusterTree G)}
    {p : ClusterTree G} (hol : ordered (fwS side u tr) (clList bad A.label.t) = done ++ p :: rest) :
    ∀ (cs : List (ClusterTree G)), (∀ r ∈ cs, r ∈ clList bad (B0.oth side)) →
      cs.Pairwise (fun r r' => ∀ k, ¬ (k ∈ Ico r.off r.fin ∧ k ∈ Ico r'.off r'.fin)) →
      ∀ (und : ClusterTree G → ClusterTree G → Prop), (∀ r ∈ cs, und p r) → ∀ (s : FTree G 𝕜) (x0 : ℕ → ℕ → 𝕜),
      HHQ side adB bad B0 (fun p' r' n => und p' r' → Fam ε (truncs a hm) side tr adB T B0 [] 0 p' r' n) s x0 →
    ∃ s' x', (cs.flatMap (fun r => (ordered (fwS side u tr) (clList bad A.label.t)).map (fun q => (p, r, q)))).foldlM
        (triStep E side rec f (fwS side u tr) tr A) s = some s' ∧
      HHQ side adB bad B0 (fun p' r' n => und p' r' ∧ ¬ (p' = p ∧ r' ∈ cs) → Fam ε (truncs a hm) side tr adB T B0 [] 0 p' r' n) s' x' ∧
      (∀ i k, i ∉ Ico p.off p.fin → x' i k = x0 i k) ∧ (∀ i k, (∀ r ∈ cs, k ∉ Ico r.off r.fin) → x' i k = x0 i k) ∧
      ∀ r ∈ cs, Res ε (done.length * truncs a hm + K) side tr adB T B0 (done ++ [p]) p r x'
  | [], _, _, und, _, s, x0, hx => ⟨s, x0, rfl, hx.mono fun p' _ r' _ n hn hc => hn hc.1, fun _ _ _ => rfl, fun _ _ _ => rfl, by simp⟩
  | r :: cs, hc, hpw, und, hu, s, x0, hx => by
    rw [List.pairwise_cons] at hpw
    obtain ⟨s1, x1, e1, r1, f1, v1⟩ := h.inner hE hε hf hrec hol (hc r (by simp)) (hu r (by simp)) hx
    have hne : ∀ r' ∈ cs, r' ≠ r := by
      rintro r' hr' rfl
      have co := clL_of h.okO h.topO bad
      have := co.pos r' (hc r' (by simp))
      exact hpw.1 r' hr' r'.off ⟨by rw [mem_Ico]; unfold ClusterTree.fin; omega, by rw [mem_Ico]; unfold ClusterTree.fin; omega⟩
    obtain ⟨s2, x2, e2, r2, f2, g2, v2⟩ := row hE hε h hf hrec hol cs (fun y hy => hc y (by simp [hy])) hpw.2 _
      (fun r' hr' => ⟨hu r' (by simp [hr']), fun hcc => hne r' hr' hcc.2⟩) s1 x1 r1
    refine ⟨s2, x2, ?_, r2.mono fun p' _ r' _ n hn hcc => hn ⟨⟨hcc.1, fun e => hcc.2 ⟨e.1, by simp [e.2]⟩⟩, fun e => hcc.2 ⟨e.1, by simp [e.2]⟩⟩,
      fun i k hik => (f2 i k hik).trans (f1 i k fun hcc => hik hcc.1),
      fun i k hk => (g2 i k fun r' hr' => hk r' (by simp [hr'])).trans (f1 i k fun hcc => hk r (by simp) hcc.2), fun r' hr' => ?_⟩
    · rw [List.flatMap_cons, List.foldlM_append, e1]; exact e2
    · rcases List.mem_cons.1 hr' with rfl | hr'
      · exact v1.congr fun q _ l _ j hj => g2 l j fun r'' hr'' hj' => hpw.1 r'' hr'' j ⟨hj, hj'⟩
      · exact v2 r' hr'

/-- **Block substitution.** Residual of every block of the solution. -/
theorem solve (hE : E.Acc ε) (hε : 0 ≤ ε) (h : TriCtx a hm n bad side tr u unit m ad T A B0) {f : ℕ} (hf : n ≤ f)
    {rec : FTree G 𝕜 → FTree G 𝕜 → Option (FTree G 𝕜)} (hrec : RecOK ε K a hm n side tr u unit m ad adB T rec) {x : ℕ → ℕ → 𝕜}
    (hB : Rep .full adB (sv side x) B0) (hBh : B0.isHier = true) :
    ∃ B' x', (triples (ordered (fwS side u tr) (clList bad A.label.t)) (ordered (fwS side u tr) (clList bad (B0.oth side)))
        (ordered (fwS side u tr) (clList bad A.label.t))).foldlM (triStep E side rec f (fwS side u tr) tr A) B0 = some B' ∧
      Rep .full adB (sv side x') B' ∧ B'.label.t = B0.label.t ∧ B'.label.s = B0.label.s ∧ B'.ht ≤ B0.ht ∧
      ∀ d p rest, ordered (fwS side u tr) (clList bad A.label.t) = d ++ p :: rest → ∀ r ∈ clList bad (B0.oth side),
        Res ε (d.length * truncs a hm + K) side tr adB T B0 (d ++ [p]) p r x' := by
  have cl := clL_of h.okA h.topA bad
  have co := clL_of h.okO h.topO bad
  set cols := ordered (fwS side u tr) (clList bad (B0.oth side)) with hcols
  set ol := ordered (fwS side u tr) (clList bad A.label.t) with hol
  have cpw : cols.Pairwise (fun r r' => ∀ k, ¬ (k ∈ Ico r.off r.fin ∧ k ∈ Ico r'.off r'.fin)) := by
    refine (ordered_pairwise co.tiles co.pos (fwS side u tr)).imp_of_mem fun {q p} hq hp hb i hi => ?_
    rw [ordered_mem] at hq hp
    rw [mem_Ico, mem_Ico] at hi
    rw [after_iff] at hb
    have f1 := fun hh => after_fin co.tiles co.pos hp hq hh
    have f2 := fun hh => after_fin co.tiles co.pos hq hp hh
    cases hfw' : fwS side u tr <;> rw [hfw'] at hb <;> simp only [Bool.false_eq_true, if_false, if_true] at hb <;> have := f1 <;> have := f2 <;> omega
  have key : ∀ (rest done : List (ClusterTree G)), ol = done ++ rest → ∀ s x,
      HHQ side adB bad B0 (fun p' r' n => p' ∈ rest → Fam ε (truncs a hm) side tr adB T B0 [] 0 p' r' n) s x →
      (∀ d p d2, done = d ++ p :: d2 → ∀ r ∈ clList bad (B0.oth side), Res ε (d.length * truncs a hm + K) side tr adB T B0 (d ++ [p]) p r x) →
      ∃ s' x', (rest.flatMap (fun p => cols.flatMap (fun r => ol.map (fun q => (p, r, q))))).foldlM
          (triStep E side rec f (fwS side u tr) tr A) s = some s' ∧ HHQ side adB bad B0 (fun _ _ _ => True) s' x' ∧
        ∀ d p d2, ol = d ++ p :: d2 → ∀ r ∈ clList bad (B0.oth side), Res ε (d.length * truncs a hm + K) side tr adB T B0 (d ++ [p]) p r x' := by
    intro rest
    induction rest with
    | nil =>
      intro done hd s x hx hI
      rw [List.append_nil] at hd
      rw [hd]
      exact ⟨s, x, rfl, hx.mono fun _ _ _ _ _ _ => trivial, hI⟩
    | cons p rest ih =>
      intro done hd s x hx hI
      have pw := ordered_pairwise cl.tiles cl.pos (fwS side u tr)
      rw [← hol, hd, List.pairwise_append, List.pairwise_cons] at pw
      have mem : ∀ {q}, q ∈ done ++ p :: rest → q ∈ clList bad A.label.t := fun {q} hq => by rw [← hd] at hq; exact ordered_mem.1 hq
      obtain ⟨s1, x1, e1, r1, f1, -, v1⟩ := h.row hE hε hf hrec hd cols (fun r hr => ordered_mem.1 hr) cpw (fun p' _ => p' ∈ p :: rest) (by simp) s x hx
      have hpr : p ∉ rest := fun hp => after_asymm (pw.2.1.1 p hp) (pw.2.1.1 p hp)
      obtain ⟨s2, x2, e2, r2, v2⟩ := ih (done ++ [p]) (by rw [hd]; simp) s1 x1
        (r1.mono fun p' _ r' _ n hn hp' => hn ⟨by simp [hp'], fun hc => hpr (hc.1 ▸ hp')⟩) (by
          intro d q d2 hdd r hr
          rcases List.eq_nil_or_concat d2 with rfl | ⟨d3, y, rfl⟩
          · have := List.append_inj' hdd rfl
            obtain ⟨rfl, hq⟩ := this
            obtain rfl : p = q := by simpa using hq
            exact v1 r (ordered_mem.2 hr)
          · rw [List.concat_eq_append, ← List.cons_append, ← List.append_assoc] at hdd
            obtain ⟨hdone, -⟩ := List.append_inj' hdd rfl
            refine (hI d q d3 hdone r hr).congr fun q' hq' l hl j _ => f1 l j ?_
            have hq'' : q' ∈ done := by
              rw [hdone]
              rcases List.mem_append.1 hq' with hh | hh
              · simp [hh]
              · rw [List.mem_singleton.1 hh]; simp
            exact h.disj (mem (by simp)) (mem (by simp [hq''])) (pw.2.2 q' hq'' p (by simp)) hl)
      refine ⟨s2, x2, ?_, r2, v2⟩
      rw [List.flatMap_cons, List.foldlM_append, e1]; exact e2
  have h0 : HHQ side adB bad B0 (fun p' r' n => p' ∈ ol → Fam ε (truncs a hm) side tr adB T B0 [] 0 p' r' n) B0 x := by
    refine ⟨?_, rfl, rfl, Nat.le_refl _, Or.inr hBh⟩
    intro V hV
    have bV := hB V hV
    refine ⟨⟨bV.prop, fun _ p' _ q' _ _ _ => ?_⟩, bV.clT, bV.clS, bV.leaf, bV.split⟩
    have g : ∀ p' r', Fam ε (truncs a hm) side tr adB T B0 [] 0 p' r' V.label := by
      intro p' r' W Bd k H h1 h2 _
      have := (h2 V hV).prop
      simpa [blkSum] using this
    cases side with
    | L => exact fun _ => g p' q'
    | R => exact fun _ => g q' p'
  obtain ⟨s', x', e, r, v⟩ := key ol [] rfl B0 x h0 (fun d p d2 hd => by simp at hd)
  exact ⟨s', x', e, Shape.imp r.rep fun _ _ hh => hh.1, r.t, r.s, r.ht, v⟩

end TriCtx

/-- **Triangular solves with hierarchical right-hand sides, with inexact compression.** The solve compresses only in products into blocks of the right-hand side; the
residual is that of `n * (a * truncs a hm)` truncations more than the right-hand side. -/
theorem triHH_near (hE : E.Acc ε) (hε : 0 ≤ ε) (hT : TrsmOK E) (side : Side) (tr : Trans) :
    ∀ (f n : ℕ), n ≤ f → RecOK ε (n * (a * truncs a hm)) a hm n side tr u unit m ad adB T (triHH E f side u tr unit 1) := by
  intro f
  induction f with
  | zero =>
    intro n hn A B MB h1
    have := Tree.ht_pos A
    omega
  | succ f ih =>
    intro n hn A B MB h1 h2 h3 a1 a2 hA hB tA tO hown hrk
    by_cases hh : A.isHier = false ∨ B.isHier = false
    · obtain ⟨B', X, e1, e2, e3, e4, e5, e6⟩ := triHH_leaf hE.real hT side tr f A B MB (by omega) hh hA hB tA tO hown hrk
      refine ⟨B', sv side X, e1, by rw [sv_sv]; exact e2, e3, e4, e5, fun W Bd k H w1 w2 _ i hi j hj => ?_⟩
      rw [e6 i hi j hj, one_mul]
      refine le_trans ?_ (accErr_mono hε w1.nonneg (Nat.le_add_right k _))
      have hc := (has_side side B i j).2 ⟨by rw [hown]; exact hi, hj⟩
      cases side with
      | L => exact hB.entry_near w2 hc
      | R => exact hB.entry_near w2 hc
    · rw [not_or, Bool.not_eq_false, Bool.not_eq_false] at hh
      obtain ⟨hAh, hBh⟩ := hh
      have hdA := isHier_iff.1 hAh
      have hdB := isHier_iff.1 hBh
      have bOK := Shape.self hB
      obtain ⟨n, rfl⟩ : ∃ m, n = m + 1 := ⟨n - 1, by have := Tree.ht_pos A; omega⟩
      have ctx : TriCtx a hm n (A.bad || B.bad) side tr u unit m ad T A B := by
        refine ⟨hA, hAh, tA, ?_, ?_, hown, ?_, hA.shape.self.clT, ?_, ?_, ?_, a1, a2, h2, h3, h1⟩
        · cases side with
          | L => have : B.label.t = A.label.t := hown; rw [this]; exact tA
          | R => exact tO
        · cases side with
          | L => exact tO
          | R => have : B.label.s = A.label.t := hown; rw [this]; exact tA
        · cases side; exacts [bOK.clS, bOK.clT]
        · intro h; rw [h]; rfl
        · intro h; rw [h]; simp
        · cases A.bad <;> cases B.bad <;> simp
      obtain ⟨B', x', e1, e2, e3, e4, e5, e6⟩ := ctx.solve hE hε (show n ≤ f by omega) (ih n (by omega)) (x := sv side MB) (by rw [sv_sv]; exact hB) hBh
      refine ⟨B', x', ?_, e2, e3, e4, e5, ?_⟩
      · rw [triHH]
        simp only [if_true, hdA, hdB]
        cases side with
        | L =>
          simp only [if_true]
          rw [(hA.label_t tr).1, (hA.label_t tr).2]
          exact e1
        | R =>
          simp only [reduceCtorEq, if_false]
          rw [(hA.label_t tr).1, (hA.label_t tr).2]
          exact e1
      · intro W Bd k H w1 w2 w3 i hi j hj
        have cl := clL_of ctx.okA ctx.topA (A.bad || B.bad)
        have co := clL_of ctx.okO ctx.topO (A.bad || B.bad)
        obtain ⟨p, hp, hip⟩ := cl.cover hi
        obtain ⟨r, hr, hjr⟩ := co.cover hj
        obtain ⟨d, d2, hd⟩ := List.append_of_mem ((ordered_mem (fw := fwS side u tr)).2 hp)
        have pw := ordered_pairwise cl.tiles cl.pos (fwS side u tr)
        have tiles := fun (V x : ℕ → ℕ → 𝕜) i j => blkSum_tiles (V := V) (x := x) cl.tiles (fwS side u tr) i j
        have tilesR := fun (V x : ℕ → ℕ → ℝ) i j => blkSum_tiles (V := V) (x := x) cl.tiles (fwS side u tr) i j
        rw [hd] at tiles tilesR pw
        rw [List.pairwise_append, List.pairwise_cons] at pw
        have dl : d.length * truncs a hm + n * (a * truncs a hm) ≤ (n + 1) * (a * truncs a hm) := by
          have h4 := a1.clList (ClusterTree.Desc.refl _) (A.bad || B.bad)
          have h5 : (ordered (fwS side u tr) (clList (A.bad || B.bad) A.label.t)).length = (clList (A.bad || B.bad) A.label.t).length := by
            unfold ordered; split_ifs <;> simp
          rw [hd, List.length_append] at h5
          have : d.length * truncs a hm ≤ a * truncs a hm := Nat.mul_le_mul_right _ (by omega)
          rw [Nat.succ_mul]; omega
        have v := e6 d p d2 hd r hr W Bd k H w1 w2 (fun i hi j hj => ?_) i hip j hjr
        · rw [← tiles (tv side tr T) x' i j, show d ++ p :: d2 = (d ++ [p]) ++ d2 by simp, blkSum_append]
          have z : blkSum (tv side tr T) x' d2 i j = 0 := by
            unfold blkSum
            refine List.sum_eq_zero fun y hy => ?_
            obtain ⟨q, hq, rfl⟩ := List.mem_map.1 hy
            refine sum_eq_zero fun l hl => ?_
            have hq' : q ∈ clList (A.bad || B.bad) A.label.t := ordered_mem.1 (show q ∈ ordered (fwS side u tr) _ by rw [hd]; simp [hq])
            rw [hA.zero_side tA ctx.badA (Or.inr hAh) side tr hq' hp (pw.2.1.1 q hq) hip hl, zero_mul]
          rw [z, add_zero]
          exact v.trans (accErr_mono hε w1.nonneg (by omega))
        · have b1 := cl.bounds hp
          have b2 := co.bounds hr
          refine le_trans ?_ (w3 i (by rw [mem_Ico] at hi ⊢; omega) j (by rw [mem_Ico] at hj ⊢; omega))
          rw [← tilesR (fun i l => ‖tv side tr T i l‖) (fun l j => ‖x' l j‖) i j, show d ++ p :: d2 = (d ++ [p]) ++ d2 by simp, blkSum_append (l' := d2)]
          exact add_le_add (le_refl _) (le_add_of_nonneg_right (blkSum_norm_nonneg _ _ _ _ _))

end tri
end Htool
