import Verif.HLinTri

/-! # Block substitution

The loops shared by the triangular solves, on abstract states: `Rp s x` says that the state `s` holds the unknowns `x` (row `i`, system `k`). -/

namespace Htool
variable {G R : Type*}
open Finset

section subst
variable [CommRing R]

/-- Contribution of the unknowns of some clusters to equation `i` of system `k`. -/
def blkSum (V x : ℕ → ℕ → R) (l : List (ClusterTree G)) (i k : ℕ) : R := (l.map (fun q => ∑ j ∈ Ico q.off q.fin, V i j * x j k)).sum

theorem blkSum_append (V x : ℕ → ℕ → R) (l l' : List (ClusterTree G)) (i k : ℕ) : blkSum V x (l ++ l') i k = blkSum V x l i k + blkSum V x l' i k := by
  unfold blkSum; rw [List.map_append, List.sum_append]

theorem blkSum_single (V x : ℕ → ℕ → R) (q : ClusterTree G) (i k : ℕ) : blkSum V x [q] i k = ∑ j ∈ Ico q.off q.fin, V i j * x j k := by
  simp [blkSum]

theorem blkSum_congr {V x x' : ℕ → ℕ → R} {l : List (ClusterTree G)} {i k : ℕ} (h : ∀ q ∈ l, ∀ j ∈ Ico q.off q.fin, x j k = x' j k) :
    blkSum V x l i k = blkSum V x' l i k := by
  unfold blkSum
  congr 1
  exact List.map_congr_left fun q hq => Finset.sum_congr rfl fun j hj => by rw [h q hq j hj]

theorem blkSum_tiles [StarRing R] {V x : ℕ → ℕ → R} {a b : ℕ} {l : List (ClusterTree G)} (h : Tiles a b (l.map ClusterTree.iv)) (fw : Bool) (i k : ℕ) :
    blkSum V x (ordered fw l) i k = ∑ j ∈ Ico a b, V i j * x j k := by
  rw [sum_Ico_tiles h]
  unfold blkSum ordered
  cases fw with
  | true => rfl
  | false =>
    simp only [Bool.false_eq_true, if_false]
    rw [List.map_reverse, List.sum_reverse]

variable {σ γ : Type*}

/-- What the loops of a triangular solve do on blocks. `Bef q p`: the loop treats `q` before `p`; `K r`: systems of the column block `r`. -/
structure TriLoop (Rp : σ → (ℕ → ℕ → R) → Prop) (V : ℕ → ℕ → R) (Bef : ClusterTree G → ClusterTree G → Prop) (ol : List (ClusterTree G))
    (cols : List γ) (K : γ → ℕ → Prop) (step : σ → ClusterTree G × γ × ClusterTree G → Option σ) : Prop where
  pw : ol.Pairwise Bef
  cpw : cols.Pairwise (fun r r' => ∀ k, ¬ (K r k ∧ K r' k))
  disj : ∀ q ∈ ol, ∀ p ∈ ol, Bef q p → ∀ i, ¬ (i ∈ Ico q.off q.fin ∧ i ∈ Ico p.off p.fin)
  zero : ∀ q ∈ ol, ∀ p ∈ ol, Bef q p → ∀ i ∈ Ico q.off q.fin, ∀ l ∈ Ico p.off p.fin, V i l = 0
  diag : ∀ p ∈ ol, ∀ r ∈ cols, ∀ s x, Rp s x → ∃ s' x', step s (p, r, p) = some s' ∧ Rp s' x' ∧
    (∀ i k, ¬ (i ∈ Ico p.off p.fin ∧ K r k) → x' i k = x i k) ∧
    ∀ i ∈ Ico p.off p.fin, ∀ k, K r k → ∑ l ∈ Ico p.off p.fin, V i l * x' l k = x i k
  off : ∀ q ∈ ol, ∀ p ∈ ol, Bef q p → ∀ r ∈ cols, ∀ s x, Rp s x → ∃ s' x', step s (p, r, q) = some s' ∧ Rp s' x' ∧
    (∀ i k, ¬ (i ∈ Ico p.off p.fin ∧ K r k) → x' i k = x i k) ∧
    ∀ i ∈ Ico p.off p.fin, ∀ k, K r k → x' i k = x i k - ∑ l ∈ Ico q.off q.fin, V i l * x l k
  skip : ∀ p ∈ ol, ∀ q ∈ ol, Bef p q → ∀ r ∈ cols, ∀ s, step s (p, r, q) = some s

namespace TriLoop
variable {Rp : σ → (ℕ → ℕ → R) → Prop} {V : ℕ → ℕ → R} {Bef : ClusterTree G → ClusterTree G → Prop} {ol : List (ClusterTree G)}
  {cols : List γ} {K : γ → ℕ → Prop} {step : σ → ClusterTree G × γ × ClusterTree G → Option σ}

theorem updates (h : TriLoop Rp V Bef ol cols K step) {p : ClusterTree G} (hp : p ∈ ol) {r : γ} (hr : r ∈ cols) :
    ∀ (done : List (ClusterTree G)), (∀ q ∈ done, q ∈ ol ∧ Bef q p) → ∀ s x, Rp s x →
    ∃ s' x', (done.map (fun q => (p, r, q))).foldlM step s = some s' ∧ Rp s' x' ∧
      (∀ i k, ¬ (i ∈ Ico p.off p.fin ∧ K r k) → x' i k = x i k) ∧
      ∀ i ∈ Ico p.off p.fin, ∀ k, K r k → x' i k = x i k - blkSum V x done i k
  | [], _, s, x, hx => ⟨s, x, rfl, hx, fun _ _ _ => rfl, fun i _ k _ => by simp [blkSum]⟩
  | q :: done, hd, s, x, hx => by
    obtain ⟨s1, x1, e1, r1, f1, v1⟩ := h.off q (hd q (by simp)).1 p hp (hd q (by simp)).2 r hr s x hx
    obtain ⟨s2, x2, e2, r2, f2, v2⟩ := updates h hp hr done (fun y hy => hd y (by simp [hy])) s1 x1 r1
    refine ⟨s2, x2, ?_, r2, fun i k hik => (f2 i k hik).trans (f1 i k hik), fun i hi k hk => ?_⟩
    · rw [List.map_cons, List.foldlM_cons, e1]; exact e2
    · rw [v2 i hi k hk, v1 i hi k hk]
      have : blkSum V x1 done i k = blkSum V x done i k := by
        apply blkSum_congr
        intro y hy j hj
        have := h.disj y (hd y (by simp [hy])).1 p hp (hd y (by simp [hy])).2 j
        exact f1 j k fun hc => this ⟨hj, hc.1⟩
      rw [this]
      show _ = _ - blkSum V x ([q] ++ done) i k
      rw [blkSum_append, blkSum_single]
      ring

theorem skips (h : TriLoop Rp V Bef ol cols K step) {p : ClusterTree G} (hp : p ∈ ol) {r : γ} (hr : r ∈ cols) (s : σ) :
    ∀ (rest : List (ClusterTree G)), (∀ q ∈ rest, q ∈ ol ∧ Bef p q) → (rest.map (fun q => (p, r, q))).foldlM step s = some s
  | [], _ => rfl
  | q :: rest, hd => by
    rw [List.map_cons, List.foldlM_cons, h.skip p hp q (hd q (by simp)).1 (hd q (by simp)).2 r hr s]
    exact skips h hp hr s rest fun y hy => hd y (by simp [hy])

/-- One cluster, one column block. -/
theorem inner (h : TriLoop Rp V Bef ol cols K step) {done rest : List (ClusterTree G)} {p : ClusterTree G} (hol : ol = done ++ p :: rest) {r : γ}
    (hr : r ∈ cols) (s : σ) (x : ℕ → ℕ → R) (hx : Rp s x) :
    ∃ s' x', (ol.map (fun q => (p, r, q))).foldlM step s = some s' ∧ Rp s' x' ∧
      (∀ i k, ¬ (i ∈ Ico p.off p.fin ∧ K r k) → x' i k = x i k) ∧
      ∀ i ∈ Ico p.off p.fin, ∀ k, K r k → ∑ l ∈ Ico p.off p.fin, V i l * x' l k = x i k - blkSum V x done i k := by
  have hp : p ∈ ol := by rw [hol]; simp
  have pw := h.pw
  rw [hol, List.pairwise_append, List.pairwise_cons] at pw
  have m1 : ∀ q ∈ done, q ∈ ol ∧ Bef q p := fun q hq => ⟨by rw [hol]; simp [hq], pw.2.2 q hq p (by simp)⟩
  have m2 : ∀ q ∈ rest, q ∈ ol ∧ Bef p q := fun q hq => ⟨by rw [hol]; simp [hq], pw.2.1.1 q hq⟩
  obtain ⟨s1, x1, e1, r1, f1, v1⟩ := h.updates hp hr done m1 s x hx
  obtain ⟨s2, x2, e2, r2, f2, v2⟩ := h.diag p hp r hr s1 x1 r1
  refine ⟨s2, x2, ?_, r2, fun i k hik => (f2 i k hik).trans (f1 i k hik), fun i hi k hk => ?_⟩
  · have : ol.map (fun q => (p, r, q)) = done.map (fun q => (p, r, q)) ++ (p, r, p) :: rest.map (fun q => (p, r, q)) := by
      rw [hol]; simp
    rw [this, List.foldlM_append, e1]
    show List.foldlM step s1 _ = _
    rw [List.foldlM_cons, e2]
    exact h.skips hp hr s2 rest m2
  · rw [v2 i hi k hk, v1 i hi k hk]

/-- One cluster, all column blocks. -/
theorem row (h : TriLoop Rp V Bef ol cols K step) {done rest : List (ClusterTree G)} {p : ClusterTree G} (hol : ol = done ++ p :: rest) :
    ∀ (cs : List γ), (∀ r ∈ cs, r ∈ cols) → cs.Pairwise (fun r r' => ∀ k, ¬ (K r k ∧ K r' k)) → ∀ s x, Rp s x →
    ∃ s' x', (cs.flatMap (fun r => ol.map (fun q => (p, r, q)))).foldlM step s = some s' ∧ Rp s' x' ∧
      (∀ i k, ¬ (i ∈ Ico p.off p.fin ∧ ∃ r ∈ cs, K r k) → x' i k = x i k) ∧
      ∀ i ∈ Ico p.off p.fin, ∀ k, (∃ r ∈ cs, K r k) → ∑ l ∈ Ico p.off p.fin, V i l * x' l k = x i k - blkSum V x done i k
  | [], _, _, s, x, hx => ⟨s, x, rfl, hx, fun _ _ _ => rfl, fun i _ k hk => by obtain ⟨r, hr, _⟩ := hk; simp at hr⟩
  | r :: cs, hc, hpw, s, x, hx => by
    rw [List.pairwise_cons] at hpw
    obtain ⟨s1, x1, e1, r1, f1, v1⟩ := h.inner hol (hc r (by simp)) s x hx
    obtain ⟨s2, x2, e2, r2, f2, v2⟩ := row h hol cs (fun y hy => hc y (by simp [hy])) hpw.2 s1 x1 r1
    have hp : p ∈ ol := by rw [hol]; simp
    have pw := h.pw
    rw [hol, List.pairwise_append, List.pairwise_cons] at pw
    have hb : ∀ i k, blkSum V x1 done i k = blkSum V x done i k := fun i k => by
      apply blkSum_congr
      intro y hy j hj
      have := h.disj y (by rw [hol]; simp [hy]) p hp (pw.2.2 y hy p (by simp)) j
      exact f1 j k fun hc => this ⟨hj, hc.1⟩
    refine ⟨s2, x2, ?_, r2, fun i k hik => ?_, fun i hi k hk => ?_⟩
    · rw [List.flatMap_cons, List.foldlM_append, e1]; exact e2
    · rw [f2 i k fun hc => hik ⟨hc.1, by obtain ⟨r', a, b⟩ := hc.2; exact ⟨r', by simp [a], b⟩⟩,
        f1 i k fun hc => hik ⟨hc.1, r, by simp, hc.2⟩]
    · by_cases hk2 : ∃ r' ∈ cs, K r' k
      · rw [v2 i hi k hk2, hb, f1 i k fun hc => ?_]
        obtain ⟨r', a, b⟩ := hk2
        exact hpw.1 r' a k ⟨hc.2, b⟩
      · have hk1 : K r k := by
          obtain ⟨r', a, b⟩ := hk
          rcases List.mem_cons.1 a with rfl | a
          · exact b
          · exact absurd ⟨r', a, b⟩ hk2
        rw [← v1 i hi k hk1]
        refine Finset.sum_congr rfl fun l _ => ?_
        rw [f2 l k fun hc => hk2 hc.2]

/-- **Block substitution.** After the loops, the block triangular system is solved, system by system. -/
theorem solve (h : TriLoop Rp V Bef ol cols K step) {s : σ} {b : ℕ → ℕ → R} (hs : Rp s b) :
    ∃ s' x', (ol.flatMap (fun p => cols.flatMap (fun r => ol.map (fun q => (p, r, q))))).foldlM step s = some s' ∧ Rp s' x' ∧
      ∀ p ∈ ol, ∀ i ∈ Ico p.off p.fin, ∀ r ∈ cols, ∀ k, K r k → blkSum V x' ol i k = b i k := by
  have key : ∀ (rest done : List (ClusterTree G)), ol = done ++ rest → ∀ s x, Rp s x →
      (∀ k, (∃ r ∈ cols, K r k) → (∀ q ∈ done, ∀ i ∈ Ico q.off q.fin, blkSum V x done i k = b i k) ∧
        ∀ i, (∀ q ∈ done, i ∉ Ico q.off q.fin) → x i k = b i k) →
      ∃ s' x', (rest.flatMap (fun p => cols.flatMap (fun r => ol.map (fun q => (p, r, q))))).foldlM step s = some s' ∧ Rp s' x' ∧
        ∀ p ∈ ol, ∀ i ∈ Ico p.off p.fin, ∀ k, (∃ r ∈ cols, K r k) → blkSum V x' ol i k = b i k := by
    intro rest
    induction rest with
    | nil =>
      intro done hol s x hx hI
      rw [List.append_nil] at hol
      subst hol
      exact ⟨s, x, rfl, hx, fun p hp i hi k hk => (hI k hk).1 p hp i hi⟩
    | cons p rest ih =>
      intro done hol s x hx hI
      obtain ⟨s1, x1, e1, r1, f1, v1⟩ := h.row hol cols (fun _ hr => hr) h.cpw s x hx
      have hp : p ∈ ol := by rw [hol]; simp
      have pw := h.pw
      rw [hol, List.pairwise_append, List.pairwise_cons] at pw
      have dq : ∀ q ∈ done, q ∈ ol ∧ Bef q p := fun q hq => ⟨by rw [hol]; simp [hq], pw.2.2 q hq p (by simp)⟩
      have hb : ∀ i k, blkSum V x1 done i k = blkSum V x done i k := fun i k => by
        apply blkSum_congr
        intro y hy j hj
        have := h.disj y (dq y hy).1 p hp (dq y hy).2 j
        exact f1 j k fun hc => this ⟨hj, hc.1⟩
      obtain ⟨s2, x2, e2, r2, v2⟩ := ih (done ++ [p]) (by rw [hol]; simp) s1 x1 r1 (by
        intro k hk
        constructor
        · intro q hq i hi
          rw [blkSum_append, blkSum_single, hb]
          rcases List.mem_append.1 hq with hq | hq
          · rw [(hI k hk).1 q hq i hi, Finset.sum_eq_zero, add_zero]
            intro l hl
            rw [h.zero q (dq q hq).1 p hp (dq q hq).2 i hi l hl, zero_mul]
          · rw [List.mem_singleton] at hq
            subst hq
            rw [v1 i hi k hk, (hI k hk).2 i fun y hy hiy => h.disj y (dq y hy).1 q hp (dq y hy).2 i ⟨hiy, hi⟩]
            ring
        · intro i hi
          rw [f1 i k fun hc => hi p (by simp) hc.1, (hI k hk).2 i fun q hq => hi q (by simp [hq])])
      refine ⟨s2, x2, ?_, r2, v2⟩
      rw [List.flatMap_cons, List.foldlM_append, e1]; exact e2
  obtain ⟨s', x', e, r, v⟩ := key ol [] rfl s b hs (fun k _ => ⟨fun q hq => by simp at hq, fun i _ => rfl⟩)
  exact ⟨s', x', e, r, fun p hp i hi r hr k hk => v p hp i hi k ⟨r, hr, hk⟩⟩

end TriLoop
end subst
end Htool
