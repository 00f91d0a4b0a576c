import Verif.Ddm
import Verif.Props.DistributedOps
import Mathlib.Data.List.GetD

/-! # C44-C47: domain decomposition -/

open Finset

namespace Htool

/-! ## C44: numbering of an overlapping subdomain -/

/-- The local numbering the property asks for: the unknowns of the cluster first, in cluster order, then the other ones in the order of the
overlapping subdomain. -/
def ovrOrder (n : ℕ) (c2o : List ℕ) : List ℕ := c2o ++ (List.range n).filter (fun x => x ∉ c2o)

/-- The vectors after the unknowns `L` have been numbered. -/
structure LNB.Inv (o2g L : List ℕ) (s : LNB) : Prop where
  renum : ∀ x, s.renum x = if x ∈ L then (L.idxOf x : ℤ) else -1
  l2g : ∀ k < L.length, s.l2g k = o2g.getD (L.getD k 0) 0

theorem LNB.Inv.snoc {o2g L : List ℕ} {s : LNB} (h : s.Inv o2g L) {x : ℕ} (hx : x ∉ L) (c : ℕ) :
    LNB.Inv o2g (L ++ [x]) ⟨Function.update s.renum x (L.length : ℤ), Function.update s.l2g L.length (o2g.getD x 0), c⟩ := by
  constructor
  · intro y
    by_cases hy : y = x
    · subst hy
      simp only [Function.update_self]
      rw [if_pos (by simp), List.idxOf_append_of_notMem hx]
      simp
    · simp only
      rw [Function.update_of_ne hy, h.renum]
      by_cases hm : y ∈ L
      · rw [if_pos hm, if_pos (by simp [hm]), List.idxOf_append_of_mem hm]
      · rw [if_neg hm, if_neg (by simp [hm, hy])]
  · intro k hk
    simp only [List.length_append, List.length_singleton] at hk
    rcases Nat.lt_or_ge k L.length with h1 | h1
    · simp only
      rw [Function.update_of_ne (by omega), h.l2g k h1]
      congr 1
      simp [List.getD_eq_getElem?_getD, List.getElem?_append_left h1]
    · obtain rfl : k = L.length := by omega
      simp [List.getD_eq_getElem?_getD]

theorem lnbOwn_inv (o2g : List ℕ) {c2o : List ℕ} (hn : c2o.Nodup) : (lnbOwn o2g c2o).Inv o2g c2o := by
  have key : ∀ m ≤ c2o.length, LNB.Inv o2g (c2o.take m) ((List.range m).foldl (fun s i =>
      { s with renum := Function.update s.renum (c2o.getD i 0) (i : ℤ), l2g := Function.update s.l2g i (o2g.getD (c2o.getD i 0) 0) })
      ⟨fun _ => -1, fun _ => 0, 0⟩) := by
    intro m
    induction m with
    | zero => intro _; exact ⟨by simp, by simp⟩
    | succ m ih =>
      intro hm
      rw [List.range_succ, List.foldl_append, List.take_succ_eq_append_getElem (by omega)]
      have hx : c2o[m] ∉ c2o.take m := by
        intro hmem
        obtain ⟨i, hi, he⟩ := List.getElem_of_mem hmem
        rw [List.getElem_take] at he
        have := (List.Nodup.getElem_inj_iff hn).1 he
        rw [List.length_take] at hi
        omega
      have := (ih (by omega)).snoc hx 0
      simp only [List.foldl_cons, List.foldl_nil]
      rw [List.length_take, Nat.min_eq_left (by omega)] at this
      rw [List.getD_eq_getElem _ _ (by omega : m < c2o.length)]
      exact ⟨this.renum, this.l2g⟩
  have := key c2o.length (Nat.le_refl _)
  rwa [List.take_length] at this

theorem lnbOverlap_inv (o2g : List ℕ) {c2o : List ℕ} (hn : c2o.Nodup) :
    (lnbOverlap o2g c2o).Inv o2g (ovrOrder o2g.length c2o) ∧ (lnbOverlap o2g c2o).count = (ovrOrder o2g.length c2o).length := by
  have key : ∀ m, LNB.Inv o2g (ovrOrder m c2o) ((List.range m).foldl (lnbStep o2g) { lnbOwn o2g c2o with count := c2o.length }) ∧ ((List.range m).foldl (lnbStep o2g) { lnbOwn o2g c2o with count := c2o.length }).count = (ovrOrder m c2o).length := by
    intro m
    induction m with
    | zero =>
      have := lnbOwn_inv o2g hn
      simp only [ovrOrder, List.range_zero, List.filter_nil, List.append_nil, List.foldl_nil]
      exact ⟨⟨this.renum, this.l2g⟩, trivial⟩
    | succ m ih =>
      rw [List.range_succ, List.foldl_append]
      simp only [List.foldl_cons, List.foldl_nil]
      set s := (List.range m).foldl (lnbStep o2g) { lnbOwn o2g c2o with count := c2o.length } with hs
      obtain ⟨i1, i2⟩ := ih
      have hmem : m ∈ ovrOrder m c2o ↔ m ∈ c2o := by simp [ovrOrder]
      have e : ovrOrder (m + 1) c2o = if m ∈ c2o then ovrOrder m c2o else ovrOrder m c2o ++ [m] := by
        unfold ovrOrder
        rw [List.range_succ, List.filter_append]
        by_cases h : m ∈ c2o <;> simp [h]
      have hr := i1.renum m
      unfold lnbStep
      by_cases h : m ∈ c2o
      · rw [if_pos (hmem.2 h)] at hr
        rw [if_neg (by rw [hr]; omega), e, if_pos h]
        exact ⟨i1, i2⟩
      · rw [if_neg (fun h' => h (hmem.1 h'))] at hr
        rw [if_pos hr, e, if_neg h, i2]
        exact ⟨i1.snoc (fun h' => h (hmem.1 h')) _, by simp⟩
  exact key o2g.length

theorem ovrOrder_perm {n : ℕ} {c2o : List ℕ} (hn : c2o.Nodup) (hb : ∀ x ∈ c2o, x < n) : (ovrOrder n c2o).Perm (List.range n) := by
  rw [List.perm_ext_iff_of_nodup _ List.nodup_range]
  · intro x
    simp only [ovrOrder, List.mem_append, List.mem_filter, List.mem_range, decide_eq_true_eq]
    by_cases h : x ∈ c2o
    · simp [h, hb x h]
    · simp [h]
  · unfold ovrOrder
    rw [List.nodup_append]
    refine ⟨hn, (List.nodup_range).filter _, ?_⟩
    rintro a ha b hb rfl
    simp [ha] at hb

/-- **C44.** `local_to_global_numbering` lists the unknowns of the overlapping subdomain: first those of the cluster, in cluster order, then
the others, in the order of the subdomain. Every unknown of the subdomain appears exactly once. -/
theorem C44_local_numbering (o2g : List ℕ) {c2o : List ℕ} (hn : c2o.Nodup) (hb : ∀ x ∈ c2o, x < o2g.length) :
    localToGlobal o2g c2o = (ovrOrder o2g.length c2o).map (fun x => o2g.getD x 0) ∧ (localToGlobal o2g c2o).Perm o2g ∧
    (∀ k < c2o.length, (localToGlobal o2g c2o).getD k 0 = o2g.getD (c2o.getD k 0) 0) := by
  have hp := ovrOrder_perm hn hb
  have hl : (ovrOrder o2g.length c2o).length = o2g.length := by rw [hp.length_eq, List.length_range]
  have h1 : localToGlobal o2g c2o = (ovrOrder o2g.length c2o).map (fun x => o2g.getD x 0) := by
    unfold localToGlobal
    apply List.ext_getElem
    · simp [hl]
    · intro k h1 h2
      simp only [List.length_map, List.length_range] at h1
      simp only [List.getElem_map, List.getElem_range]
      rw [(lnbOverlap_inv o2g hn).1.l2g k (by omega), List.getD_eq_getElem _ 0 (by omega : k < (ovrOrder o2g.length c2o).length)]
  refine ⟨h1, ?_, ?_⟩
  · rw [h1]
    refine (hp.map _).trans ?_
    have : (List.range o2g.length).map (fun x => o2g.getD x 0) = o2g := by
      apply List.ext_getElem
      · simp
      · intro k h1 h2
        simp only [List.getElem_map, List.getElem_range]
        exact List.getD_eq_getElem _ _ h2
    rw [this]
  · intro k hk
    have hk' : k < (ovrOrder o2g.length c2o).length := by simp only [ovrOrder, List.length_append]; omega
    rw [h1, List.getD_eq_getElem _ 0 (by simpa using hk'), List.getElem_map]
    congr 1
    rw [List.getD_eq_getElem _ _ hk]
    simp only [ovrOrder]
    rw [List.getElem_append_left hk]

/-- **C44.** The renumbered intersections designate the same unknowns: entry `j` of intersection `i` is a position of the local numbering
holding the global unknown that entry `j` designated before. -/
theorem C44_intersections (o2g : List ℕ) {c2o : List ℕ} (hn : c2o.Nodup) (hb : ∀ x ∈ c2o, x < o2g.length) (inter : List (List ℕ))
    (hi : ∀ I ∈ inter, ∀ x ∈ I, x < o2g.length) :
    List.Forall₂ (List.Forall₂ fun x k => ∃ p < o2g.length, k = (p : ℤ) ∧ (localToGlobal o2g c2o).getD p 0 = o2g.getD x 0) inter
      (localIntersections o2g c2o inter) := by
  have hp := ovrOrder_perm hn hb
  have hl : (ovrOrder o2g.length c2o).length = o2g.length := by rw [hp.length_eq, List.length_range]
  unfold localIntersections
  rw [List.forall₂_map_right_iff]
  refine List.forall₂_same.2 (fun I hI => ?_)
  rw [List.forall₂_map_right_iff]
  refine List.forall₂_same.2 (fun x hx => ?_)
  have hm : x ∈ ovrOrder o2g.length c2o := hp.mem_iff.2 (List.mem_range.2 (hi I hI x hx))
  have hlt : (ovrOrder o2g.length c2o).idxOf x < (ovrOrder o2g.length c2o).length := List.idxOf_lt_length_of_mem hm
  refine ⟨(ovrOrder o2g.length c2o).idxOf x, by omega, ?_, ?_⟩
  · rw [(lnbOverlap_inv o2g hn).1.renum, if_pos hm]
  · rw [(C44_local_numbering o2g hn hb).1, List.getD_eq_getElem _ 0 (by simpa using hlt), List.getElem_map, List.getElem_idxOf]

/-- A subdomain with six unknowns, three of them owned by the cluster. -/
example : localToGlobal [10, 11, 12, 13, 14, 15] [4, 0, 3] = [14, 10, 13, 11, 12, 15] ∧
    localIntersections [10, 11, 12, 13, 14, 15] [4, 0, 3] [[0, 1], [5, 4]] = [[1, 3], [5, 0]] := by decide +kernel

/-! ## The exchange of HPDDM -/

variable {R : Type*} [CommRing R] [StarRing R]

/-- The neighbour lists given to HPDDM describe the unknowns shared by the subdomains: `lab r k` is the global unknown of local unknown `k`
of subdomain `r`. -/
structure Subdomains.OK (X : Subdomains) (P : ℕ) (lab : ℕ → ℕ → ℕ) : Prop where
  inj : ∀ r < P, ∀ k < X.N r, ∀ l < X.N r, lab r k = lab r l → k = l
  nodup : ∀ r < P, ((X.nb r).map Prod.fst).Nodup
  nb : ∀ r < P, ∀ p ∈ X.nb r, p.1 < P ∧ p.1 ≠ r ∧ p.2.Nodup ∧
    ∀ j < p.2.length, p.2.getD j 0 < X.N r ∧ (X.shared p.1 r).getD j 0 < X.N p.1 ∧ lab p.1 ((X.shared p.1 r).getD j 0) = lab r (p.2.getD j 0)
  complete : ∀ r < P, ∀ s < P, r ≠ s → ∀ k < X.N r, ∀ l < X.N s, lab r k = lab s l → ∃ p ∈ X.nb r, p.1 = s ∧ k ∈ p.2

omit [StarRing R] in
theorem foldl_update_add (I : List ℕ) (hI : I.Nodup) (f : ℕ → R) (o : Buf R) (k : ℕ) :
    (List.range I.length).foldl (fun o j => Function.update o (I.getD j 0) (o (I.getD j 0) + f j)) o k =
      o k + if k ∈ I then f (I.idxOf k) else 0 := by
  have key : ∀ m ≤ I.length, (List.range m).foldl (fun o j => Function.update o (I.getD j 0) (o (I.getD j 0) + f j)) o k =
      o k + if I.idxOf k < m then f (I.idxOf k) else 0 := by
    intro m
    induction m with
    | zero => intro _; simp
    | succ m ih =>
      intro hm
      rw [List.range_succ, List.foldl_append]
      simp only [List.foldl_cons, List.foldl_nil]
      have hg : I.getD m 0 = I[m] := List.getD_eq_getElem _ _ (by omega)
      rw [hg]
      have hid : I.idxOf I[m] = m := List.Nodup.idxOf_getElem hI m (by omega)
      by_cases hk : k = I[m]
      · rw [hk, Function.update_self, ← hk, ih (by omega), hk, hid, if_neg (by omega), if_pos (by omega), add_zero]
      · rw [Function.update_of_ne hk, ih (by omega)]
        have hne : I.idxOf k ≠ m := fun h => hk (by
          have := List.getElem_idxOf (x := k) (xs := I) (by omega)
          rw [← this]; simp only [h])
        congr 1
        exact if_congr (by omega) rfl rfl
  rw [key _ (Nat.le_refl _)]
  congr 1
  exact if_congr List.idxOf_lt_length_iff rfl rfl

omit [StarRing R] in
theorem foldl_nb (l : List (ℕ × List ℕ)) (hl : ∀ p ∈ l, p.2.Nodup) (f : ℕ × List ℕ → ℕ → R) (o : Buf R) (k : ℕ) :
    l.foldl (fun o p => (List.range p.2.length).foldl (fun o j => Function.update o (p.2.getD j 0) (o (p.2.getD j 0) + f p j)) o) o k =
      o k + (l.map (fun p => if k ∈ p.2 then f p (p.2.idxOf k) else 0)).sum := by
  induction l generalizing o with
  | nil => simp
  | cons p l ih =>
    simp only [List.foldl_cons, List.map_cons, List.sum_cons]
    rw [ih (fun q hq => hl q (by simp [hq])), foldl_update_add _ (hl p (by simp)) (f p), add_assoc]

omit [StarRing R] in
/-- After an exchange, each copy of an unknown holds the sum of the values of all its copies. -/
theorem Subdomains.OK.exch_get {X : Subdomains} {P : ℕ} {lab : ℕ → ℕ → ℕ} (h : X.OK P lab) (v : ℕ → Buf R) (mu : ℕ) {r : ℕ} (hr : r < P)
    {c : ℕ} (hc : c < mu) {k : ℕ} (hk : k < X.N r) :
    X.exch v mu r (c * X.N r + k) =
      ∑ s ∈ range P, ∑ l ∈ range (X.N s), if lab s l = lab r k then v s (c * X.N s + l) else 0 := by
  have hnd : ∀ p ∈ X.nb r, p.2.Nodup := fun p hp => (h.nb r hr p hp).2.2.1
  set f : ℕ → ℕ × List ℕ → ℕ → R := fun c p j => v p.1 (c * X.N p.1 + (X.shared p.1 r).getD j 0) with hf
  set w : ℕ → ℕ → R := fun c k => v r (c * X.N r + k) + ((X.nb r).map (fun p => if k ∈ p.2 then f c p (p.2.idxOf k) else 0)).sum with hw
  -- one column after the other
  have hex : ∀ c o k, X.exchCol v r c o k = o k + ((X.nb r).map (fun p => if k ∈ p.2 then f c p (p.2.idxOf k) else 0)).sum :=
    fun c o k => foldl_nb _ hnd (f c) o k
  have hcols : ∀ m, (∀ c < m, ∀ k < X.N r, (List.range m).foldl (fun o c => Buf.at' (c * X.N r) (X.exchCol v r c) o) (v r)
        (c * X.N r + k) = w c k) ∧
      (∀ q, m * X.N r ≤ q → (List.range m).foldl (fun o c => Buf.at' (c * X.N r) (X.exchCol v r c) o) (v r) q = v r q) := by
    intro m
    induction m with
    | zero => exact ⟨by simp, by simp⟩
    | succ m ih =>
      obtain ⟨i1, i2⟩ := ih
      rw [List.range_succ, List.foldl_append]
      simp only [List.foldl_cons, List.foldl_nil]
      set F := (List.range m).foldl (fun o c => Buf.at' (c * X.N r) (X.exchCol v r c) o) (v r) with hF
      constructor
      · intro c hc k hk
        unfold Buf.at'
        rcases Nat.lt_or_ge c m with h1 | h1
        · have : c * X.N r + k < m * X.N r := by
            calc c * X.N r + k < (c + 1) * X.N r := by rw [Nat.add_mul]; omega
              _ ≤ m * X.N r := Nat.mul_le_mul_right _ h1
          rw [if_neg (by omega)]
          exact i1 c h1 k hk
        · obtain rfl : c = m := by omega
          rw [if_pos (by omega), Nat.add_sub_cancel_left, hex]
          unfold Buf.from'
          rw [i2 _ (by omega)]
      · intro q hq
        rw [Nat.add_mul, Nat.one_mul] at hq
        unfold Buf.at'
        rw [if_pos (by omega), hex]
        unfold Buf.from'
        rw [Nat.add_sub_cancel' (by omega), i2 q (by omega)]
        have : ((X.nb r).map (fun p => if q - m * X.N r ∈ p.2 then f m p (p.2.idxOf (q - m * X.N r)) else 0)).sum = 0 := by
          apply List.sum_eq_zero
          intro x hx
          obtain ⟨p, hp, rfl⟩ := List.mem_map.1 hx
          refine if_neg (fun hm => ?_)
          obtain ⟨j, hj, he⟩ := List.getElem_of_mem hm
          have := ((h.nb r hr p hp).2.2.2 j hj).1
          rw [List.getD_eq_getElem _ _ hj, he] at this
          omega
        rw [this, add_zero]
  have h1 : X.exch v mu r (c * X.N r + k) = w c k := (hcols mu).1 c hc k hk
  rw [h1]
  -- the sum over the neighbours
  set g : ℕ → R := fun s => ∑ l ∈ range (X.N s), if lab s l = lab r k then v s (c * X.N s + l) else 0 with hg
  have hsingle : ∀ s < P, ∀ l < X.N s, lab s l = lab r k → g s = v s (c * X.N s + l) := by
    intro s hs l hl he
    rw [hg]
    simp only
    rw [Finset.sum_eq_single l]
    · rw [if_pos he]
    · intro l' hl' hne
      exact if_neg (fun h' => hne (h.inj s hs l' (Finset.mem_range.1 hl') l hl (h'.trans he.symm)))
    · intro hn; exact absurd (Finset.mem_range.2 hl) hn
  have hzero : ∀ s < P, s ≠ r → s ∉ (X.nb r).map Prod.fst → g s = 0 := by
    intro s hs hne hmem
    apply Finset.sum_eq_zero
    intro l hl
    refine if_neg (fun he => hmem ?_)
    obtain ⟨p, hp, he', -⟩ := h.complete r hr s hs hne.symm k hk l (Finset.mem_range.1 hl) he.symm
    exact List.mem_map.2 ⟨p, hp, he'⟩
  have hterm : ∀ p ∈ X.nb r, (if k ∈ p.2 then f c p (p.2.idxOf k) else 0) = g p.1 := by
    intro p hp
    obtain ⟨n1, n2, n3, n4⟩ := h.nb r hr p hp
    by_cases hm : k ∈ p.2
    · rw [if_pos hm]
      have hlt := List.idxOf_lt_length_of_mem hm
      obtain ⟨m1, m2, m3⟩ := n4 _ hlt
      have hgk : p.2.getD (p.2.idxOf k) 0 = k := by rw [List.getD_eq_getElem _ _ hlt, List.getElem_idxOf]
      rw [hgk] at m3
      exact (hsingle p.1 n1 _ m2 m3).symm
    · rw [if_neg hm]
      symm
      apply Finset.sum_eq_zero
      intro l hl
      refine if_neg (fun he => hm ?_)
      obtain ⟨q, hq, he', hkq⟩ := h.complete r hr p.1 n1 n2.symm k hk l (Finset.mem_range.1 hl) he.symm
      have : q = p := by
        have hinj := List.inj_on_of_nodup_map (h.nodup r hr)
        exact hinj hq hp he'
      rwa [← this]
  rw [hw]
  simp only
  have em : (X.nb r).map (fun a => g a.1) = ((X.nb r).map Prod.fst).map g := by rw [List.map_map]; rfl
  rw [List.map_congr_left hterm, ← hsingle r hr k hk rfl, em, ← List.sum_toFinset g (h.nodup r hr)]
  have hsub : insert r ((X.nb r).map Prod.fst).toFinset ⊆ range P := by
    intro s hs
    rcases Finset.mem_insert.1 hs with rfl | hs
    · exact Finset.mem_range.2 hr
    · obtain ⟨p, hp, rfl⟩ := List.mem_map.1 (List.mem_toFinset.1 hs)
      exact Finset.mem_range.2 (h.nb r hr p hp).1
  rw [← Finset.sum_insert (f := g)]
  · apply Finset.sum_subset hsub
    intro s hs hn
    have := fun e => hn (Finset.mem_insert.2 e)
    exact hzero s (Finset.mem_range.1 hs) (fun e => this (Or.inl e)) (fun e => this (Or.inr (List.mem_toFinset.2 e)))
  · intro hm
    obtain ⟨p, hp, he⟩ := List.mem_map.1 (List.mem_toFinset.1 hm)
    exact (h.nb r hr p hp).2.1 he

/-! ## C45: partition of unity -/

/-- The unknowns owned by a rank are the first ones of its subdomain, in cluster order, as `C44_local_numbering` says; all unknowns of a
subdomain are unknowns of the problem. -/
structure Subdomains.Owns (X : Subdomains) (p : Part) (P : ℕ) (lab : ℕ → ℕ → ℕ) : Prop where
  size : ∀ r < P, p.size r ≤ X.N r
  own : ∀ r < P, ∀ k < p.size r, lab r k = p.perm.getD (p.off r + k) 0
  lt : ∀ r < P, ∀ k < X.N r, lab r k < p.n

omit [CommRing R] [StarRing R] in
theorem Part.OK.perm_inj {p : Part} {P : ℕ} (h : p.OK P) {i j : ℕ} (hi : i < p.n) (hj : j < p.n) (e : p.perm.getD i 0 = p.perm.getD j 0) :
    i = j := by
  have := userIdx_inj h.perm hi hj
  simp only [userIdx_zero] at this
  exact this e

omit [StarRing R] in
/-- The values of the owners, summed over the copies of an unknown. -/
theorem Subdomains.Owns.sum {X : Subdomains} {p : Part} {P : ℕ} {lab : ℕ → ℕ → ℕ} (ho : X.Owns p P lab) (h : p.OK P) (F : ℕ → R)
    {i : ℕ} (hi : i < p.n) :
    ∑ s ∈ range P, ∑ l ∈ range (X.N s), (if lab s l = p.perm.getD i 0 then (if l < p.size s then F (p.off s + l) else 0) else 0) = F i := by
  have e : ∀ s ∈ range P, ∑ l ∈ range (X.N s), (if lab s l = p.perm.getD i 0 then (if l < p.size s then F (p.off s + l) else 0) else 0) =
      ∑ l ∈ range (p.size s), if p.off s + l = i then F (p.off s + l) else 0 := by
    intro s hs
    have hs := Finset.mem_range.1 hs
    rw [← Finset.sum_subset (Finset.range_subset_range.2 (ho.size s hs))]
    · apply Finset.sum_congr rfl
      intro l hl
      have hl := Finset.mem_range.1 hl
      rw [ho.own s hs l hl, if_pos hl]
      have hb := h.bound hs
      exact if_congr ⟨fun e => h.perm_inj (by omega) hi e, fun e => by rw [e]⟩ rfl rfl
    · intro l _ hl
      rw [Finset.mem_range] at hl
      rw [if_neg hl]; simp
  rw [Finset.sum_congr rfl e, h.sum (fun k => if k = i then F k else 0), Finset.sum_eq_single i]
  · simp
  · intro k _ hk; exact if_neg hk
  · intro hn; exact absurd (Finset.mem_range.2 hi) hn

omit [StarRing R] in
/-- **C45.** Partition of unity: for every vector `x`, the sum over the subdomains `s` of `Rₛᵀ Dₛ Rₛ x` is `x`, where `Rₛ x` is the
restriction of `x` to the unknowns of the subdomain with its overlap, and `Dₛ` the weights of the solver. -/
theorem C45_partition_of_unity {X : Subdomains} {p : Part} {P : ℕ} {lab : ℕ → ℕ → ℕ} (ho : X.Owns p P lab) (h : p.OK P) (x : ℕ → R)
    {g : ℕ} (hg : g < p.n) :
    ∑ s ∈ range P, ∑ l ∈ range (X.N s), (if lab s l = g then ddmWeight (p.size s) l * x (lab s l) else 0) = x g := by
  obtain ⟨i, hi, rfl⟩ := h.surj hg
  rw [← ho.sum h (fun i => x (p.perm.getD i 0)) hi]
  refine Finset.sum_congr rfl (fun s hs => Finset.sum_congr rfl (fun l hl => if_ctx_congr Iff.rfl (fun _ => ?_) (fun _ => rfl)))
  unfold ddmWeight
  by_cases h1 : l < p.size s
  · rw [if_pos h1, if_pos h1, one_mul, ho.own s (Finset.mem_range.1 hs) l h1]
  · rw [if_neg h1, if_neg h1, zero_mul]

/-! ## C46: DDM::solve -/

omit [CommRing R] [StarRing R] in
/-- The beginning of each column written. -/
theorem foldl_cols_part {mu N m : ℕ} (hm : m ≤ N) (v : ℕ → Buf R) (out : Buf R) :
    (∀ c < mu, ∀ k < N, (List.range mu).foldl (fun o i => Buf.at' (i * N) (copyN m (v i)) o) out (c * N + k) =
      if k < m then v c k else out (c * N + k)) ∧
    (∀ q, mu * N ≤ q → (List.range mu).foldl (fun o i => Buf.at' (i * N) (copyN m (v i)) o) out q = out q) := by
  induction mu with
  | zero => exact ⟨by simp, by simp⟩
  | succ mu ih =>
    obtain ⟨h1, h2⟩ := ih
    rw [List.range_succ, List.foldl_append]
    simp only [List.foldl_cons, List.foldl_nil]
    constructor
    · intro c hc k hk
      rw [at_copyN]
      rcases Nat.lt_or_ge c mu with h3 | h3
      · have : c * N + k < mu * N := by
          calc c * N + k < (c + 1) * N := by rw [Nat.add_mul]; omega
            _ ≤ mu * N := Nat.mul_le_mul_right _ h3
        rw [if_neg (by omega), h1 c h3 k hk]
      · obtain rfl : c = mu := by omega
        by_cases h4 : k < m
        · rw [if_pos (by omega), if_pos h4, Nat.add_sub_cancel_left]
        · rw [if_neg (by omega), if_neg h4, h2 _ (by omega)]
    · intro q hq
      rw [Nat.add_mul, Nat.one_mul] at hq
      rw [at_copyN, if_neg (by omega), h2 q (by omega)]

omit [CommRing R] [StarRing R] in
theorem col_lt {mu N c k : ℕ} (hc : c < mu) (hk : k < N) : c * N + k < mu * N := by
  calc c * N + k < (c + 1) * N := by rw [Nat.add_mul]; omega
    _ ≤ mu * N := Nat.mul_le_mul_right _ hc

/-- **C46.** When every rank passes the same right-hand sides `b` (column major, user numbering), the Krylov method receives on every rank
their restriction to the subdomain with its overlap. -/
theorem C46_krylov_receives_restrictions {D : DOp R} {X : Subdomains} {lab : ℕ → ℕ → ℕ} (h : D.tgt.OK D.P) (hX : X.OK D.P lab)
    (ho : X.Owns D.tgt D.P lab) {mu : ℕ} {b : ℕ → R} {rhs : ℕ → Buf R} (hb : ∀ r < D.P, ∀ q < mu * D.tgt.n, rhs r q = b q)
    {r : ℕ} (hr : r < D.P) {c : ℕ} (hc : c < mu) {k : ℕ} (hk : k < X.N r) :
    ddmRhs D X rhs mu r (c * X.N r + k) = b (c * D.tgt.n + lab r k) := by
  unfold ddmRhs Subdomains.scaled
  rw [hX.exch_get _ mu hr hc hk]
  obtain ⟨i, hi, hl⟩ := h.surj (ho.lt r hr k hk)
  rw [← hl, ← ho.sum h (fun i => b (c * D.tgt.n + D.tgt.perm.getD i 0)) hi]
  refine Finset.sum_congr rfl (fun s hs => Finset.sum_congr rfl (fun l hl => if_ctx_congr Iff.rfl (fun _ => ?_) (fun _ => rfl)))
  have hs := Finset.mem_range.1 hs
  have hl := Finset.mem_range.1 hl
  rw [if_pos (col_lt hc hl), Nat.mul_comm c, Nat.mul_add_mod, Nat.mod_eq_of_lt hl, Nat.mul_comm (X.N s)]
  unfold ddmWeight
  beta_reduce
  by_cases h1 : l < D.tgt.size s
  · rw [if_pos h1, if_pos h1, one_mul, (foldl_cols_part (ho.size s hs) _ _).1 c hc l hl, if_pos h1]
    have hbd := h.bound hs
    unfold Buf.from'
    rw [Part.g2p_get _ _ _ (by omega)]
    apply hb s hs
    refine col_lt hc ?_
    have := userIdx_eq h.perm (i := D.tgt.off s + l) (by omega)
    obtain ⟨-, -, -, h4⟩ := this
    simpa only [userIdx_zero] using h4
  · rw [if_neg h1, if_neg h1, zero_mul]

/-- **C46.** `DDM::solve` gathers the local iterates: on every rank, and in user numbering, entry of `x` for column `c` and the unknown owned
by rank `s` at position `k` is the one of the iterate of rank `s`. Every entry of the `mu` columns is written and nothing else. -/
theorem C46_gather {D : DOp R} {X : Subdomains} (h : D.tgt.OK D.P) (xl x : ℕ → Buf R) (mu r : ℕ) :
    (∀ c < mu, ∀ s < D.P, ∀ k < D.tgt.size s,
      ddmGather D X xl x mu r (c * D.tgt.n + D.tgt.perm.getD (D.tgt.off s + k) 0) = xl s (c * X.N s + k)) ∧
    (∀ q, mu * D.tgt.n ≤ q → ddmGather D X xl x mu r q = x r q) := by
  rcases Nat.eq_zero_or_pos mu with hmu | hmu
  · subst hmu
    exact ⟨by simp, fun q _ => by simp [ddmGather]⟩
  set recv : ℕ → ℕ := fun i => D.tgt.size i * mu with hrecv
  set loc : ℕ → Buf R := fun p => (List.range mu).foldl (fun o i =>
    Buf.at' (i * D.tgt.size p) (copyN (D.tgt.size p) ((xl p).from' (i * X.N p))) o) (fun _ => 0) with hlocd
  set g := allgatherv D.P recv loc (fun _ => 0) with hg
  have hloc : ∀ p, ∀ c < mu, ∀ k < D.tgt.size p, loc p (c * D.tgt.size p + k) = xl p (c * X.N p + k) := by
    intro p c hc k hk
    rw [hlocd]
    simp only
    rw [(foldl_cols_part (Nat.le_refl _) _ _).1 c hc k hk, if_pos hk]
    rfl
  have hgv : ∀ s < D.P, ∀ c < mu, ∀ k < D.tgt.size s, g (displs recv s + (c * D.tgt.size s + k)) = xl s (c * X.N s + k) := by
    intro s hs c hc k hk
    rw [hg, allgatherv_get loc _ hs, hloc s c hc k hk]
    rw [hrecv]
    simp only
    rw [Nat.mul_comm (D.tgt.size s)]
    exact col_lt hc hk
  have hd : ∀ j, displs recv j / mu = displs D.tgt.size j := fun j => by rw [hrecv, displs_mul, Nat.mul_div_cancel _ hmu]
  have hr1 : ∀ j, recv j / mu = D.tgt.size j := fun j => by rw [hrecv]; exact Nat.mul_div_cancel _ hmu
  have hr2 : ∀ i j, i * recv j / mu = i * D.tgt.size j := fun i j => by
    rw [hrecv]; simp only; rw [← Nat.mul_assoc, Nat.mul_div_cancel _ hmu]
  set col : ℕ → Buf R := fun i => if mu ≠ 1 then (List.range D.P).foldl (fun c j => Buf.at' (displs recv j / mu)
        (copyN (recv j / mu) (g.from' (displs recv j + i * recv j / mu))) c) (fun _ => 0)
      else g.from' (i * D.tgt.n) with hcold
  have hcol : ∀ c < mu, ∀ s < D.P, ∀ k < D.tgt.size s, col c (D.tgt.off s + k) = xl s (c * X.N s + k) := by
    intro c hc s hs k hk
    rw [hcold]
    simp only
    by_cases h1 : mu = 1
    · rw [if_neg (by omega)]
      subst h1
      obtain rfl : c = 0 := by omega
      have := hgv s hs 0 hc k hk
      simp only [Nat.zero_mul, Nat.zero_add] at this ⊢
      unfold Buf.from'
      rw [← this, ← h.off_eq hs, Nat.zero_add]
      congr 2
      rw [hrecv, displs_mul, Nat.mul_one]
    · rw [if_pos h1]
      simp only [hd, hr1, hr2]
      have := (foldl_blocks D.P D.tgt.size (fun j => g.from' (displs recv j + c * D.tgt.size j)) 0 (fun _ => 0)).1 s hs k hk
      simp only [Nat.zero_add] at this
      rw [← h.off_eq hs, this]
      unfold Buf.from'
      rw [Nat.add_assoc, hgv s hs c hc k hk]
  have hres : ddmGather D X xl x mu r = (List.range mu).foldl (fun o i => Buf.at' (i * D.tgt.n) (D.tgt.p2g (col i)) o) (x r) := rfl
  obtain ⟨f1, f2⟩ := foldl_cols (mu := mu) (n := D.tgt.n) (g := fun i => D.tgt.p2g (col i)) (v := fun i => D.tgt.p2g (col i) (fun _ => 0))
    (by
      intro i _ o k hk
      obtain ⟨j, hj, rfl⟩ := h.surj hk
      rw [(h.p2g_get _ _).1 j hj, (h.p2g_get _ _).1 j hj])
    (fun i _ o k hk => (h.p2g_get _ _).2 k hk) (x r)
  rw [hres]
  refine ⟨fun c hc s hs k hk => ?_, f2⟩
  have hbd := h.bound hs
  have hlt : D.tgt.perm.getD (D.tgt.off s + k) 0 < D.tgt.n := by
    obtain ⟨-, -, -, h4⟩ := userIdx_eq h.perm (i := D.tgt.off s + k) (by omega)
    simpa only [userIdx_zero] using h4
  rw [f1 c hc _ hlt]
  rw [(h.p2g_get _ _).1 _ (by omega), hcol c hc s hs k hk]

/-- **C46.** `DDM::solve`: if the Krylov method, given on every rank the restrictions of the right-hand sides `b`, returns on every rank the
restrictions of `y`, then every rank gets `y` in user numbering. -/
theorem C46_solve {D : DOp R} {X : Subdomains} {lab : ℕ → ℕ → ℕ} (h : D.tgt.OK D.P) (hX : X.OK D.P lab)
    (ho : X.Owns D.tgt D.P lab) {mu : ℕ} {b y : ℕ → R} {krylov : (ℕ → Buf R) → ℕ → ℕ → Buf R}
    (hk : ∀ v : ℕ → Buf R, (∀ r < D.P, ∀ c < mu, ∀ k < X.N r, v r (c * X.N r + k) = b (c * D.tgt.n + lab r k)) →
      ∀ r < D.P, ∀ c < mu, ∀ k < X.N r, krylov v mu r (c * X.N r + k) = y (c * D.tgt.n + lab r k))
    {rhs : ℕ → Buf R} (hb : ∀ r < D.P, ∀ q < mu * D.tgt.n, rhs r q = b q) (x : ℕ → Buf R) (r : ℕ) :
    (∀ q < mu * D.tgt.n, ddmSolve D X krylov rhs x mu r q = y q) ∧ (∀ q, mu * D.tgt.n ≤ q → ddmSolve D X krylov rhs x mu r q = x r q) := by
  obtain ⟨g1, g2⟩ := C46_gather (X := X) h (krylov (ddmRhs D X rhs mu) mu) x mu r
  refine ⟨fun q hq => ?_, g2⟩
  obtain ⟨c, hc, g, hg, rfl⟩ := col_decomp hq
  obtain ⟨i, hi, rfl⟩ := h.surj hg
  obtain ⟨s, hs, k, hks, rfl⟩ := h.cover hi
  unfold ddmSolve
  rw [g1 c hc s hs k hks, hk _ (fun r hr c hc k hk => C46_krylov_receives_restrictions h hX ho hb hr hc hk) s hs c hc k
    (by have := ho.size s hs; omega), ho.own s hs k hks]

/-! ## C47: the operator of the Krylov method -/

omit [CommRing R] [StarRing R] in
theorem foldl_gmv {mu N : ℕ} (w : ℕ → ℕ → R) (out : Buf R) {c k : ℕ} (hc : c < mu) (hk : k < N) :
    (List.range mu).foldl (fun o i => fun q => if i * N ≤ q ∧ q < (i + 1) * N then w i (q - i * N) else o q) out (c * N + k) = w c k := by
  induction mu with
  | zero => omega
  | succ mu ih =>
    rw [List.range_succ, List.foldl_append]
    simp only [List.foldl_cons, List.foldl_nil]
    rcases Nat.lt_or_ge c mu with h3 | h3
    · have := col_lt h3 hk
      rw [if_neg (by omega)]
      exact ih h3
    · obtain rfl : c = mu := by omega
      rw [if_pos ⟨by omega, by rw [Nat.add_mul]; omega⟩, Nat.add_sub_cancel_left]

omit [StarRing R] in
theorem Part.OK.sum_perm {p : Part} {P : ℕ} (h : p.OK P) (f : ℕ → R) : ∑ j ∈ range p.n, f (p.perm.getD j 0) = ∑ l ∈ range p.n, f l := by
  have := sum_userIdx h.perm f
  simp only [userIdx_zero] at this
  exact this

/-- What `GMV` computes in all cases: with a hermitian operator and several right-hand sides, the conjugate of the operator is applied. -/
theorem gmv_get {D : DOp R} {X : Subdomains} {lab : ℕ → ℕ → ℕ} (h : D.OK) (hsrc : D.src = D.tgt) (hX : X.OK D.P lab)
    (ho : X.Owns D.tgt D.P lab) {M U : ℕ → ℕ → R} (hv : D.ActsVec M) (hm : D.ActsMat M)
    (hU : ∀ i < D.tgt.n, ∀ j < D.tgt.n, U (D.tgt.perm.getD i 0) (D.tgt.perm.getD j 0) = M i j) {mu : ℕ} {f : ℕ → ℕ → R} {inp : ℕ → Buf R}
    (hf : ∀ r < D.P, ∀ c < mu, ∀ k < X.N r, inp r (c * X.N r + k) = f (lab r k) c) (out work b1 b2 : ℕ → Buf R) {r : ℕ} (hr : r < D.P)
    {c : ℕ} (hc : c < mu) {k : ℕ} (hk : k < X.N r) :
    gmv D X inp out work b1 b2 mu r (c * X.N r + k) =
      ∑ l ∈ range D.tgt.n, (if D.sym = .H ∧ mu ≠ 1 then star (U (lab r k) l) else U (lab r k) l) * f l c := by
  have hot : D.tgt.OK D.P := h.tgt
  obtain ⟨i, hi, hl⟩ := hot.surj (ho.lt r hr k hk)
  have hown : ∀ p < D.P, ∀ c < mu, ∀ k < D.tgt.size p, inp p (c * X.N p + k) = f (D.tgt.perm.getD (D.tgt.off p + k) 0) c := by
    intro p hp c hc k hk
    rw [hf p hp c hc k (by have := ho.size p hp; omega), ho.own p hp k hk]
  by_cases hmu : mu = 1
  · subst hmu
    obtain rfl : c = 0 := by omega
    have hg : gmv D X inp out work b1 b2 1 =
        X.exch (fun r k => if D.tgt.size r ≤ k ∧ k < X.N r then 0 else D.intVecL2L inp out work r k) 1 := by
      unfold gmv; rw [if_neg (by omega)]
    rw [hg, hX.exch_get _ 1 hr hc hk, ← hl]
    have hF := ho.sum hot (fun i => ∑ j ∈ range D.tgt.n, M i j * f (D.tgt.perm.getD j 0) 0) hi
    rw [show (∑ l ∈ range D.tgt.n, (if D.sym = .H ∧ 1 ≠ 1 then star (U (D.tgt.perm.getD i 0) l) else U (D.tgt.perm.getD i 0) l) * f l 0) =
      ∑ j ∈ range D.tgt.n, M i j * f (D.tgt.perm.getD j 0) 0 from ?_, ← hF]
    · refine Finset.sum_congr rfl (fun s hs => Finset.sum_congr rfl (fun l hl => if_ctx_congr Iff.rfl (fun _ => ?_) (fun _ => rfl)))
      have hs := Finset.mem_range.1 hs
      have hl := Finset.mem_range.1 hl
      rw [Nat.zero_mul, Nat.zero_add]
      by_cases h1 : l < D.tgt.size s
      · rw [if_neg (by omega), if_pos h1, DOp.intVecL2L_get h hv (f := fun j => f (D.tgt.perm.getD j 0) 0) _ _ _ hs, if_pos h1, hsrc]
        intro p hp l hl
        rw [hsrc] at hl ⊢
        have := hown p hp 0 hc l hl
        rwa [Nat.zero_mul, Nat.zero_add] at this
      · rw [if_pos ⟨by omega, hl⟩, if_neg h1]
    · rw [← hot.sum_perm (fun l => (if D.sym = .H ∧ 1 ≠ 1 then star (U (D.tgt.perm.getD i 0) l) else U (D.tgt.perm.getD i 0) l) * f l 0)]
      refine Finset.sum_congr rfl (fun j hj => ?_)
      rw [if_neg (by simp), hU i hi j (Finset.mem_range.1 hj)]
  · set buf : ℕ → Buf R := fun r => toRM mu (D.tgt.size r) (fun i => (inp r).from' (i * X.N r)) (b1 r) with hbuf
    set cbuf : ℕ → Buf R := if D.sym = .H then fun r => conjBuf (D.tgt.size r * mu) (buf r) else buf with hcbuf
    set res := D.intMatL2L cbuf b2 work mu with hres
    set cres : ℕ → Buf R := if D.sym = .H then fun r => conjBuf (D.tgt.size r * mu) (res r) else res with hcres
    have hg : gmv D X inp out work b1 b2 mu =
        X.exch (fun r => (List.range mu).foldl (fun o i => fun k =>
      if i * X.N r ≤ k ∧ k < (i + 1) * X.N r then
        (if k - i * X.N r < D.tgt.size r then cres r (i + (k - i * X.N r) * mu) else 0)
      else o k) (out r)) mu := by
      unfold gmv; rw [if_pos hmu]
    have hb : ∀ p < D.P, ∀ i < D.tgt.size p, ∀ c < mu, buf p (i * mu + c) = f (D.tgt.perm.getD (D.tgt.off p + i) 0) c := by
      intro p hp i hi c hc
      rw [hbuf]
      simp only
      rw [toRM_get _ _ hc, if_pos hi]
      exact hown p hp c hc i hi
    set f' : ℕ → ℕ → R := fun l c => if D.sym = .H then star (f (D.tgt.perm.getD l 0) c) else f (D.tgt.perm.getD l 0) c with hf'
    have hcb : ∀ p < D.P, ∀ i < D.src.size p, ∀ c < mu, cbuf p (i * mu + c) = f' (D.src.off p + i) c := by
      intro p hp i hi c hc
      rw [hsrc] at hi ⊢
      rw [hcbuf, hf']
      by_cases hs : D.sym = .H
      · simp only [hs, if_true]
        rw [conjBuf_get, if_pos ((pos_lt hc).2 hi), hb p hp i hi c hc]
      · simp only [hs, if_false]
        exact hb p hp i hi c hc
    have hcr : ∀ s < D.P, ∀ k < D.tgt.size s, cres s (k * mu + c) = ∑ j ∈ range D.tgt.n,
        (if D.sym = .H then star (M (D.tgt.off s + k) j) else M (D.tgt.off s + k) j) * f (D.tgt.perm.getD j 0) c := by
      intro s hs k hk
      have e : res s (k * mu + c) = ∑ j ∈ range D.tgt.n, M (D.tgt.off s + k) j * f' j c := by
        rw [hres, DOp.intMatL2L_get h hm (f := f') hcb _ _ hs hc, if_pos hk, hsrc]
      rw [hcres]
      by_cases hsy : D.sym = .H
      · simp only [hsy, if_true]
        rw [conjBuf_get, if_pos ((pos_lt hc).2 hk), e, star_sum]
        refine Finset.sum_congr rfl (fun j hj => ?_)
        rw [hf']
        simp only [hsy, if_true]
        rw [star_mul', star_star]
      · simp only [hsy, if_false]
        rw [e]
        refine Finset.sum_congr rfl (fun j hj => ?_)
        rw [hf']
        simp only [hsy, if_false]
    rw [hg, hX.exch_get _ mu hr hc hk, ← hl]
    have hF := ho.sum hot (fun i => ∑ j ∈ range D.tgt.n, (if D.sym = .H then star (M i j) else M i j) * f (D.tgt.perm.getD j 0) c) hi
    rw [show (∑ l ∈ range D.tgt.n, (if D.sym = .H ∧ mu ≠ 1 then star (U (D.tgt.perm.getD i 0) l) else U (D.tgt.perm.getD i 0) l) * f l c) =
      ∑ j ∈ range D.tgt.n, (if D.sym = .H then star (M i j) else M i j) * f (D.tgt.perm.getD j 0) c from ?_, ← hF]
    · refine Finset.sum_congr rfl (fun s hs => Finset.sum_congr rfl (fun l hl => if_ctx_congr Iff.rfl (fun _ => ?_) (fun _ => rfl)))
      have hs := Finset.mem_range.1 hs
      have hl := Finset.mem_range.1 hl
      rw [foldl_gmv (fun i q => if q < D.tgt.size s then cres s (i + q * mu) else 0) _ hc hl]
      refine if_ctx_congr Iff.rfl (fun h1 => ?_) (fun _ => rfl)
      rw [Nat.add_comm, hcr s hs l h1]
    · rw [← hot.sum_perm (fun l => (if D.sym = .H ∧ mu ≠ 1 then star (U (D.tgt.perm.getD i 0) l) else U (D.tgt.perm.getD i 0) l) * f l c)]
      refine Finset.sum_congr rfl (fun j hj => ?_)
      rw [hU i hi j (Finset.mem_range.1 hj)]
      by_cases hsy : D.sym = .H <;> simp [hsy, hmu]

/-- **C47, partial.** The operator of the Krylov method applies the matrix `U` of the distributed operator (user numbering) to every
right-hand side, on every copy of every unknown, whatever `mu`. Missing: complex hermitian operators with `mu ≠ 1`, for which the claim is
false (`C47_hermitian_several_rhs`). -/
theorem C47_krylov_operator_partial {D : DOp R} {X : Subdomains} {lab : ℕ → ℕ → ℕ} (h : D.OK) (hsrc : D.src = D.tgt) (hX : X.OK D.P lab)
    (ho : X.Owns D.tgt D.P lab) {M U : ℕ → ℕ → R} (hv : D.ActsVec M) (hm : D.ActsMat M)
    (hU : ∀ i < D.tgt.n, ∀ j < D.tgt.n, U (D.tgt.perm.getD i 0) (D.tgt.perm.getD j 0) = M i j) {mu : ℕ}
    (hs : D.sym = .H → mu = 1 ∨ RealType R) {f : ℕ → ℕ → R} {inp : ℕ → Buf R}
    (hf : ∀ r < D.P, ∀ c < mu, ∀ k < X.N r, inp r (c * X.N r + k) = f (lab r k) c) (out work b1 b2 : ℕ → Buf R) {r : ℕ} (hr : r < D.P)
    {c : ℕ} (hc : c < mu) {k : ℕ} (hk : k < X.N r) :
    gmv D X inp out work b1 b2 mu r (c * X.N r + k) = ∑ l ∈ range D.tgt.n, U (lab r k) l * f l c := by
  rw [gmv_get h hsrc hX ho hv hm hU hf out work b1 b2 hr hc hk]
  refine Finset.sum_congr rfl (fun l _ => ?_)
  split_ifs with hh
  · rcases hs hh.1 with h1 | h1
    · exact absurd h1 hh.2
    · rw [h1]
  · rfl

/-- **C47 (defect).** For a hermitian operator and several right-hand sides, the conjugate of the operator is applied. -/
theorem C47_hermitian_several_rhs {D : DOp R} {X : Subdomains} {lab : ℕ → ℕ → ℕ} (h : D.OK) (hsrc : D.src = D.tgt) (hX : X.OK D.P lab)
    (ho : X.Owns D.tgt D.P lab) {M U : ℕ → ℕ → R} (hv : D.ActsVec M) (hm : D.ActsMat M)
    (hU : ∀ i < D.tgt.n, ∀ j < D.tgt.n, U (D.tgt.perm.getD i 0) (D.tgt.perm.getD j 0) = M i j) {mu : ℕ}
    (hs : D.sym = .H) (hmu : mu ≠ 1) {f : ℕ → ℕ → R} {inp : ℕ → Buf R}
    (hf : ∀ r < D.P, ∀ c < mu, ∀ k < X.N r, inp r (c * X.N r + k) = f (lab r k) c) (out work b1 b2 : ℕ → Buf R) {r : ℕ} (hr : r < D.P)
    {c : ℕ} (hc : c < mu) {k : ℕ} (hk : k < X.N r) :
    gmv D X inp out work b1 b2 mu r (c * X.N r + k) = ∑ l ∈ range D.tgt.n, star (U (lab r k) l) * f l c := by
  rw [gmv_get h hsrc hX ho hv hm hU hf out work b1 b2 hr hc hk]
  exact Finset.sum_congr rfl (fun l _ => by rw [if_pos ⟨hs, hmu⟩])

/-- **C47 (defect).** The operator applied to the same vector differs between one and two right-hand sides. -/
theorem C47_depends_on_mu :
    gmv exHermOp ⟨fun _ => 2, fun _ => []⟩ (fun _ _ => 1) (fun _ _ => 0) (fun _ _ => 0) (fun _ _ => 0) (fun _ _ => 0) 2 0 0 ≠
    gmv exHermOp ⟨fun _ => 2, fun _ => []⟩ (fun _ _ => 1) (fun _ _ => 0) (fun _ _ => 0) (fun _ _ => 0) (fun _ _ => 0) 1 0 0 := by
  decide +kernel

/-! ## A concrete case -/

/-- Two ranks with two unknowns each. -/
def exDdm : DOp ℤ where
  P := 2
  tgt := ⟨[1, 3, 0, 2], 4, [(0, 2), (2, 2)]⟩
  src := ⟨[1, 3, 0, 2], 4, [(0, 2), (2, 2)]⟩
  ops := fun r => [(denseOp 2 0 4 (fun i j => (r : ℤ) + i * j + 1)).toVLO]
  usePerm := true
  sym := .N

/-- Each subdomain overlaps the other one by one unknown. -/
def exSub : Subdomains := ⟨fun _ => 3, fun r => if r = 0 then [(1, [1, 2])] else [(0, [2, 0])]⟩
/-- The unknowns of the subdomains. -/
def exLab (r k : ℕ) : ℕ := (if r = 0 then [1, 3, 0] else [0, 2, 3]).getD k 0
/-- The matrix of `exDdm`. -/
def exDdmMat (i j : ℕ) : ℤ := if i < 2 then (i : ℤ) * j + 1 else 1 + ((i - 2 : ℕ) : ℤ) * j + 1

theorem exDdm_ok : exDdm.OK ∧ exDdm.src = exDdm.tgt ∧ exSub.OK exDdm.P exLab ∧ exSub.Owns exDdm.tgt exDdm.P exLab ∧
    exDdm.ActsVec exDdmMat ∧ exDdm.ActsMat exDdmMat := by
  have hr : ∀ r < exDdm.P, exDdm.RankOps r [(denseOp 2 0 4 (fun i j => (r : ℤ) + i * j + 1), fun i j => (r : ℤ) + i * j + 1)] := by
    intro r hr
    have hr : r < 2 := hr
    refine ⟨rfl, ?_, ?_, ?_, ?_, ?_⟩ <;> intro p hp <;> rw [List.mem_singleton.1 hp]
    · exact ⟨_, (denseOp_ok (by decide) _).1, (denseOp_ok (by decide) _).2.1⟩
    · exact (denseOp_ok (by decide) _).2.2
    · simp [denseOp]
    · obtain rfl | rfl : r = 0 ∨ r = 1 := by omega
      all_goals rfl
    · show 0 + 4 ≤ 4
      omega
  have hs : exDdm.IsSum (fun r => [(denseOp 2 0 4 (fun i j => (r : ℤ) + i * j + 1), fun i j => (r : ℤ) + i * j + 1)]) exDdmMat := by
    intro r hr i hi j hj
    have hr : r < 2 := hr
    have hj : j < 4 := hj
    obtain rfl | rfl : r = 0 ∨ r = 1 := by omega
    · have hi : i < 2 := hi
      show exDdmMat (0 + i) j = _
      simp [exDdmMat, sumBlocks, blockOf, denseOp, hi, hj]
    · have hi : i < 2 := hi
      show exDdmMat (2 + i) j = _
      unfold exDdmMat
      rw [if_neg (by omega), Nat.add_sub_cancel_left]
      simp [sumBlocks, blockOf, denseOp, hj]
  refine ⟨?_, rfl, ?_, ?_, C42_vector_product_sums hr hs, C42_matrix_product_sums hr (fun r _ p hp => by rw [List.mem_singleton.1 hp]; rfl) hs⟩
  · refine ⟨⟨rfl, by simp [exDdm, Tiles], ?_⟩, ⟨rfl, by simp [exDdm, Tiles], ?_⟩⟩ <;> (unfold LocalPerm exDdm; decide)
  · constructor
    · decide +kernel
    · decide +kernel
    · decide +kernel
    · intro r hr s hs
      have hr : r < 2 := hr
      have hs : s < 2 := hs
      have h0 : ∀ k < 3, ∀ l < 3, exLab 0 k = exLab 1 l → k ∈ [1, 2] := by decide +kernel
      have h1 : ∀ k < 3, ∀ l < 3, exLab 1 k = exLab 0 l → k ∈ [2, 0] := by decide +kernel
      have er : r = 0 ∨ r = 1 := by omega
      have es : s = 0 ∨ s = 1 := by omega
      rcases er with rfl | rfl <;> rcases es with rfl | rfl
      · exact fun h => absurd rfl h
      · exact fun _ k hk l hl e => ⟨(1, [1, 2]), by simp [exSub], rfl, h0 k hk l hl e⟩
      · exact fun _ k hk l hl e => ⟨(0, [2, 0]), by simp [exSub], rfl, h1 k hk l hl e⟩
      · exact fun h => absurd rfl h
  · constructor <;> decide +kernel

/-- The operator given to the Krylov method on both copies of unknown 3, and the gathered solution. -/
example : let v : ℕ → Buf ℤ := fun r q => (exLab r (q % 3) : ℤ) + (q / 3 : ℕ)
    gmv exDdm exSub v (fun _ _ => 9) (fun _ _ => 9) (fun _ _ => 9) (fun _ _ => 9) 2 0 (3 + 1) = 25 ∧
    gmv exDdm exSub v (fun _ _ => 9) (fun _ _ => 9) (fun _ _ => 9) (fun _ _ => 9) 2 1 (3 + 2) = 25 ∧
    (List.range 9).map (ddmSolve exDdm exSub (fun b _ => b) (fun _ q => 10 * (q : ℤ)) (fun _ _ => 7) 2 1) = [0, 10, 20, 30, 40, 50, 60, 70, 7] := by
  decide +kernel

end Htool
