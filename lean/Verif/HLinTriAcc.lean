import Verif.Props.HLinAcc

/-! # Accuracy of triangular solves with hierarchical right-hand sides -/

namespace Htool
variable {G R : Type*}
open Finset

section leaf
variable [CommRing R] [StarRing R] [DecidableEq R] {E : LinOps R}
variable {u : UploType} {unit : Bool} {m : Mask} {ad adB : ClusterTree G → ClusterTree G → Prop} {T : ℕ → ℕ → R}

/-- A solve in which the matrix or the right-hand side is a leaf compresses nothing: the solution is exact. -/
theorem triHH_leaf (hreal : E.cplx = false → RealType R) (hE : TrsmOK E) (side : Side) (tr : Trans) (f : ℕ) (A Bs : FTree G R) (Ms : ℕ → ℕ → R)
    (hf : A.ht + Bs.ht ≤ f + 1) (hh : A.isHier = false ∨ Bs.isHier = false) (hA : TriRep u unit m ad T A) (hBs : Rep .full adB Ms Bs)
    (tA : A.label.t.Top) (tO : (Bs.oth side).Top) (own' : Bs.own side = A.label.t) (hrk : A.isHier = true ∨ 0 ≤ (Bs.oth side).rk) :
    ∃ B' X, triHH E (f + 1) side u tr unit 1 A Bs = some B' ∧ Rep .full adB X B' ∧ B'.label.t = Bs.label.t ∧ B'.label.s = Bs.label.s ∧ B'.ht ≤ Bs.ht ∧
      Solved side tr T A.label.t (Bs.oth side) 1 X Ms := by
  have ownsz : (Bs.label.t.sz, Bs.label.s.sz) = (if side = .L then (A.label.t.sz, (Bs.oth side).sz) else ((Bs.oth side).sz, A.label.t.sz)) := by
    rw [← own']; cases side <;> rfl
  have bOK := Shape.self hBs
  have hF : ∀ (F : ℕ → ℕ → R), (∀ i < Bs.label.t.sz, ∀ j < Bs.label.s.sz, F i j = rel Ms Bs.label.t.off Bs.label.s.off i j) →
      ∀ i j, Bs.label.Has i j → Ms i j = F (i - Bs.label.t.off) (j - Bs.label.s.off) := by
    intro F hF i j hij
    have h := hij.sub
    rw [hF _ h.1 _ h.2]
    unfold rel
    have := hij.1.1
    have := hij.2.1
    congr 1 <;> omega
  rw [triHH, if_pos rfl]
  cases hAh : A.isHier with
  | false =>
    obtain ⟨D, piv, hdA, a1, a2, a3, a4, a5⟩ := hA.dense_of_leaf hAh
    have hO : 0 ≤ (Bs.oth side).rk := by
      rcases hrk with h | h
      · rw [hAh] at h; simp at h
      · exact h
    have hAr := (hA.shape.self.leaf hAh).2.1
    have hloc : ∀ {W : Mat R} {mu : ℕ}, (W.nr, W.nc) = (if side = .L then (A.label.t.sz, mu) else (mu, A.label.t.sz)) →
        (triDense E side u tr unit 1 D piv W).nr = W.nr ∧ (triDense E side u tr unit 1 D piv W).nc = W.nc ∧
        ∀ i < A.label.t.sz, ∀ k < mu, ∑ l ∈ range A.label.t.sz, tv side tr T (A.label.t.off + i) (A.label.t.off + l) *
          sv side (triDense E side u tr unit 1 D piv W).get l k = 1 * sv side W.get i k := by
      intro W mu hW
      obtain ⟨t1, t2, t3⟩ := triDense_spec hE side hA.up tr unit 1 a1 a2 a3 a4 hW
      refine ⟨t1, t2, fun i hi k hk => ?_⟩
      rw [← t3 i hi k hk]
      refine Finset.sum_congr rfl fun l hl => ?_
      rw [dense_tv hA a5 side tr hi (mem_range.1 hl)]
    cases hdB : Bs.label.data with
    | dense D' piv' =>
      simp only [hdA, hdB]
      have hd := Rep.dense_is hBs hdB
      obtain ⟨t1, t2, t3⟩ := hloc (W := D') (mu := (Bs.oth side).sz) (by rw [hd.1, hd.2.1]; exact ownsz)
      refine ⟨_, fun i j => (triDense E side u tr unit 1 D piv D').get (i - Bs.label.t.off) (j - Bs.label.s.off), rfl,
        Rep.setDense hBs (by unfold FTree.isHier; rw [hdB]) (t1.trans hd.1) (t2.trans hd.2.1), ?_, ?_, ?_, ?_⟩
      · rw [setData_label]
      · rw [setData_label]
      · rw [setData_ht]
      · exact solved_of_local own' (hF D'.get hd.2.2) t3
    | lowRank L =>
      have hL := Rep.lowRank_is hBs hdB
      simp only [hdA, hdB]
      cases side with
      | L =>
        simp only [if_true]
        obtain ⟨t1, t2, t3⟩ := hloc (W := L.U) (mu := L.U.nc) (by
          have : L.U.nr = A.label.t.sz := by rw [← own']; exact hL.2.1
          rw [this]; rfl)
        refine ⟨_, fun i j => LR.entry ⟨triDense E .L u tr unit 1 D piv L.U, L.V⟩ (i - Bs.label.t.off) (j - Bs.label.s.off), rfl,
          Rep.setLR hBs hdB (by unfold LR.WF; rw [t2]; exact hL.1) (t1.trans hL.2.1) hL.2.2.1, ?_, ?_, ?_, ?_⟩
        · rw [setData_label]
        · rw [setData_label]
        · rw [setData_ht]
        · refine solved_of_local own' (hF L.entry hL.2.2.2) fun i hi k hk => ?_
          show ∑ l ∈ range A.label.t.sz, _ * LR.entry ⟨_, L.V⟩ l k = 1 * L.entry i k
          unfold LR.entry
          have hr : LR.rank ⟨triDense E .L u tr unit 1 D piv L.U, L.V⟩ = L.U.nc := t2
          rw [hr, show L.rank = L.U.nc from rfl, one_mul]
          simp only [Finset.mul_sum]
          rw [Finset.sum_comm]
          refine Finset.sum_congr rfl fun j hj => ?_
          have := t3 i hi j (mem_range.1 hj)
          rw [one_mul] at this
          rw [show L.U.get i j = sv Side.L L.U.get i j from rfl, ← this, Finset.sum_mul]
          refine Finset.sum_congr rfl fun l _ => ?_
          rw [mul_assoc]; rfl
      | R =>
        simp only [reduceCtorEq, if_false]
        obtain ⟨t1, t2, t3⟩ := hloc (W := L.V) (mu := L.V.nr) (by
          have : L.V.nc = A.label.t.sz := by rw [← own']; exact hL.2.2.1
          rw [this]; rfl)
        refine ⟨_, fun i j => LR.entry ⟨L.U, triDense E .R u tr unit 1 D piv L.V⟩ (i - Bs.label.t.off) (j - Bs.label.s.off), rfl,
          Rep.setLR hBs hdB (by unfold LR.WF; rw [t1]; exact hL.1) hL.2.1 (t2.trans hL.2.2.1), ?_, ?_, ?_, ?_⟩
        · rw [setData_label]
        · rw [setData_label]
        · rw [setData_ht]
        · refine solved_of_local own' (hF L.entry hL.2.2.2) fun i hi k hk => ?_
          show ∑ l ∈ range A.label.t.sz, _ * LR.entry ⟨L.U, _⟩ k l = 1 * L.entry k i
          unfold LR.entry
          have hr : LR.rank ⟨L.U, triDense E .R u tr unit 1 D piv L.V⟩ = L.U.nc := rfl
          rw [hr, show L.rank = L.U.nc from rfl, one_mul]
          simp only [Finset.mul_sum]
          rw [Finset.sum_comm]
          refine Finset.sum_congr rfl fun j hj => ?_
          have := t3 i hi j (by rw [hL.1]; exact mem_range.1 hj)
          rw [one_mul] at this
          rw [show L.V.get j i = sv Side.R L.V.get i j from rfl, ← this, Finset.mul_sum]
          refine Finset.sum_congr rfl fun l _ => ?_
          show _ * (_ * (triDense E .R u tr unit 1 D piv L.V).get j l) = _ * (_ * (triDense E .R u tr unit 1 D piv L.V).get j l)
          ring
    | hier =>
      simp only [hdA, hdB]
      have hd := Rep.toDense_is hBs
      obtain ⟨t1, t2, t3⟩ := hloc (W := Bs.dense) (mu := (Bs.oth side).sz) (by rw [hd.1, hd.2.1]; exact ownsz)
      have hranks : 0 ≤ Bs.label.t.rk ∧ 0 ≤ Bs.label.s.rk := by
        have h1 : 0 ≤ (Bs.own side).rk := by rw [own']; exact hAr
        cases side with
        | L => exact ⟨h1, hO⟩
        | R => exact ⟨hO, h1⟩
      refine ⟨_, fun i j => (triDense E side u tr unit 1 D piv Bs.dense).get (i - Bs.label.t.off) (j - Bs.label.s.off), rfl, ?_, rfl, rfl, ?_, ?_⟩
      · intro Y hY
        rw [pre_leaf rfl, List.mem_singleton] at hY
        subst hY
        refine ⟨⟨bOK.prop.1, t1.trans hd.1, t2.trans hd.2.1, fun i j _ _ => rfl⟩, bOK.clT, bOK.clS, fun _ => ⟨rfl, hranks⟩, fun hh => ?_⟩
        simp [FTree.isHier] at hh
      · have := Tree.ht_pos Bs
        rw [Tree.ht, Tree.htL]; omega
      · exact solved_of_local own' (hF Bs.dense.get hd.2.2) t3
  | true =>
    have hdA := isHier_iff.1 hAh
    cases hdB : Bs.label.data with
    | dense D' piv' =>
      simp only [hdA, hdB]
      have hd := Rep.dense_is hBs hdB
      obtain ⟨X, x1, t1, t2, t3⟩ := triHM_spec hE hreal side tr (f + 1) (by omega) hA tA 1 (B := D') (mu := (Bs.oth side).sz)
        (by rw [hd.1, hd.2.1]; exact ownsz)
      rw [x1]
      refine ⟨_, fun i j => X.get (i - Bs.label.t.off) (j - Bs.label.s.off), rfl,
        Rep.setDense hBs (by unfold FTree.isHier; rw [hdB]) (t1.trans hd.1) (t2.trans hd.2.1), ?_, ?_, ?_, ?_⟩
      · rw [setData_label]
      · rw [setData_label]
      · rw [setData_ht]
      · exact solved_of_local own' (hF D'.get hd.2.2) t3
    | lowRank L =>
      simp only [hdA, hdB]
      have hL := Rep.lowRank_is hBs hdB
      obtain ⟨X, x1, t0, t1, t2, t3⟩ := triHLr_spec hE hreal side tr (f + 1) (by omega) hA tA 1 (B := L) (mu := (Bs.oth side).sz) hL.1
        (by rw [hL.2.1, hL.2.2.1]; exact ownsz)
      rw [x1]
      refine ⟨_, fun i j => X.entry (i - Bs.label.t.off) (j - Bs.label.s.off), rfl,
        Rep.setLR hBs hdB t0 (t1.trans hL.2.1) (t2.trans hL.2.2.1), ?_, ?_, ?_, ?_⟩
      · rw [setData_label]
      · rw [setData_label]
      · rw [setData_ht]
      · exact solved_of_local own' (hF L.entry hL.2.2.2) t3
    | hier =>
      exfalso
      rcases hh with h | h
      · rw [hAh] at h; cases h
      · unfold FTree.isHier at h; rw [hdB] at h; cases h

end leaf

/-! ## Matrices near an exact one -/

section near
variable {𝕜 : Type*} [RCLike 𝕜] {e : ℝ} {ad : ClusterTree G → ClusterTree G → Prop} {M H : ℕ → ℕ → 𝕜} {A : FTree G 𝕜}

/-- Entries of an H-matrix near another matrix. -/
theorem Rep.entry_near_of {m : Mask} (h : Rep m ad M A) (hn : NearT m e ad H A) {i j : ℕ} (hok : m.ok i j) (hij : A.label.Has i j) : ‖M i j - H i j‖ ≤ e := by
  obtain ⟨X, hX, hi⟩ := Shape.leaves_ok h hok hij
  have hXp := ((Tree.mem_leaves_iff _ _).1 hX).1
  have h1 := (h X hXp).prop.2
  have h2 := (hn X hXp).prop.2
  have hd : FTree.isHier X = false := by
    by_contra hh
    obtain ⟨Y, hY, -⟩ := ((Shape.sub h hXp).children_mask (by simpa using hh) i j).2 hok hi
    rw [((Tree.mem_leaves_iff _ _).1 hX).2] at hY
    cases hY
  have b : i - X.label.t.off < X.label.t.sz ∧ j - X.label.s.off < X.label.s.sz := hi.sub
  have e1 : X.label.t.off + (i - X.label.t.off) = i := by unfold FNode.Has at hi; omega
  have e2 : X.label.s.off + (j - X.label.s.off) = j := by unfold FNode.Has at hi; omega
  unfold FTree.isHier at hd
  revert h1 h2 hd
  cases X.label.data with
  | dense D p =>
    rintro h1 ⟨-, -, H', h3, h4⟩ _
    refine (le_trans (le_of_eq ?_) (entry_le_frob _ b.1 b.2)).trans h4
    unfold rel
    rw [e1, e2, h1.2.2 i j hi hok, h3 i j hi hok]
  | lowRank L =>
    intro h1 h2 _
    refine (le_trans (le_of_eq ?_) (entry_le_frob _ b.1 b.2)).trans h2.2.2.2.2
    unfold rel
    rw [e1, e2, h1.2.2.2.2 i j hi hok]
  | hier => exact fun _ _ hd => absurd hd (by simp)

theorem Rep.entry_near (h : Rep .full ad M A) (hn : NearT .full e ad H A) {i j : ℕ} (hij : A.label.Has i j) : ‖M i j - H i j‖ ≤ e :=
  h.entry_near_of hn trivial hij

end near

section tri
variable {𝕜 : Type*} [RCLike 𝕜] [DecidableEq 𝕜] {E : LinOps 𝕜} {ε : ℝ} {a hm : ℕ}
variable {u : UploType} {unit : Bool} {ad adB : ClusterTree G → ClusterTree G → Prop} {T : ℕ → ℕ → 𝕜}

/-- A product into an H-matrix: what it stores, and how far that is from the exact result. -/
theorem hhH_upd_of {m : Mask} (hE : E.Acc ε) (hε : 0 ≤ ε) {adA adC : ClusterTree G → ClusterTree G → Prop} (ta tb : Trans) {f : ℕ} {A X C : FTree G 𝕜} {MA MB S : ℕ → ℕ → 𝕜}
    (hf : A.ht + X.ht ≤ f) (h1 : A.ht + 1 ≤ hm) (hA : Opnd adA MA a A) (hX : Opnd adB MB a X) (hC : Rep m adC S C)
    (a1 : A.label.t.Flat) (a2 : A.label.s.Flat) (b1 : X.label.t.Flat) (b2 : X.label.s.Flat) (hin : A.inC ta = X.outC tb)
    (c1 : C.label.t = A.outC ta) (c2 : C.label.s = X.inC tb)
    (hs : SqOK m adC C.label) :
    ∃ C' S', hhH E f ta tb (-1) A X 1 C = some C' ∧ Rep m adC S' C' ∧ C'.label.t = C.label.t ∧ C'.label.s = C.label.s ∧ C'.ht ≤ C.ht ∧
      ∀ (W : ℕ → ℕ → ℝ) (B : ℝ) (k : ℕ) (H : ℕ → ℕ → 𝕜), Maj W B → NearT m (accErr ε B k) adC H C →
        (∀ i j, C.label.Has i j → ‖H i j‖ + aprod ta tb MA MB (A.inC ta) i j ≤ W i j) →
        NearT m (accErr ε B (k + truncs a hm)) adC (fun i j => H i j - mprod ta tb MA MB (A.inC ta) i j) C' := by
  have hk : m.keep C.label.t C.label.s = true := by
    rcases hs with rfl | ⟨h, -⟩
    · rfl
    · rw [h]; exact keep_diag m (Shape.self hC).clS.sz_pos
  have core : ∀ (W : ℕ → ℕ → ℝ) (B : ℝ) (k : ℕ) (H : ℕ → ℕ → 𝕜), Maj W B → NearT m (accErr ε B k) adC H C →
      (∀ i j, C.label.Has i j → ‖H i j‖ + aprod ta tb MA MB (A.inC ta) i j ≤ W i j) →
      ∃ C', hhH E f ta tb (-1) A X 1 C = some C' ∧ NearT m (accErr ε B (k + truncs a hm)) adC (fun i j => H i j - mprod ta tb MA MB (A.inC ta) i j) C' ∧
        C'.label.t = C.label.t ∧ C'.label.s = C.label.s ∧ C'.ht ≤ C.ht := by
    intro W B k H hW hn hd
    obtain ⟨C', e1, e2, e3⟩ := hhH_near hE hε hW ta tb (-1) f hm A X C H k hf (by split_ifs <;> omega) hA hX hn a1 a2 b1 b2 hin c1 c2 hk
      (fun i j hi => by rw [norm_neg, norm_one, one_mul]; exact hd i j hi)
    exact ⟨C', e1, NearT.congr e2 fun i j _ => by ring, e3⟩
  have hW := maj_product ta tb (-1) 1 MA MB S (A := A) (X := X) (C := C) hin c1 c2
  obtain ⟨C', e1, e2, e3, e4, e5⟩ := core _ _ 0 S hW (by rw [accErr_zero]; exact hC.near_of hs) (by
    intro i j hi
    unfold FNode.Has ClusterTree.fin at hi
    rw [if_pos hi, norm_neg, norm_one, one_mul, one_mul])
  obtain ⟨S', s1, -⟩ := e2.rep_of
  refine ⟨C', S', e1, s1, e3, e4, e5, fun W B k H hW hn hd => ?_⟩
  obtain ⟨C'', f1, f2, -⟩ := core W B k H hW hn hd
  rw [e1] at f1
  rw [Option.some.inj f1]
  exact f2

theorem hhH_upd (hE : E.Acc ε) (hε : 0 ≤ ε) {adA adC : ClusterTree G → ClusterTree G → Prop} (ta tb : Trans) {f : ℕ} {A X C : FTree G 𝕜} {MA MB S : ℕ → ℕ → 𝕜}
    (hf : A.ht + X.ht ≤ f) (h1 : A.ht + 1 ≤ hm) (hA : Opnd adA MA a A) (hX : Opnd adB MB a X) (hC : Rep .full adC S C)
    (a1 : A.label.t.Flat) (a2 : A.label.s.Flat) (b1 : X.label.t.Flat) (b2 : X.label.s.Flat) (hin : A.inC ta = X.outC tb)
    (c1 : C.label.t = A.outC ta) (c2 : C.label.s = X.inC tb) :
    ∃ C' S', hhH E f ta tb (-1) A X 1 C = some C' ∧ Rep .full adC S' C' ∧ C'.label.t = C.label.t ∧ C'.label.s = C.label.s ∧ C'.ht ≤ C.ht ∧
      ∀ (W : ℕ → ℕ → ℝ) (B : ℝ) (k : ℕ) (H : ℕ → ℕ → 𝕜), Maj W B → NearT .full (accErr ε B k) adC H C →
        (∀ i j, C.label.Has i j → ‖H i j‖ + aprod ta tb MA MB (A.inC ta) i j ≤ W i j) →
        NearT .full (accErr ε B (k + truncs a hm)) adC (fun i j => H i j - mprod ta tb MA MB (A.inC ta) i j) C' :=
  hhH_upd_of hE hε ta tb hf h1 hA hX hC a1 a2 b1 b2 hin c1 c2 (Or.inl rfl)

/-- The update of a block by a product. -/
theorem prodS_near (hE : E.Acc ε) (hε : 0 ≤ ε) (side : Side) (f : ℕ) (tr : Trans) {p q r : ClusterTree G} {Ac Bc C : FTree G 𝕜} {x : ℕ → ℕ → 𝕜}
    (hf : Ac.ht + Bc.ht ≤ f) (h1 : Ac.ht + 1 ≤ hm) (h2 : Bc.ht + 1 ≤ hm) (hA : Opnd ad T a Ac) (hB : Opnd adB (sv side x) a Bc)
    (hC : Rep .full adB (sv side x) C)
    (a1 : (if side = .L then Ac.outC tr else Ac.inC tr) = p) (a2 : (if side = .L then Ac.inC tr else Ac.outC tr) = q)
    (ra : 0 ≤ Ac.label.t.rk ∧ 0 ≤ Ac.label.s.rk) (b1 : Bc.own side = q) (b2 : Bc.oth side = r) (rq : 0 ≤ q.rk) (rr : 0 ≤ r.rk)
    (c1 : C.own side = p) (c2 : C.oth side = r) :
    ∃ C' x', prodS E side f tr Ac Bc C = some C' ∧ Rep .full adB (sv side x') C' ∧ C'.label.t = C.label.t ∧ C'.label.s = C.label.s ∧ C'.ht ≤ C.ht ∧
      ∀ (W : ℕ → ℕ → ℝ) (B : ℝ) (k : ℕ) (H : ℕ → ℕ → 𝕜), Maj W B → NearT .full (accErr ε B k) adB (sv side H) C →
        (∀ i ∈ Ico p.off p.fin, ∀ j ∈ Ico r.off r.fin, ‖H i j‖ + ∑ l ∈ Ico q.off q.fin, ‖tv side tr T i l‖ * ‖x l j‖ ≤ sv side W i j) →
        NearT .full (accErr ε B (k + truncs a hm)) adB (sv side (fun i j => H i j - ∑ l ∈ Ico q.off q.fin, tv side tr T i l * x l j)) C' := by
  cases side with
  | L =>
    have b1' : Bc.label.t = q := b1
    have b2' : Bc.label.s = r := b2
    have a2' : Ac.inC tr = q := a2
    obtain ⟨C', S', e1, e2, e3, e4, e5, e6⟩ := hhH_upd (adA := ad) (adB := adB) (adC := adB) hE hε tr .N hf h1 hA hB hC (Or.inl ra.1) (Or.inl ra.2)
      (Or.inl (by rw [b1']; exact rq)) (Or.inl (by rw [b2']; exact rr)) (a2.trans b1'.symm) (Eq.trans c1 a1.symm) (Eq.trans c2 b2'.symm)
    refine ⟨C', S', e1, e2, e3, e4, e5, fun W B k H hW hn hd => NearT.congr (e6 W B k H hW hn fun i j hij => ?_) fun i j _ => ?_⟩
    · have := (has_side .L C i j).1 hij
      rw [c1, c2] at this
      rw [a2']
      exact hd i this.1 j this.2
    · rw [a2']; rfl
  | R =>
    have b1' : Bc.label.s = q := b1
    have b2' : Bc.label.t = r := b2
    have a2' : Ac.outC tr = q := a2
    have b1'' : Bc.inC .N = q := b1
    obtain ⟨C', S', e1, e2, e3, e4, e5, e6⟩ := hhH_upd (adA := adB) (adB := ad) (adC := adB) hE hε .N tr (show Bc.ht + Ac.ht ≤ f by omega) h2 hB hA hC
      (Or.inl (by rw [b2']; exact rr)) (Or.inl (by rw [b1']; exact rq)) (Or.inl ra.1) (Or.inl ra.2)
      (Eq.trans b1' a2'.symm) (Eq.trans c2 b2'.symm) (Eq.trans c1 a1.symm)
    refine ⟨C', fun i j => S' j i, e1, e2, e3, e4, e5, fun W B k H hW hn hd => NearT.congr (e6 W B k (fun i j => H j i) hW hn fun i j hij => ?_) fun i j _ => ?_⟩
    · have := (has_side .R C j i).1 hij
      rw [c1, c2] at this
      rw [b1'']
      refine le_trans (le_of_eq ?_) (hd j this.1 i this.2)
      congr 1
      exact sum_congr rfl fun l _ => mul_comm _ _
    · rw [b1'']
      show H j i - ∑ l ∈ Ico q.off q.fin, x l i * opE tr T l j = H j i - ∑ l ∈ Ico q.off q.fin, opE tr T l j * x l i
      congr 1
      exact sum_congr rfl fun l _ => mul_comm _ _

end tri

end Htool
