import Verif.HLinTri3

/-! # Triangular solves with dense and low-rank right-hand sides -/

namespace Htool
variable {G R : Type*}
open Finset

section tri
variable [CommRing R] [StarRing R] [DecidableEq R] {E : LinOps R}
variable {u : UploType} {unit : Bool} {m : Mask} {ad : ClusterTree G → ClusterTree G → Prop} {T : ℕ → ℕ → R}

/-- One pass of the loops of `triRM`. -/
def rmStep (E : LinOps R) (f : ℕ) (u : UploType) (tr : Trans) (unit : Bool) (mu : ℕ) (A : FTree G R) (Bt : Mat R) (x : ClusterTree G × ClusterTree G) :
    Option (Mat R) :=
  if x.1.ceq x.2 then
    match getOp tr x.1 x.2 A with
    | none => none
    | some Ac => (triRM E f .L u tr unit 1 Ac ⟨Bt.nr, x.1.sz, Bt.data.from' (mu * (x.1.off - (A.outC tr).off))⟩).map
        (fun V => { Bt with data := Buf.at' (mu * (x.1.off - (A.outC tr).off)) (fun _ => V.data) Bt.data })
  else if after (fwd u tr) x.1 x.2 then
    match getOp tr x.1 x.2 A with
    | none => none
    | some Ac => some { Bt with data := Buf.at' (mu * (x.1.off - (A.outC tr).off)) (fun o =>
        seqRM E.cplx tr (-1) Ac.toH (Bt.data.from' (Bt.nr * (x.2.off - (A.inC tr).off))) 1 o Bt.nr) Bt.data }
  else some Bt

theorem triRM_hier (f : ℕ) (tr : Trans) (α : R) (A : FTree G R) (B : Mat R) (hl : A.isLeaf = false) :
    triRM E (f + 1) .L u tr unit α A B = (pairs (ordered (fwd u tr) (clList A.bad (A.outC tr))) (ordered (fwd u tr) (clList A.bad (A.inC tr)))).foldlM
      (rmStep E f u tr unit (if α = 1 then B else Mat.scale α B).nr A) (if α = 1 then B else Mat.scale α B) := by
  rw [triRM, hl]
  rfl

theorem transpose_frame (A B : Mat R) (h1 : B.nr = A.nc) {k : ℕ} (hk : A.nc * A.nr ≤ k) : (Mat.transpose A B).data k = B.data k := by
  rw [Mat.transpose_eq]
  refine (loop2_get A.nr A.nc (fun i j => j + i * B.nr) A.get B.data
    (fun i _ j hj i' _ j' hj' h => (rm_inj (by omega) (by omega) h).symm)).2 k fun i hi j hj => ?_
  have := mat_idx_lt hj hi
  rw [h1]
  omega

theorem scale_data (α : R) (B : Mat R) {i k mu n : ℕ} (h1 : B.nr = mu) (h2 : B.nc = n) (hi : i < n) (hk : k < mu) :
    (if α = 1 then B else Mat.scale α B).data (i * mu + k) = α * B.data (i * mu + k) := by
  by_cases hα : α = 1
  · rw [if_pos hα, hα, one_mul]
  · rw [if_neg hα]
    show (if i * mu + k < B.nc * B.nr then _ else _) = _
    rw [if_pos]
    rw [h1, h2]; exact idx_lt' hk hi

theorem scale_dims (α : R) (B : Mat R) : (if α = 1 then B else Mat.scale α B).nr = B.nr ∧ (if α = 1 then B else Mat.scale α B).nc = B.nc ∧
    ∀ k, B.nr * B.nc ≤ k → (if α = 1 then B else Mat.scale α B).data k = B.data k := by
  by_cases hα : α = 1
  · rw [if_pos hα]; exact ⟨rfl, rfl, fun _ _ => rfl⟩
  · rw [if_neg hα]
    refine ⟨rfl, rfl, fun k hk => ?_⟩
    show (if k < B.nc * B.nr then _ else _) = _
    rw [if_neg (by rw [Nat.mul_comm]; omega)]

theorem sum_Ico_range (a n : ℕ) (f : ℕ → R) : ∑ l ∈ Ico a (a + n), f l = ∑ l ∈ range n, f (a + l) := by
  rw [Finset.sum_Ico_eq_sum_range]; congr 2; omega

omit [CommRing R] [StarRing R] [DecidableEq R] in
theorem after_asymm {fw : Bool} {p q : ClusterTree G} (h : after fw p q = true) (h' : after fw q p = true) : False := by
  rw [after_iff] at h h'
  cases fw <;> simp at h h' <;> omega

/-- **Row-major triangular solve.** -/
theorem triRM_spec (hE : TrsmOK E) (hreal : E.cplx = false → RealType R) (tr : Trans) :
    ∀ (f : ℕ) (A : FTree G R), A.ht ≤ f → TriRep u unit m ad T A → A.label.t.Top → ∀ (α : R) (B : Mat R) (mu : ℕ), B.nr = mu → B.nc = A.label.t.sz →
      ∃ B', triRM E f .L u tr unit α A B = some B' ∧ B'.nr = mu ∧ B'.nc = A.label.t.sz ∧
        (0 < mu → ∀ k, mu * A.label.t.sz ≤ k → B'.data k = B.data k) ∧
        ∀ i ∈ Ico A.label.t.off A.label.t.fin, ∀ k < mu,
          ∑ l ∈ Ico A.label.t.off A.label.t.fin, opE tr T i l * B'.data ((l - A.label.t.off) * mu + k) = α * B.data ((i - A.label.t.off) * mu + k) := by
  intro f
  induction f with
  | zero => intro A hA; have := Tree.ht_pos A; omega
  | succ f ih =>
    intro A hf hA ht α B mu hmu hnc
    have hsz := hA.shape.self.clT.sz_pos
    set c := A.label.t with hc
    obtain ⟨d1, d2, d3⟩ := scale_dims α B
    rw [hmu, hnc] at d3
    rw [hmu] at d1
    rw [hnc] at d2
    have dv : ∀ i < c.sz, ∀ k < mu, (if α = 1 then B else Mat.scale α B).data (i * mu + k) = α * B.data (i * mu + k) :=
      fun i hi k hk => scale_data α B hmu hnc hi hk
    generalize hBs : (if α = 1 then B else Mat.scale α B) = Bs at d1 d2 d3 dv
    cases hh : A.isHier with
    | false =>
      obtain ⟨D, piv, hdat, e1, e2, e3, e4, e5⟩ := hA.dense_of_leaf hh
      have hl : A.isLeaf = true := by rw [isLeaf_iff]; exact (hA.shape.self.leaf hh).1
      rw [triRM, hl]
      simp only [if_true, hdat, hBs]
      have g1 := C33_transpose Bs (Mat.mk' Bs.nc Bs.nr 0) rfl
      set W := Mat.transpose Bs (Mat.mk' Bs.nc Bs.nr (0 : R)) with hW
      have w1 : W.nr = c.sz := g1.1.trans d2
      have w2 : W.nc = mu := g1.2.1.trans d1
      obtain ⟨t1, t2, t3⟩ := triDense_spec hE .L hA.up tr unit 1 (A := D) (piv := piv) (B := W) (n := c.sz) (m := mu) e1 e2 e3 e4
        (by rw [w1, w2]; rfl)
      rw [w1] at t1
      rw [w2] at t2
      set X := triDense E .L u tr unit 1 D piv W with hX
      obtain ⟨k1, k2, k3⟩ := C33_transpose X Bs (by rw [d1, t2])
      refine ⟨_, rfl, k1.trans d1, k2.trans d2, fun _ k hk => ?_, fun i hi k hk => ?_⟩
      · rw [transpose_frame X Bs (by rw [d1, t2]) (by rw [t1, t2]; exact hk)]; exact d3 k hk
      · have hi' := mem_Ico.1 hi
        have i1 : i - c.off < c.sz := by unfold ClusterTree.fin at hi'; omega
        have v := t3 (i - c.off) i1 k hk
        rw [show c.fin = c.off + c.sz from rfl, sum_Ico_range]
        have hW' : W.get (i - c.off) k = α * B.data ((i - c.off) * mu + k) := by
          rw [g1.2.2 k (by omega) (i - c.off) (by omega), ← data_of_get Bs, d1]
          exact dv _ i1 k hk
        have hv : sv Side.L W.get (i - c.off) k = W.get (i - c.off) k := rfl
        rw [hv, hW', one_mul] at v
        rw [← v]
        refine Finset.sum_congr rfl fun l hl => ?_
        have hl' := mem_range.1 hl
        have hx : (Mat.transpose X Bs).data ((c.off + l - c.off) * mu + k) = X.get l k := by
          rw [Nat.add_sub_cancel_left, ← k3 l (by omega) k (by omega)]
          unfold Mat.get
          rw [k1, d1, Nat.add_comm]
        rw [hx]
        have ht : ∀ a b, a < c.sz → b < c.sz → T (c.off + a) (c.off + b) = ptri u unit D.get piv a b := fun a b ha hb => by
          have := e5 (c.off + a) (c.off + b) (by
            unfold FNode.Has; rw [← hA.square]
            simp only [← hc]
            unfold ClusterTree.fin; omega)
          simpa [← hc] using this
        have hi2 : i = c.off + (i - c.off) := by omega
        have : opE tr T i (c.off + l) = tv .L tr (ptri u unit D.get piv) (i - c.off) l := by
          unfold tv
          rw [if_pos rfl]
          rw [hi2, Nat.add_sub_cancel_left]
          cases tr <;> simp only [opE] <;> rw [ht _ _ (by assumption) (by assumption)]
        rw [this]; rfl
    | true =>
      have hl := hA.hier_not_leaf hh
      rw [triRM_hier f tr α A B hl, hBs, (hA.label_t tr).1, (hA.label_t tr).2, ← hc, d1]
      have cl := clL_of hA.shape.self.clT ht A.bad
      rw [← hc] at cl
      set L := clList A.bad c with hL
      set fw := fwd u tr with hfw
      have hfwS : fwS .L u tr = fw := rfl
      -- the loop
      have loop : TriLoop (σ := Mat R) (γ := Unit)
          (fun s x => s.nr = mu ∧ s.nc = c.sz ∧ (∀ l ∈ Ico c.off c.fin, ∀ k < mu, s.data ((l - c.off) * mu + k) = x l k) ∧
            (0 < mu → ∀ k, mu * c.sz ≤ k → s.data k = Bs.data k))
          (opE tr T) (fun q p => after fw p q = true) (ordered fw L) [()] (fun _ k => k < mu)
          (fun s x => rmStep E f u tr unit mu A s (x.1, x.2.2)) := by
        refine ⟨ordered_pairwise cl.tiles cl.pos fw, List.pairwise_singleton _ _, ?_, ?_, ?_, ?_, ?_⟩
        · intro q hq p hp hb i hi
          rw [ordered_mem] at hq hp
          rw [mem_Ico, mem_Ico] at hi
          rw [after_iff] at hb
          have f1 := fun hh => after_fin cl.tiles cl.pos hp hq hh
          have f2 := fun hh => after_fin cl.tiles cl.pos hq hp hh
          cases hfw' : fw <;> rw [hfw'] at hb <;> simp only [Bool.false_eq_true, if_false, if_true] at hb <;> have := f1 <;> have := f2 <;> omega
        · intro q hq p hp hb i hi l hl
          rw [ordered_mem] at hq hp
          exact hA.zero_side ht (bad := A.bad) id (Or.inr hh) .L tr hp hq hb hi hl
        · -- diagonal block
          intro p hp r hr s x hx
          rw [ordered_mem] at hp
          obtain ⟨x1, x2, x3, x4⟩ := hx
          obtain ⟨X, b1, b2, b3, b4, b5, b6, b7⟩ := hA.diag ht (bad := A.bad) id (Or.inr hh) hp
          have hX : getOp tr p p A = some X := by unfold getOp; rw [b1]; simp
          have hlt : X.ht < A.ht := b6 (by cases A.bad <;> simp)
          obtain ⟨V, v1, v2, v3, v4, v5⟩ := ih X (by omega) b2 (by rw [b3]; exact top_of_rank b7) 1
            ⟨mu, p.sz, s.data.from' (mu * (p.off - c.off))⟩ mu rfl (by rw [b3])
          rw [b3] at v3 v4 v5
          have bp := cl.bounds hp
          refine ⟨{ s with data := Buf.at' (mu * (p.off - c.off)) (fun _ => V.data) s.data },
            fun i k => if i ∈ Ico p.off p.fin ∧ k < mu then V.data ((i - p.off) * mu + k) else x i k, ?_, ⟨x1, x2, ?_, ?_⟩, ?_, ?_⟩
          · show rmStep E f u tr unit mu A s (p, p) = _
            unfold rmStep
            rw [if_pos (by simp [ClusterTree.ceq])]
            simp only [hX, x1, (hA.label_t tr).1, ← hc, v1]
            rfl
          · intro l hl k hk
            have hl' := mem_Ico.1 hl
            show (if mu * (p.off - c.off) ≤ (l - c.off) * mu + k then V.data ((l - c.off) * mu + k - mu * (p.off - c.off)) else _) = _
            beta_reduce
            by_cases h1 : l < p.off
            · rw [if_neg, if_neg (by rw [mem_Ico]; omega)]
              · exact x3 l hl k hk
              · have := idx_lt' (a := l - c.off) (b := k) (n := mu) (m := p.off - c.off) hk (by omega)
                rw [Nat.mul_comm mu]; omega
            · have e : (l - c.off) * mu + k = mu * (p.off - c.off) + ((l - p.off) * mu + k) := by
                have : l - c.off = (p.off - c.off) + (l - p.off) := by omega
                rw [this, Nat.add_mul, Nat.mul_comm mu]; omega
              rw [if_pos (by omega), e, Nat.add_sub_cancel_left]
              by_cases h2 : l < p.fin
              · rw [if_pos ⟨mem_Ico.2 (by omega), hk⟩]
              · rw [if_neg (by rw [mem_Ico]; omega)]
                rw [v4 (by omega) _ (by
                  have : mu * p.sz ≤ mu * (l - p.off) := Nat.mul_le_mul_left _ (by unfold ClusterTree.fin at h2; omega)
                  rw [Nat.mul_comm (l - p.off)]; omega)]
                show s.data (mu * (p.off - c.off) + ((l - p.off) * mu + k)) = _
                rw [← e]; exact x3 l hl k hk
          · intro h0 k hk
            have e1 : mu * c.sz = mu * (p.off - c.off) + mu * (c.fin - p.off) := by
              rw [← Nat.mul_add]; congr 1; unfold ClusterTree.fin at *; omega
            have e2 : mu * p.sz ≤ mu * (c.fin - p.off) := Nat.mul_le_mul_left _ (by unfold ClusterTree.fin at *; omega)
            show (if mu * (p.off - c.off) ≤ k then V.data (k - mu * (p.off - c.off)) else _) = _
            rw [if_pos (by omega), v4 h0 _ (by omega)]
            show s.data (mu * (p.off - c.off) + (k - mu * (p.off - c.off))) = _
            rw [Nat.add_sub_cancel' (by omega)]
            exact x4 h0 k hk
          · intro i k hik
            exact if_neg hik
          · intro i hi k hk
            have hi' := mem_Ico.1 hi
            have := v5 i hi k hk
            rw [one_mul] at this
            have e : (i - c.off) * mu + k = mu * (p.off - c.off) + ((i - p.off) * mu + k) := by
              have : i - c.off = (p.off - c.off) + (i - p.off) := by omega
              rw [this, Nat.add_mul, Nat.mul_comm mu]; omega
            have hr : s.data.from' (mu * (p.off - c.off)) ((i - p.off) * mu + k) = x i k := by
              rw [← x3 i (mem_Ico.2 (by omega)) k hk, e]; rfl
            rw [← hr]
            refine Eq.trans ?_ this
            refine Finset.sum_congr rfl fun l hl => ?_
            beta_reduce
            rw [if_pos ⟨hl, hk⟩]
        · -- off-diagonal block
          intro q hq p hp hb r hr s x hx
          rw [ordered_mem] at hq hp
          obtain ⟨x1, x2, x3, x4⟩ := hx
          obtain ⟨X, b1, b2, b3, b4, -⟩ := hA.off_side ht (bad := A.bad) id (Or.inr hh) .L tr hp hq hb
          have hX : getOp tr p q A = some X := b1
          simp only [if_true] at b3 b4
          have bp := cl.bounds hp
          have bq := cl.bounds hq
          have hne : p.ceq q = false := by
            by_contra hc
            have := (ceq_iff cl.tiles cl.pos hp hq).1 (by simpa using hc)
            subst this
            rw [after_iff] at hb
            cases fw <;> simp at hb
          have hseq : ∀ i k, k < mu → seqRM E.cplx tr (-1) X.toH (s.data.from' (mu * (q.off - c.off))) 1 (s.data.from' (mu * (p.off - c.off))) mu (i * mu + k) =
              if i < p.sz then x (p.off + i) k - ∑ l ∈ Ico q.off q.fin, opE tr T (p.off + i) l * x l k else s.data (mu * (p.off - c.off) + (i * mu + k)) := by
            intro i k hk
            rw [Rep.seqRM b2 hreal tr (-1) 1 _ _ hk i, opRows_outC, opCols_inC, b3, b4]
            by_cases h1 : i < p.sz
            · rw [if_pos h1, if_pos h1]
              have e : mu * (p.off - c.off) + (i * mu + k) = (p.off + i - c.off) * mu + k := by
                have : p.off + i - c.off = (p.off - c.off) + i := by omega
                rw [this, Nat.add_mul, Nat.mul_comm mu]; omega
              have hx : s.data.from' (mu * (p.off - c.off)) (i * mu + k) = x (p.off + i) k := by
                rw [← x3 _ (mem_Ico.2 (by unfold ClusterTree.fin at *; omega)) k hk, ← e]; rfl
              rw [hx, one_mul, sub_eq_add_neg, neg_one_mul, show q.fin = q.off + q.sz from rfl, sum_Ico_range]
              congr 2
              refine Finset.sum_congr rfl fun l hl => ?_
              rw [opE_rel, b3, b4]
              congr 1
              have hl' := mem_range.1 hl
              rw [← x3 _ (mem_Ico.2 (by unfold ClusterTree.fin at *; omega)) k hk]
              show s.data (mu * (q.off - c.off) + (l * mu + k)) = _
              congr 1
              have : q.off + l - c.off = (q.off - c.off) + l := by omega
              rw [this, Nat.add_mul, Nat.mul_comm mu]; omega
            · rw [if_neg h1, if_neg h1]; rfl
          refine ⟨{ s with data := Buf.at' (mu * (p.off - c.off)) (fun o =>
              seqRM E.cplx tr (-1) X.toH (s.data.from' (mu * (q.off - c.off))) 1 o mu) s.data },
            fun i k => if i ∈ Ico p.off p.fin ∧ k < mu then x i k - ∑ l ∈ Ico q.off q.fin, opE tr T i l * x l k else x i k, ?_, ⟨x1, x2, ?_, ?_⟩, ?_, ?_⟩
          · show rmStep E f u tr unit mu A s (p, q) = _
            unfold rmStep
            simp only [hne, Bool.false_eq_true, if_false]
            rw [if_pos (show after (fwd u tr) p q = true from hb)]
            simp only [hX, x1, (hA.label_t tr).1, (hA.label_t tr).2, ← hc]
          · intro l hl k hk
            have hl' := mem_Ico.1 hl
            show (if mu * (p.off - c.off) ≤ (l - c.off) * mu + k then seqRM E.cplx tr (-1) X.toH _ 1 _ mu ((l - c.off) * mu + k - mu * (p.off - c.off)) else _) = _
            beta_reduce
            by_cases h1 : l < p.off
            · rw [if_neg, if_neg (by rw [mem_Ico]; omega)]
              · exact x3 l hl k hk
              · have := idx_lt' (a := l - c.off) (b := k) (n := mu) (m := p.off - c.off) hk (by omega)
                rw [Nat.mul_comm mu]; omega
            · have e : (l - c.off) * mu + k = mu * (p.off - c.off) + ((l - p.off) * mu + k) := by
                have : l - c.off = (p.off - c.off) + (l - p.off) := by omega
                rw [this, Nat.add_mul, Nat.mul_comm mu]; omega
              rw [if_pos (by omega), e, Nat.add_sub_cancel_left, hseq _ k hk]
              by_cases h2 : l < p.fin
              · rw [if_pos (by unfold ClusterTree.fin at h2; omega), if_pos ⟨mem_Ico.2 (by omega), hk⟩, show p.off + (l - p.off) = l by omega]
              · rw [if_neg (by unfold ClusterTree.fin at h2; omega), if_neg (by rw [mem_Ico]; omega), ← e]
                exact x3 l hl k hk
          · intro h0 k hk
            have e1 : mu * c.sz = mu * (p.off - c.off) + mu * (c.fin - p.off) := by
              rw [← Nat.mul_add]; congr 1; unfold ClusterTree.fin at *; omega
            have e2 : mu * p.sz ≤ mu * (c.fin - p.off) := Nat.mul_le_mul_left _ (by unfold ClusterTree.fin at *; omega)
            show (if mu * (p.off - c.off) ≤ k then seqRM E.cplx tr (-1) X.toH _ 1 _ mu (k - mu * (p.off - c.off)) else _) = _
            rw [if_pos (by omega)]
            have hk' := Nat.div_add_mod (k - mu * (p.off - c.off)) mu
            have hm := Nat.mod_lt (k - mu * (p.off - c.off)) h0
            rw [Nat.mul_comm mu ((k - mu * (p.off - c.off)) / mu)] at hk'
            rw [← hk', hseq _ _ hm, if_neg, hk', Nat.add_sub_cancel' (by omega)]
            · exact x4 h0 k hk
            · intro hc2
              have := idx_lt' (m := p.sz) hm hc2
              rw [hk', Nat.mul_comm p.sz] at this
              omega
          · intro i k hik
            exact if_neg hik
          · intro i hi k hk
            exact if_pos ⟨hi, hk⟩
        · -- the other blocks
          intro p hp q hq hb r hr s
          rw [ordered_mem] at hq hp
          have hne : p.ceq q = false := by
            by_contra hc
            have := (ceq_iff cl.tiles cl.pos hp hq).1 (by simpa using hc)
            subst this
            rw [after_iff] at hb
            cases fw <;> simp at hb
          have hna : after fw p q = false := by
            by_contra hc
            exact after_asymm hb (by simpa using hc)
          show rmStep E f u tr unit mu A s (p, q) = _
          unfold rmStep
          simp only [hne, Bool.false_eq_true, if_false]
          rw [if_neg (by rw [← hfw]; simp [hna])]
      obtain ⟨B', x', e, ⟨p1, p2, p3, p4⟩, sol⟩ := loop.solve (s := Bs) (b := fun l k => Bs.data ((l - c.off) * mu + k)) ⟨d1, d2, fun _ _ _ _ => rfl, fun _ _ _ => rfl⟩
      refine ⟨B', ?_, p1, p2, fun h0 k hk => (p4 h0 k hk).trans (d3 k hk), fun i hi k hk => ?_⟩
      · rw [← e]
        have : pairs (ordered fw L) (ordered fw L) = ((ordered fw L).flatMap (fun p => [()].flatMap (fun r => (ordered fw L).map (fun q => (p, r, q))))).map
            (fun x => (x.1, x.2.2)) := by
          unfold pairs
          rw [List.map_flatMap]
          congr 1; funext p
          simp
        rw [this, List.foldlM_map]
      · obtain ⟨p, hp, hip⟩ := cl.cover hi
        have s1 := sol p (ordered_mem.2 hp) i hip () (by simp) k hk
        rw [blkSum_tiles cl.tiles] at s1
        have hi' := mem_Ico.1 hi
        rw [← dv (i - c.off) (by unfold ClusterTree.fin at hi'; omega) k hk]
        beta_reduce at s1
        rw [← s1]
        exact Finset.sum_congr rfl fun l hl => by rw [p3 l hl k hk]

/-- **Triangular solve with a dense right-hand side**, `op(T) X = alpha B` or `X op(T) = alpha B`. -/
theorem triHM_spec (hE : TrsmOK E) (hreal : E.cplx = false → RealType R) (side : Side) (tr : Trans) (f : ℕ) {A : FTree G R} (hf : A.ht ≤ f)
    (hA : TriRep u unit m ad T A) (ht : A.label.t.Top) (α : R) {B : Mat R} {mu : ℕ}
    (hB : (B.nr, B.nc) = (if side = .L then (A.label.t.sz, mu) else (mu, A.label.t.sz))) :
    ∃ X, triHM E f side u tr unit α A B = some X ∧ X.nr = B.nr ∧ X.nc = B.nc ∧ ∀ i < A.label.t.sz, ∀ k < mu,
      ∑ l ∈ range A.label.t.sz, tv side tr T (A.label.t.off + i) (A.label.t.off + l) * sv side X.get l k = α * sv side B.get i k := by
  set c := A.label.t with hc
  cases side with
  | L =>
    rw [if_pos rfl] at hB
    have b1 : B.nr = c.sz := congrArg Prod.fst hB
    have b2 : B.nc = mu := congrArg Prod.snd hB
    obtain ⟨g1, g2, g3⟩ := C33_transpose B (Mat.mk' B.nc B.nr 0) rfl
    set W := Mat.transpose B (Mat.mk' B.nc B.nr (0 : R)) with hW
    have w1 : W.nr = mu := g1.trans b2
    obtain ⟨Y, y1, y2, y3, -, y5⟩ := triRM_spec hE hreal tr f A hf hA ht α W mu w1 (g2.trans b1)
    obtain ⟨k1, k2, k3⟩ := C33_transpose Y B (by rw [y3, b1])
    refine ⟨_, by unfold triHM; rw [if_pos rfl, ← hW, y1]; rfl, k1, k2, fun i hi k hk => ?_⟩
    have v := y5 (c.off + i) (mem_Ico.2 (by rw [← hc]; unfold ClusterTree.fin; omega)) k hk
    rw [← hc, Nat.add_sub_cancel_left] at v
    have hw : W.data (i * mu + k) = B.get i k := by
      rw [← w1, data_of_get]; exact g3 i (by omega) k (by omega)
    rw [hw, show c.fin = c.off + c.sz from rfl, sum_Ico_range] at v
    show ∑ l ∈ range c.sz, _ * (Mat.transpose Y B).get l k = α * B.get i k
    rw [← v]
    refine Finset.sum_congr rfl fun l hl => ?_
    rw [Nat.add_sub_cancel_left]
    have hl' := mem_range.1 hl
    rw [k3 k (by omega) l (by rw [y3]; exact hl'), ← data_of_get, y2]
    rfl
  | R =>
    rw [if_neg (by decide)] at hB
    have b1 : B.nr = mu := congrArg Prod.fst hB
    have b2 : B.nc = c.sz := congrArg Prod.snd hB
    have main : ∀ (tt : Trans) (B1 : Mat R) (a : R), B1.nr = mu → B1.nc = c.sz → ∃ Y, triRM E f .L u tt unit a A B1 = some Y ∧ Y.nr = mu ∧ Y.nc = c.sz ∧
        ∀ i < c.sz, ∀ k < mu, ∑ l ∈ range c.sz, opE tt T (c.off + i) (c.off + l) * Y.get k l = a * B1.get k i := by
      intro tt B1 a h1 h2
      obtain ⟨Y, y1, y2, y3, -, y5⟩ := triRM_spec hE hreal tt f A hf hA ht a B1 mu h1 h2
      refine ⟨Y, y1, y2, y3, fun i hi k hk => ?_⟩
      have v := y5 (c.off + i) (mem_Ico.2 (by rw [← hc]; unfold ClusterTree.fin; omega)) k hk
      rw [← hc, Nat.add_sub_cancel_left, show c.fin = c.off + c.sz from rfl, sum_Ico_range] at v
      rw [← data_of_get B1, h1, ← v]
      refine Finset.sum_congr rfl fun l hl => ?_
      rw [Nat.add_sub_cancel_left, ← data_of_get Y, y2]
    unfold triHM
    rw [if_neg (by decide)]
    by_cases hC : tr = .C
    · subst hC
      simp only [reduceCtorEq, if_false, if_true]
      obtain ⟨Y, y1, y2, y3, y4⟩ := main .N { B with data := conjBuf (B.nr * B.nc) B.data } (star α) b1 b2
      rw [y1]
      refine ⟨_, rfl, y2.trans b1.symm, y3.trans b2.symm, fun i hi k hk => ?_⟩
      have v := congrArg star (y4 i hi k hk)
      have hb : Mat.get { B with data := conjBuf (B.nr * B.nc) B.data } k i = star (B.get k i) := by
        show (if k + i * B.nr < B.nr * B.nc then star _ else _) = _
        rw [if_pos (mat_idx_lt (by omega) (by omega))]; rfl
      rw [hb, star_mul', star_star, star_star, star_sum] at v
      rw [show sv Side.R B.get i k = B.get k i from rfl, ← v]
      refine Finset.sum_congr rfl fun l hl => ?_
      have hl' := mem_range.1 hl
      rw [star_mul']
      congr 1
      show Mat.get { Y with data := conjBuf (B.nr * B.nc) Y.data } k l = _
      show (if k + l * Y.nr < B.nr * B.nc then star _ else _) = _
      rw [if_pos (by rw [y2, ← b1]; exact mat_idx_lt (by omega) (by omega))]; rfl
    · rw [if_neg hC]
      obtain ⟨Y, y1, y2, y3, y4⟩ := main (if tr = .N then .T else .N) B α b1 b2
      refine ⟨Y, y1, y2.trans b1.symm, y3.trans b2.symm, fun i hi k hk => ?_⟩
      rw [show sv Side.R B.get i k = B.get k i from rfl, ← y4 i hi k hk]
      refine Finset.sum_congr rfl fun l _ => ?_
      congr 1
      cases tr with
      | N => rfl
      | T => rfl
      | C => exact absurd rfl hC

/-- **Triangular solve with a low-rank right-hand side.** -/
theorem triHLr_spec (hE : TrsmOK E) (hreal : E.cplx = false → RealType R) (side : Side) (tr : Trans) (f : ℕ) {A : FTree G R} (hf : A.ht ≤ f)
    (hA : TriRep u unit m ad T A) (ht : A.label.t.Top) (α : R) {B : LR R} {mu : ℕ} (hw : B.WF)
    (hB : (B.nr, B.nc) = (if side = .L then (A.label.t.sz, mu) else (mu, A.label.t.sz))) :
    ∃ X, triHLr E f side u tr unit α A B = some X ∧ X.WF ∧ X.nr = B.nr ∧ X.nc = B.nc ∧ ∀ i < A.label.t.sz, ∀ k < mu,
      ∑ l ∈ range A.label.t.sz, tv side tr T (A.label.t.off + i) (A.label.t.off + l) * sv side X.entry l k = α * sv side B.entry i k := by
  set c := A.label.t with hc
  obtain ⟨s1, s2, s3, s4⟩ := scale_is (C := B) (m := B.nr) (n := B.nc) (F := B.entry) ⟨hw, rfl, rfl, fun _ _ _ _ => rfl⟩ α
  generalize hBs : (if α = 1 then B else B.scale α) = Bs at s1 s2 s3 s4
  unfold triHLr
  rw [hBs]
  have r1 : Bs.rank = Bs.U.nc := rfl
  cases side with
  | L =>
    rw [if_pos rfl] at hB ⊢
    have b1 : B.nr = c.sz := congrArg Prod.fst hB
    have b2 : B.nc = mu := congrArg Prod.snd hB
    obtain ⟨X, x1, x2, x3, x4⟩ := triHM_spec hE hreal .L tr f hf hA ht 1 (B := Bs.U) (mu := Bs.U.nc)
      (by rw [if_pos rfl]; exact congrArg (·, Bs.U.nc) (s2.trans b1))
    rw [x1]
    refine ⟨⟨X, Bs.V⟩, rfl, by unfold LR.WF; rw [x3]; exact s1, x2.trans s2, s3, fun i hi k hk => ?_⟩
    have v := s4 i (by omega) k (by omega)
    beta_reduce at v
    show ∑ l ∈ range c.sz, _ * LR.entry ⟨X, Bs.V⟩ l k = α * B.entry i k
    rw [← v]
    unfold LR.entry
    have hr : LR.rank ⟨X, Bs.V⟩ = Bs.U.nc := x3
    rw [hr, r1]
    simp only [Finset.mul_sum]
    rw [Finset.sum_comm]
    refine Finset.sum_congr rfl fun j hj => ?_
    have := x4 i hi j (mem_range.1 hj)
    rw [one_mul] at this
    rw [show Bs.U.get i j = sv Side.L Bs.U.get i j from rfl, ← this, Finset.sum_mul]
    refine Finset.sum_congr rfl fun l _ => ?_
    rw [mul_assoc]; rfl
  | R =>
    rw [if_neg (by decide)] at hB ⊢
    have b1 : B.nr = mu := congrArg Prod.fst hB
    have b2 : B.nc = c.sz := congrArg Prod.snd hB
    obtain ⟨X, x1, x2, x3, x4⟩ := triHM_spec hE hreal .R tr f hf hA ht 1 (B := Bs.V) (mu := Bs.V.nr)
      (by rw [if_neg (by decide)]; exact congrArg (Bs.V.nr, ·) (s3.trans b2))
    rw [x1]
    refine ⟨⟨Bs.U, X⟩, rfl, by unfold LR.WF; rw [x2]; exact s1, s2, x3.trans s3, fun i hi k hk => ?_⟩
    have v := s4 k (by omega) i (by omega)
    beta_reduce at v
    show ∑ l ∈ range c.sz, _ * LR.entry ⟨Bs.U, X⟩ k l = α * B.entry k i
    rw [← v]
    unfold LR.entry
    have hr : LR.rank ⟨Bs.U, X⟩ = Bs.U.nc := rfl
    rw [hr, r1]
    simp only [Finset.mul_sum]
    rw [Finset.sum_comm]
    refine Finset.sum_congr rfl fun j hj => ?_
    have := x4 i hi j (by rw [s1]; exact mem_range.1 hj)
    rw [one_mul] at this
    rw [show Bs.V.get j i = sv Side.R Bs.V.get i j from rfl, ← this, Finset.mul_sum]
    refine Finset.sum_congr rfl fun l _ => ?_
    show _ * (_ * X.get j l) = _ * (_ * X.get j l)
    ring

end tri
end Htool
