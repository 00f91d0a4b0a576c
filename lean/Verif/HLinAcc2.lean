import Verif.HLinAcc

/-! # Accuracy of the product of two hierarchical matrices into a low-rank matrix -/

namespace Htool
open Finset
variable {G 𝕜 : Type*} [RCLike 𝕜]

/-! ## Bounds on the exact values -/

/-- The entries of `|op(MA)| |op(MB)|`, the inner index running over the cluster `c`. -/
noncomputable def aprod (ta tb : Trans) (MA MB : ℕ → ℕ → 𝕜) (c : ClusterTree G) (i j : ℕ) : ℝ := ∑ l ∈ Ico c.off c.fin, ‖opE ta MA i l‖ * ‖opE tb MB l j‖

theorem aprod_nonneg (ta tb : Trans) (MA MB : ℕ → ℕ → 𝕜) (c : ClusterTree G) (i j : ℕ) : 0 ≤ aprod ta tb MA MB c i j :=
  sum_nonneg fun _ _ => mul_nonneg (norm_nonneg _) (norm_nonneg _)

theorem norm_mprod_le (ta tb : Trans) (MA MB : ℕ → ℕ → 𝕜) (c : ClusterTree G) (i j : ℕ) : ‖mprod ta tb MA MB c i j‖ ≤ aprod ta tb MA MB c i j :=
  (norm_sum_le _ _).trans (le_of_eq (sum_congr rfl fun _ _ => norm_mul _ _))

theorem norm_smul_mprod_le (ta tb : Trans) (α : 𝕜) (MA MB : ℕ → ℕ → 𝕜) (c : ClusterTree G) (i j : ℕ) :
    ‖α * mprod ta tb MA MB c i j‖ ≤ ‖α‖ * aprod ta tb MA MB c i j := by
  rw [norm_mul]
  exact mul_le_mul_of_nonneg_left (norm_mprod_le ..) (norm_nonneg _)

theorem aprod_tiles {c : ClusterTree G} {l : List (ClusterTree G)} (h : Tiles c.off c.fin (l.map ClusterTree.iv)) (ta tb : Trans)
    (MA MB : ℕ → ℕ → 𝕜) (i j : ℕ) : aprod ta tb MA MB c i j = (l.map (fun m => aprod ta tb MA MB m i j)).sum := sum_Ico_tiles h _

/-- `W` bounds the entries; its norm on any block is at most `B`. -/
def Maj (W : ℕ → ℕ → ℝ) (B : ℝ) : Prop := ∀ o o' m n, frob m n (rel W o o') ≤ B

theorem Maj.nonneg {W : ℕ → ℕ → ℝ} {B : ℝ} (h : Maj W B) : 0 ≤ B := (frob_nonneg _ _ _).trans (h 0 0 0 0)

theorem Maj.frob {W : ℕ → ℕ → ℝ} {B : ℝ} (h : Maj W B) {o o' m n : ℕ} {F : ℕ → ℕ → 𝕜} (hF : ∀ i < m, ∀ j < n, ‖F i j‖ ≤ W (o + i) (o' + j)) :
    Htool.frob m n F ≤ B := by
  refine le_trans ?_ (h o o' m n)
  unfold Htool.frob
  refine Real.sqrt_le_sqrt (sum_le_sum fun i hi => sum_le_sum fun j hj => ?_)
  exact pow_le_pow_left₀ (norm_nonneg _) ((hF i (mem_range.1 hi) j (mem_range.1 hj)).trans (le_abs_self _)) 2

/-- A number of truncations: products of depth at most `h`, lists of at most `a` clusters. -/
def truncs (a : ℕ) : ℕ → ℕ
  | 0 => 3
  | h + 1 => a ^ 2 * (a * truncs a h + 1) + 3

theorem three_le_truncs (a h : ℕ) : 3 ≤ truncs a h := by
  cases h with
  | zero => exact Nat.le_refl _
  | succ h => unfold truncs; omega

/-! ## Adding low-rank blocks to a low-rank matrix -/

section acc
variable [DecidableEq 𝕜] {E : LinOps 𝕜} {ε B : ℝ} {W : ℕ → ℕ → ℝ}

/-- One sum: the block `X` on the clusters `xp`, `xq` added to the matrix `C` on `p`, `q`. -/
theorem addLR_near (hE : E.Acc ε) (hε : 0 ≤ ε) (hB : 0 ≤ B) {p q xp xq : ClusterTree G} (hp : ClOK p) (hq : ClOK q) (d1 : p.Desc xp) (d2 : q.Desc xq)
    {V F : ℕ → ℕ → 𝕜} {X C : LR 𝕜} {kx k : ℕ} (hX : X.Near (accErr ε B kx) xp.sz xq.sz (rel V xp.off xq.off))
    (hC : C.Near (accErr ε B k) p.sz q.sz (rel F p.off q.off))
    (hb : frob p.sz q.sz (rel (fun i j => F i j + if (xp.off ≤ i ∧ i < xp.fin) ∧ xq.off ≤ j ∧ j < xq.fin then V i j else 0) p.off q.off) ≤ B) :
    (LR.addLR E.rc X xp.iv xq.iv C p.iv q.iv).Near (accErr ε B (k + kx + 1)) p.sz q.sz
      (rel (fun i j => F i j + if (xp.off ≤ i ∧ i < xp.fin) ∧ xq.off ≤ j ∧ j < xq.fin then V i j else 0) p.off q.off) := by
  have b1 := hp.desc_bounds d1
  have b2 := hq.desc_bounds d2
  obtain ⟨P, P1, P2, P3, P4, P5, P6⟩ := C32_sum E.rc X C xp.iv xq.iv p.iv q.iv hX.1 hC.1 hX.2.1 hX.2.2.1 hC.2.1 hC.2.2.1 (Or.inl ⟨b1, b2⟩)
  have ent : ∀ i < p.sz, ∀ j < q.sz, P.entry i j = C.entry i j + if (xp.off - p.off ≤ i ∧ i < xp.off - p.off + xp.sz) ∧
      (xq.off - q.off ≤ j ∧ j < xq.off - q.off + xq.sz) then X.entry (i - (xp.off - p.off)) (j - (xq.off - q.off)) else 0 := by
    intro i hi j hj
    have := P5 (p.off + i) (q.off + j) (by unfold InCl ClusterTree.iv; omega) (by unfold InCl ClusterTree.iv; omega)
    have e1 : p.off + i - p.iv.1 = i := by unfold ClusterTree.iv; omega
    have e2 : q.off + j - q.iv.1 = j := by unfold ClusterTree.iv; omega
    rw [e1, e2] at this
    rw [this]
    congr 1
    by_cases hc : (xp.off - p.off ≤ i ∧ i < xp.off - p.off + xp.sz) ∧ (xq.off - q.off ≤ j ∧ j < xq.off - q.off + xq.sz)
    · rw [if_pos hc, if_pos (show InCl xp.iv (p.off + i) ∧ InCl xq.iv (q.off + j) by
        unfold InCl ClusterTree.iv; unfold ClusterTree.fin at b1 b2; omega)]
      congr 1 <;> (unfold ClusterTree.iv; omega)
    · rw [if_neg hc, if_neg (show ¬ (InCl xp.iv (p.off + i) ∧ InCl xq.iv (q.off + j)) by
        unfold InCl ClusterTree.iv; unfold ClusterTree.fin at b1 b2; omega)]
  have hP : P.Near (accErr ε B (k + kx)) p.sz q.sz
      (rel (fun i j => F i j + if (xp.off ≤ i ∧ i < xp.fin) ∧ xq.off ≤ j ∧ j < xq.fin then V i j else 0) p.off q.off) := by
    refine ⟨P1, P2.trans hC.2.1, P3.trans hC.2.2.1, ?_⟩
    have t := frob_add_le p.sz q.sz (fun i j => C.entry i j - rel F p.off q.off i j)
      (fun i j => if (xp.off - p.off ≤ i ∧ i < xp.off - p.off + xp.sz) ∧ (xq.off - q.off ≤ j ∧ j < xq.off - q.off + xq.sz) then
        (fun a b => X.entry a b - rel V xp.off xq.off a b) (i - (xp.off - p.off)) (j - (xq.off - q.off)) else 0)
    have fe := frob_ext (M := p.sz) (N := q.sz) (o := xp.off - p.off) (o' := xq.off - q.off) (m := xp.sz) (n := xq.sz)
      (by unfold ClusterTree.fin at b1; omega) (by unfold ClusterTree.fin at b2; omega) (fun a b => X.entry a b - rel V xp.off xq.off a b)
    rw [fe] at t
    refine le_trans (le_trans (le_of_eq (frob_congr fun i hi j hj => ?_)) t) ?_
    · rw [ent i hi j hj]
      unfold rel
      beta_reduce
      by_cases hc : (xp.off - p.off ≤ i ∧ i < xp.off - p.off + xp.sz) ∧ (xq.off - q.off ≤ j ∧ j < xq.off - q.off + xq.sz)
      · rw [if_pos hc, if_pos hc, if_pos (by unfold ClusterTree.fin at b1 b2 ⊢; omega)]
        have e1 : xp.off + (i - (xp.off - p.off)) = p.off + i := by omega
        have e2 : xq.off + (j - (xq.off - q.off)) = q.off + j := by omega
        rw [e1, e2]; ring
      · rw [if_neg hc, if_neg hc, if_neg (by unfold ClusterTree.fin at b1 b2 ⊢; omega)]; ring
    · exact (add_le_add hC.2.2.2 hX.2.2.2).trans (accErr_add hε hB k kx)
  rw [P6]
  by_cases h0 : C.rank = 0
  · rw [if_pos h0]; exact hP.le (accErr_mono hε hB (by omega))
  · rw [if_neg h0]; exact hP.rc hE hε (by omega) hp.size_pos hq.size_pos hb

theorem addLR_fold_near (hE : E.Acc ε) (hε : 0 ≤ ε) (hW : Maj W B) {p q : ClusterTree G} (hp : ClOK p) (hq : ClOK q) {V : ℕ → ℕ → 𝕜} {kx : ℕ} :
    ∀ {l : List ((ClusterTree G × ClusterTree G) × LR 𝕜)} {C : LR 𝕜} {F : ℕ → ℕ → 𝕜} {k : ℕ},
    (∀ x ∈ l, p.Desc x.1.1 ∧ q.Desc x.1.2 ∧ x.2.Near (accErr ε B kx) x.1.1.sz x.1.2.sz (rel V x.1.1.off x.1.2.off)) →
    C.Near (accErr ε B k) p.sz q.sz (rel F p.off q.off) →
    (∀ i j, (p.off ≤ i ∧ i < p.fin) → (q.off ≤ j ∧ j < q.fin) → ‖F i j‖ +
      (l.map (fun x => if (x.1.1.off ≤ i ∧ i < x.1.1.fin) ∧ x.1.2.off ≤ j ∧ j < x.1.2.fin then ‖V i j‖ else 0)).sum ≤ W i j) →
    (l.foldl (fun C x => LR.addLR E.rc x.2 x.1.1.iv x.1.2.iv C p.iv q.iv) C).Near (accErr ε B (k + l.length * (kx + 1))) p.sz q.sz
      (rel (fun i j => F i j + (l.map (fun x => if (x.1.1.off ≤ i ∧ i < x.1.1.fin) ∧ x.1.2.off ≤ j ∧ j < x.1.2.fin then V i j else 0)).sum) p.off q.off)
  | [], C, F, k, _, hC, _ => (hC.congr fun i _ j _ => by simp [rel]).le (accErr_mono hε hW.nonneg (by simp))
  | x :: l, C, F, k, hx, hC, hb => by
    obtain ⟨d1, d2, hm⟩ := hx x (by simp)
    have nn : ∀ i j, 0 ≤ (l.map (fun x => if (x.1.1.off ≤ i ∧ i < x.1.1.fin) ∧ x.1.2.off ≤ j ∧ j < x.1.2.fin then ‖V i j‖ else 0)).sum := by
      intro i j
      refine List.sum_nonneg fun a ha => ?_
      obtain ⟨y, -, rfl⟩ := List.mem_map.1 ha
      split
      · exact norm_nonneg _
      · exact le_refl _
    have st : ∀ i j, ‖F i j + if (x.1.1.off ≤ i ∧ i < x.1.1.fin) ∧ x.1.2.off ≤ j ∧ j < x.1.2.fin then V i j else 0‖ ≤
        ‖F i j‖ + if (x.1.1.off ≤ i ∧ i < x.1.1.fin) ∧ x.1.2.off ≤ j ∧ j < x.1.2.fin then ‖V i j‖ else 0 := by
      intro i j
      split
      · exact norm_add_le _ _
      · rw [add_zero, add_zero]
    have s := addLR_near hE hε hW.nonneg hp hq d1 d2 hm hC (hW.frob (o := p.off) (o' := q.off) fun i hi j hj => by
      have h := hb (p.off + i) (q.off + j) (by unfold ClusterTree.fin; omega) (by unfold ClusterTree.fin; omega)
      rw [List.map_cons, List.sum_cons] at h
      have := nn (p.off + i) (q.off + j)
      have := st (p.off + i) (q.off + j)
      unfold rel
      beta_reduce
      linarith)
    rw [List.foldl_cons]
    refine ((addLR_fold_near hE hε hW hp hq (fun y hy => hx y (by simp [hy])) s ?_).congr fun i _ j _ => ?_).le ?_
    · intro i j hi hj
      have h := hb i j hi hj
      rw [List.map_cons, List.sum_cons] at h
      have := st i j
      linarith
    · unfold rel
      beta_reduce
      rw [List.map_cons, List.sum_cons, add_assoc]
    · refine accErr_mono hε hW.nonneg (le_of_eq ?_)
      rw [List.length_cons]; ring

/-! ## The product -/

/-- The operands: a matrix `M`, and lists of at most `a` clusters in the loops of the products. -/
def OpndP (ad : ClusterTree G → ClusterTree G → Prop) (M : ℕ → ℕ → 𝕜) (a : ℕ) (n : FNode G 𝕜) : Prop :=
  RepP .full ad M n ∧ ∀ bad, (clList bad n.t).length ≤ a ∧ (clList bad n.s).length ≤ a

/-- See `OpndP`. -/
def Opnd (ad : ClusterTree G → ClusterTree G → Prop) (M : ℕ → ℕ → 𝕜) (a : ℕ) (A : FTree G 𝕜) : Prop := Shape .full (OpndP ad M a) A

omit [DecidableEq 𝕜] in
theorem Opnd.rep {ad : ClusterTree G → ClusterTree G → Prop} {M : ℕ → ℕ → 𝕜} {a : ℕ} {A : FTree G 𝕜} (h : Opnd ad M a A) : Rep .full ad M A :=
  Shape.imp h fun _ _ h => h.1

omit [DecidableEq 𝕜] in
theorem Opnd.len {ad : ClusterTree G → ClusterTree G → Prop} {M : ℕ → ℕ → 𝕜} {a : ℕ} {A : FTree G 𝕜} (h : Opnd ad M a A) (bad : Bool) (tr : Trans) :
    (clList bad (A.outC tr)).length ≤ a ∧ (clList bad (A.inC tr)).length ≤ a := by
  have := (Shape.self h).prop.2 bad
  cases tr
  · exact this
  · exact this.symm
  · exact this.symm

theorem pairs_length {α β : Type*} (l : List α) (l' : List β) : (pairs l l').length = l.length * l'.length := by
  induction l with
  | nil => simp [pairs]
  | cons c l ih =>
    unfold pairs at ih ⊢
    rw [List.flatMap_cons, List.length_append, ih, List.length_map, List.length_cons]; ring

theorem list_sum_nonneg' {α : Type*} {l : List α} {f : α → ℝ} (h : ∀ a, 0 ≤ f a) : 0 ≤ (l.map f).sum :=
  List.sum_nonneg fun a ha => by obtain ⟨y, -, rfl⟩ := List.mem_map.1 ha; exact h y

theorem collect_blocks {S : Type*} [CommRing S] [StarRing S] {l' : List ((ClusterTree G × ClusterTree G) × LR 𝕜)} {a b a' b' : ℕ}
    {l1 l2 : List (ClusterTree G)} (h : l'.map Prod.fst = pairs l1 l2) (h1 : Tiles a b (l1.map ClusterTree.iv)) (h2 : Tiles a' b' (l2.map ClusterTree.iv))
    (i j : ℕ) (hi : a ≤ i ∧ i < b) (hj : a' ≤ j ∧ j < b') {v : S} :
    (l'.map (fun x => if (x.1.1.off ≤ i ∧ i < x.1.1.fin) ∧ x.1.2.off ≤ j ∧ j < x.1.2.fin then v else 0)).sum = v := by
  have : (l'.map (fun x => if (x.1.1.off ≤ i ∧ i < x.1.1.fin) ∧ x.1.2.off ≤ j ∧ j < x.1.2.fin then v else 0)) =
      (pairs l1 l2).map (fun x => if (x.1.off ≤ i ∧ i < x.1.fin) ∧ x.2.off ≤ j ∧ j < x.2.fin then v else 0) := by
    rw [← h, List.map_map]; rfl
  rw [this]
  exact sum_pairs_tiles h1 h2 _ _ hi hj _

/-- Product of two H-matrices into a low-rank matrix: the exact result, up to the errors of the truncations. -/
theorem hhLR_near (hE : E.Acc ε) (hε : 0 ≤ ε) (hW : Maj W B) {adA adB : ClusterTree G → ClusterTree G → Prop} {MA MB : ℕ → ℕ → 𝕜} {a : ℕ}
    (ta tb : Trans) (α : 𝕜) :
    ∀ (n h : ℕ) (A X : FTree G 𝕜), A.ht + X.ht ≤ n → A.ht + (if X.bad then 1 else 0) ≤ h → Opnd adA MA a A → Opnd adB MB a X → A.label.t.Top →
      A.label.s.Top → X.label.t.Top → X.label.s.Top → A.inC ta = X.outC tb → ∀ (C : LR 𝕜) (F : ℕ → ℕ → 𝕜) (k : ℕ),
      C.Near (accErr ε B k) (A.outC ta).sz (X.inC tb).sz (rel F (A.outC ta).off (X.inC tb).off) →
      (∀ i j, ((A.outC ta).off ≤ i ∧ i < (A.outC ta).fin) → ((X.inC tb).off ≤ j ∧ j < (X.inC tb).fin) →
        ‖F i j‖ + ‖α‖ * aprod ta tb MA MB (A.inC ta) i j ≤ W i j) →
      ∃ C', hhLR E n ta tb α A X 1 C = some C' ∧ C'.Near (accErr ε B (k + truncs a h)) (A.outC ta).sz (X.inC tb).sz
        (rel (fun i j => F i j + α * mprod ta tb MA MB (A.inC ta) i j) (A.outC ta).off (X.inC tb).off) := by
  intro n
  induction n with
  | zero => intro h A X hn; have := Tree.ht_pos A; omega
  | succ n ih =>
    intro h A X hn hh0 hA hX a1 a2 b1 b2 hin C F k hC hF
    have hB := hW.nonneg
    have blkF : ∀ {i j : ℕ}, i < (A.outC ta).sz → j < (X.inC tb).sz → ‖F ((A.outC ta).off + i) ((X.inC tb).off + j)‖ +
        ‖α‖ * aprod ta tb MA MB (A.inC ta) ((A.outC ta).off + i) ((X.inC tb).off + j) ≤ W ((A.outC ta).off + i) ((X.inC tb).off + j) :=
      fun hi hj => hF _ _ (by unfold ClusterTree.fin; omega) (by unfold ClusterTree.fin; omega)
    by_cases hh : (A.isHier && X.isHier) = false
    · refine ⟨_, hhLR_leaf n ta tb α A X 1 C hh, ?_⟩
      rw [if_pos rfl]
      refine (leafLR_near hE hε hB hA.rep hX.rep hh ta tb α hin (Or.inl hC) ?_ ?_).le (accErr_mono hε hB (by have := three_le_truncs a h; omega))
      · refine hW.frob (o := (A.outC ta).off) (o' := (X.inC tb).off) fun i hi j hj => ?_
        have := blkF hi hj
        have := norm_nonneg (F ((A.outC ta).off + i) ((X.inC tb).off + j))
        have := norm_smul_mprod_le ta tb α MA MB (A.inC ta) ((A.outC ta).off + i) ((X.inC tb).off + j)
        unfold rel
        linarith
      · refine hW.frob (o := (A.outC ta).off) (o' := (X.inC tb).off) fun i hi j hj => ?_
        have := blkF hi hj
        have := norm_smul_mprod_le ta tb α MA MB (A.inC ta) ((A.outC ta).off + i) ((X.inC tb).off + j)
        have := norm_add_le (F ((A.outC ta).off + i) ((X.inC tb).off + j)) (α * mprod ta tb MA MB (A.inC ta) ((A.outC ta).off + i) ((X.inC tb).off + j))
        unfold rel
        linarith
    · have hh : A.isHier = true ∧ X.isHier = true := by simpa using hh
      obtain ⟨h, rfl⟩ : ∃ h', h = h' + 1 := ⟨h - 1, by have := Tree.ht_pos A; omega⟩
      have okA := clList_outC hA ta
      have okB := clList_outC hX tb
      have tA := top_outC a1 a2 ta
      have tB := top_outC b1 b2 tb
      set bad := A.bad || X.bad with hbad
      have bA : A.bad = true → bad = true := fun h => by rw [hbad, h]; rfl
      have bB : X.bad = true → bad = true := fun h => by rw [hbad, h]; simp
      have tilesM := clList_tiles (bad := bad) okA.2 tA.2
      -- one block of the result
      have blk : ∀ x ∈ pairs (clList bad (A.outC ta)) (clList bad (X.inC tb)), ∃ y : (ClusterTree G × ClusterTree G) × LR 𝕜,
          ((clList bad (A.inC ta)).foldlM (fun (L : LR 𝕜) m =>
            match getOp ta x.1 m A, getOp tb m x.2 X with
            | some Ac, some Bc => hhLR E n ta tb α Ac Bc 1 L
            | _, _ => none) ⟨Mat.mk' x.1.sz 0 0, Mat.mk' 0 x.2.sz 0⟩).map (fun L => (x, L)) = some y ∧
          (y.1 = x ∧ y.2.Near (accErr ε B (a * truncs a h)) x.1.sz x.2.sz
            (rel (fun i j => α * mprod ta tb MA MB (A.inC ta) i j) x.1.off x.2.off)) := by
        rintro ⟨p, q⟩ hx
        rw [mem_pairs] at hx
        obtain ⟨hp, hq⟩ := hx
        have inO := okA.1.desc_bounds (clList_desc okA.1 tA.1 hp)
        have inI := okB.2.desc_bounds (clList_desc okB.2 tB.2 hq)
        have loop : ∀ l : List (ClusterTree G), (∀ m ∈ l, m ∈ clList bad (A.inC ta)) → ∀ (L : LR 𝕜) (H : ℕ → ℕ → 𝕜) (k : ℕ),
            L.Near (accErr ε B k) p.sz q.sz (rel H p.off q.off) →
            (∀ i j, (p.off ≤ i ∧ i < p.fin) → (q.off ≤ j ∧ j < q.fin) →
              ‖H i j‖ + ‖α‖ * (l.map (fun m => aprod ta tb MA MB m i j)).sum ≤ W i j) →
            ∃ L', l.foldlM (fun (L : LR 𝕜) m =>
              match getOp ta p m A, getOp tb m q X with
              | some Ac, some Bc => hhLR E n ta tb α Ac Bc 1 L
              | _, _ => none) L = some L' ∧
              L'.Near (accErr ε B (k + l.length * truncs a h)) p.sz q.sz
                (rel (fun i j => H i j + α * (l.map (fun m => mprod ta tb MA MB m i j)).sum) p.off q.off) := by
          intro l
          induction l with
          | nil => intro _ L H k hL _; exact ⟨L, rfl, (hL.congr fun i _ j _ => by simp [rel]).le (accErr_mono hε hB (by simp))⟩
          | cons m l ihl =>
            intro hm L H k hL hH
            have hml := hm m (by simp)
            obtain ⟨Y, x1, x2, x3, x4, x5, x6, x7, x8⟩ := Shape.getOp_spec hA a1 a2 bA (Or.inr hh.1) ta hp hml
            obtain ⟨Z, y1, y2, y3, y4, y5, y6, y7, y8⟩ := Shape.getOp_spec hX b1 b2 bB (Or.inr hh.2) tb (p := m) (q := q) (by rw [← hin]; exact hml) hq
            have hlt : Y.ht + Z.ht ≤ n := by
              cases hb : bad with
              | false => have := x6 (Or.inl hb); omega
              | true =>
                rw [hbad, Bool.or_eq_true] at hb
                rcases hb with hb | hb
                · have := x6 (Or.inr hb); omega
                · have := y6 (Or.inr hb); omega
            have hZb : Z.bad = false := by
              by_contra hc
              have := bad_iff.1 (by simpa using hc : Z.bad = true)
              omega
            have hlth : Y.ht + (if Z.bad then 1 else 0) ≤ h := by
              simp only [hZb, Bool.false_eq_true, if_false]
              by_cases hAb : bad = false ∨ A.bad = true
              · have := x6 hAb; omega
              · have hb1 : bad = true := by simpa using fun h => hAb (Or.inl h)
                have hb2 : X.bad = true := by
                  rw [hbad, Bool.or_eq_true] at hb1
                  exact hb1.resolve_left fun h => hAb (Or.inr h)
                simp only [hb2, if_true] at hh0
                omega
            have rest : ∀ i j, 0 ≤ ‖α‖ * (l.map (fun m => aprod ta tb MA MB m i j)).sum := fun i j =>
              mul_nonneg (norm_nonneg _) (list_sum_nonneg' fun m => aprod_nonneg ..)
            obtain ⟨L', l1, l2⟩ := ih h Y Z hlt hlth x2 y2 (top_of_rank x7) (top_of_rank x8) (top_of_rank y7) (top_of_rank y8) (by rw [x4, y3]) L H k
              (by rw [x3, y4]; exact hL) (by
                rw [x3, x4, y4]
                intro i j hi hj
                have h1 := hH i j hi hj
                rw [List.map_cons, List.sum_cons, mul_add] at h1
                have := rest i j
                linarith)
            rw [x3, x4, y4] at l2
            obtain ⟨L2, m1, m2⟩ := ihl (fun z hz => hm z (by simp [hz])) L' _ _ l2 (by
              intro i j hi hj
              have h1 := hH i j hi hj
              rw [List.map_cons, List.sum_cons, mul_add] at h1
              have h2 := norm_add_le (H i j) (α * mprod ta tb MA MB m i j)
              have h3 := norm_smul_mprod_le ta tb α MA MB m i j
              linarith)
            refine ⟨L2, ?_, (m2.congr fun i _ j _ => ?_).le (accErr_mono hε hB (le_of_eq ?_))⟩
            · rw [List.foldlM_cons]
              simp only [x1, y1, l1]
              exact m1
            · unfold rel
              beta_reduce
              rw [List.map_cons, List.sum_cons]; ring
            · rw [List.length_cons]; ring
        obtain ⟨L', l1, l2⟩ := loop (clList bad (A.inC ta)) (fun _ h => h) (nilLR 𝕜 p.sz q.sz) (fun _ _ => 0) 0
          (by rw [accErr_zero]; exact (nilLR_is _ _).near) (by
            intro i j hi hj
            rw [norm_zero, zero_add, ← aprod_tiles tilesM]
            simp only at inO inI
            have h1 := hF i j (by unfold ClusterTree.fin at *; omega) (by unfold ClusterTree.fin at *; omega)
            have := norm_nonneg (F i j)
            linarith)
        refine ⟨((p, q), L'), ?_, rfl, (l2.congr fun i _ j _ => ?_).le (accErr_mono hε hB ?_)⟩
        · have : (⟨Mat.mk' p.sz 0 0, Mat.mk' 0 q.sz 0⟩ : LR 𝕜) = nilLR 𝕜 p.sz q.sz := rfl
          simp only [this, l1, Option.map_some]
        · unfold rel
          beta_reduce
          rw [zero_add, mprod_tiles tilesM]
        · rw [Nat.zero_add]
          exact Nat.mul_le_mul_right _ (hA.len bad ta).2
      obtain ⟨l', hl, hf⟩ := mapOpt_rel blk
      have hl1 : l'.map Prod.fst = pairs (clList bad (A.outC ta)) (clList bad (X.inC tb)) := by
        clear hl blk
        revert hf
        generalize pairs (clList bad (A.outC ta)) (clList bad (X.inC tb)) = ps
        intro hf
        induction hf with
        | nil => rfl
        | cons h _ ih => rw [List.map_cons, ih, h.1]
      have hlen : l'.length ≤ a ^ 2 := by
        have e := congrArg List.length hl1
        rw [List.length_map, pairs_length] at e
        rw [e, pow_two]
        exact Nat.mul_le_mul (hA.len bad ta).1 (hX.len bad tb).2
      refine ⟨l'.foldl (fun C x => LR.addLR E.rc x.2 x.1.1.iv x.1.2.iv C (A.outC ta).iv (X.inC tb).iv) C, ?_, ?_⟩
      · unfold hhLR
        have e1 : A.label.data = .hier := isHier_iff.1 hh.1
        have e2 : X.label.data = .hier := isHier_iff.1 hh.2
        simp only [e1, e2, if_true]
        rw [← hbad]
        exact congrArg (Option.map fun l => l.foldl (fun C x => LR.addLR E.rc x.2 x.1.1.iv x.1.2.iv C (A.outC ta).iv (X.inC tb).iv) C) hl
      · have hmem : ∀ y ∈ l', (A.outC ta).Desc y.1.1 ∧ (X.inC tb).Desc y.1.2 ∧
            y.2.Near (accErr ε B (a * truncs a h)) y.1.1.sz y.1.2.sz (rel (fun i j => α * mprod ta tb MA MB (A.inC ta) i j) y.1.1.off y.1.2.off) := by
          intro y hy
          obtain ⟨x, hx, h1, h2⟩ := forall₂_mem hf hy
          rw [mem_pairs] at hx
          rw [h1]
          exact ⟨clList_desc okA.1 tA.1 hx.1, clList_desc okB.2 tB.2 hx.2, h2⟩
        refine ((addLR_fold_near hE hε hW okA.1 okB.2 hmem hC ?_).congr fun i hi j hj => ?_).le (accErr_mono hε hB ?_)
        · intro i j hi hj
          rw [collect_blocks hl1 (clList_tiles okA.1 tA.1) (clList_tiles okB.2 tB.2) i j hi hj]
          have := hF i j hi hj
          have := norm_smul_mprod_le ta tb α MA MB (A.inC ta) i j
          linarith
        · unfold rel
          beta_reduce
          rw [collect_blocks hl1 (clList_tiles okA.1 tA.1) (clList_tiles okB.2 tB.2) _ _ (by unfold ClusterTree.fin; omega) (by unfold ClusterTree.fin; omega)]
        · have := Nat.mul_le_mul_right (a * truncs a h + 1) hlen
          show k + _ ≤ k + (a ^ 2 * (a * truncs a h + 1) + 3)
          omega

end acc
end Htool
