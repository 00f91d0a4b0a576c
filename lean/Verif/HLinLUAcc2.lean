import Verif.HLinLUAcc

/-! # Accuracy of `lu_factorization` of a hierarchical matrix: the result -/

namespace Htool
open Finset

section defs
variable {G R : Type*} [CommRing R] [StarRing R] [DecidableEq R]

/-- One iteration of the loop of `lu_factorization` (factorization.hpp 34-67), as in `luH`. -/
def luStep (E : LinOps R) (f : ℕ) (cl : List (ClusterTree G)) (A : FTree G R) (p : ClusterTree G) : Option (FTree G R) :=
  ((updSub p p (luH E f) A).bind (fun A1 => cl.foldlM (luApply E f p) A1)).bind (fun A2 => (pairs cl cl).foldlM (luUpdate E f p) A2)

/-- During `lu_factorization` (factorization.hpp 17-75) every dense block given to `getrf` (line 70) is nonsingular: `getrf` returns `info = 0`. For a hierarchical
block, at every iteration of the loop, the same for the diagonal block factorized in that iteration, in the state the matrix has then. -/
def FTree.Pivots (E : LinOps R) : ℕ → FTree G R → Prop
  | 0, _ => True
  | f + 1, A =>
    match A.label.data with
    | .hier => ∀ (l1 l2 : List (ClusterTree G)) (p : ClusterTree G) (A1 X : FTree G R), clList A.bad A.label.t = l1 ++ p :: l2 →
        l1.foldlM (luStep E f (clList A.bad A.label.t)) A = some A1 → getBlock p p A1 = some X → FTree.Pivots E f X
    | .dense D _ => Nonsing D.get 0 D.nr
    | .lowRank _ => True

end defs

section lu
variable {G 𝕜 : Type*} [RCLike 𝕜] [DecidableEq 𝕜] {E : LinOps 𝕜} {ε : ℝ} {a hm : ℕ}
variable {ad : ClusterTree G → ClusterTree G → Prop}

/-- The block `x`, `y` of the Schur complement when the indices before `b` are eliminated, `K` truncations after the matrix `A0`. -/
def FamLU (ε : ℝ) (K : ℕ) (ad : ClusterTree G → ClusterTree G → Prop) (A0 : FTree G 𝕜) (o b : ℕ) (L U : ℕ → ℕ → 𝕜) (x y : ClusterTree G) (n : FNode G 𝕜) : Prop :=
  ∀ (W : ℕ → ℕ → ℝ) (Bd : ℝ) (k : ℕ) (H : ℕ → ℕ → 𝕜), Maj W Bd → NearT .full (accErr ε Bd k) ad H A0 → LUDom o b L U H W x y →
    NearP .full (accErr ε Bd (k + K)) ad (fun i j => H i j - ∑ l ∈ Ico o b, L i l * U l j) n

/-- Residual of the block `x`, `y` when the indices before `b` are eliminated. -/
def LRes (ε : ℝ) (K : ℕ) (ad : ClusterTree G → ClusterTree G → Prop) (A0 : FTree G 𝕜) (o b : ℕ) (L U : ℕ → ℕ → 𝕜) (x y : ClusterTree G) : Prop :=
  ∀ (W : ℕ → ℕ → ℝ) (Bd : ℝ) (k : ℕ) (H : ℕ → ℕ → 𝕜), Maj W Bd → NearT .full (accErr ε Bd k) ad H A0 → LUDom o b L U H W x y →
    ∀ i ∈ Ico x.off x.fin, ∀ j ∈ Ico y.off y.fin, ‖∑ l ∈ Ico o b, L i l * U l j - H i j‖ ≤ accErr ε Bd (k + K)

variable {A0 : FTree G 𝕜} {o b b' : ℕ} {L U L' U' : ℕ → ℕ → 𝕜} {x y p : ClusterTree G} {F : ClusterTree G → ClusterTree G → FNode G 𝕜 → Prop} {K K' : ℕ}

omit [DecidableEq 𝕜] in
/-- Splitting the elimination before and during the cluster `p`. -/
theorem LUDom.split {H : ℕ → ℕ → 𝕜} {W : ℕ → ℕ → ℝ} (h1 : o ≤ p.off) (hL : ∀ i l, l < p.off → L' i l = L i l) (hU : ∀ l j, l < p.off → U' l j = U l j)
    (h : LUDom o p.fin L' U' H W x y) :
    LUDom o p.off L U H W x y ∧ LUDom p.off p.fin L' U' (fun i j => H i j - ∑ l ∈ Ico o p.off, L i l * U l j) W x y := by
  have h2 : p.off ≤ p.fin := by unfold ClusterTree.fin; omega
  have e : ∀ i j, ∑ l ∈ Ico o p.fin, ‖L' i l‖ * ‖U' l j‖ = ∑ l ∈ Ico o p.off, ‖L i l‖ * ‖U l j‖ + ∑ l ∈ Ico p.off p.fin, ‖L' i l‖ * ‖U' l j‖ := by
    intro i j
    rw [← sum_Ico_consecutive _ h1 h2]
    congr 1
    exact sum_congr rfl fun l hl => by rw [hL i l (mem_Ico.1 hl).2, hU l j (mem_Ico.1 hl).2]
  refine ⟨fun i hi j hj => ?_, fun i hi j hj => ?_⟩
  · refine le_trans ?_ (h i hi j hj)
    rw [e, ← add_assoc]
    exact le_add_of_nonneg_right (sum_nonneg fun _ _ => mul_nonneg (norm_nonneg _) (norm_nonneg _))
  · refine le_trans ?_ (h i hi j hj)
    rw [e, ← add_assoc]
    refine add_le_add ((norm_sub_le _ _).trans (add_le_add (le_refl _) ((norm_sum_le _ _).trans (le_of_eq ?_)))) (le_refl _)
    exact sum_congr rfl fun _ _ => norm_mul _ _

omit [DecidableEq 𝕜] in
theorem sum_split_lu (h1 : o ≤ p.off) (hL : ∀ i l, l < p.off → L' i l = L i l) (hU : ∀ l j, l < p.off → U' l j = U l j) (i j : ℕ) :
    ∑ l ∈ Ico o p.fin, L' i l * U' l j = ∑ l ∈ Ico o p.off, L i l * U l j + ∑ l ∈ Ico p.off p.fin, L' i l * U' l j := by
  rw [← sum_Ico_consecutive _ h1 (by unfold ClusterTree.fin; omega : p.off ≤ p.fin)]
  congr 1
  exact sum_congr rfl fun l hl => by rw [hL i l (mem_Ico.1 hl).2, hU l j (mem_Ico.1 hl).2]

omit [DecidableEq 𝕜] in
theorem FamLU.upd (h1 : o ≤ p.off) (hL : ∀ i l, l < p.off → L' i l = L i l) (hU : ∀ l j, l < p.off → U' l j = U l j) {n : FNode G 𝕜}
    (h : Upd2 ε K' ad (FamLU ε K ad A0 o p.off L U) L' U' p x y n) : FamLU ε (K + K') ad A0 o p.fin L' U' x y n := by
  intro W Bd k H w1 w2 w3
  obtain ⟨d1, d2⟩ := w3.split h1 hL hU
  have v := h W Bd (k + K) _ w1 (fun n hn => hn W Bd k H w1 w2 d1) d2
  rw [← Nat.add_assoc]
  refine v.congr fun i j _ => ?_
  rw [sum_split_lu h1 hL hU]
  ring

omit [DecidableEq 𝕜] in
theorem LRes.of_res2 (h1 : o ≤ p.off) (hL : ∀ i l, l < p.off → L' i l = L i l) (hU : ∀ l j, l < p.off → U' l j = U l j)
    (h : Res2 ε K' ad (FamLU ε K ad A0 o p.off L U) L' U' p x y) : LRes ε (K + K') ad A0 o p.fin L' U' x y := by
  intro W Bd k H w1 w2 w3 i hi j hj
  obtain ⟨d1, d2⟩ := w3.split h1 hL hU
  have v := h W Bd (k + K) _ w1 (fun n hn => hn W Bd k H w1 w2 d1) d2 i hi j hj
  rw [← Nat.add_assoc]
  refine le_trans (le_of_eq ?_) v
  congr 1
  rw [sum_split_lu h1 hL hU]
  ring

omit [DecidableEq 𝕜] in
theorem LRes.le (hε : 0 ≤ ε) (h : LRes ε K ad A0 o b L U x y) (hK : K ≤ K') : LRes ε K' ad A0 o b L U x y := fun W Bd k H w1 w2 w3 i hi j hj =>
  (h W Bd k H w1 w2 w3 i hi j hj).trans (accErr_mono hε w1.nonneg (by omega))

omit [DecidableEq 𝕜] in
/-- A block which is finished. -/
theorem LRes.extend (h1 : o ≤ p.off) (hL : ∀ i l, l < p.off → L' i l = L i l) (hU : ∀ l j, l < p.off → U' l j = U l j)
    (hz : ∀ i ∈ Ico x.off x.fin, ∀ j ∈ Ico y.off y.fin, ∀ l ∈ Ico p.off p.fin, L' i l = 0 ∨ U' l j = 0)
    (h : LRes ε K ad A0 o p.off L U x y) : LRes ε K ad A0 o p.fin L' U' x y := by
  intro W Bd k H w1 w2 w3 i hi j hj
  obtain ⟨d1, -⟩ := w3.split h1 hL hU
  have v := h W Bd k H w1 w2 d1 i hi j hj
  rw [sum_split_lu h1 hL hU, sum_eq_zero (s := Ico p.off p.fin) (fun l hl => by rcases hz i hi j hj l hl with e | e <;> rw [e] <;> simp), add_zero]
  exact v

/-- **The factorization of an H-matrix, with inexact compression.** -/
theorem luH_near (hE : E.Acc ε) (hε : 0 ≤ ε) (hT : TrsmOK E) (hG : GetrfOK E) (hd : ∀ c, ¬ ad c c) :
    ∀ (f n : ℕ) (A : FTree G 𝕜) (M : ℕ → ℕ → 𝕜), A.ht ≤ n → 2 * n ≤ f → n ≤ hm → Rep .full ad M A → A.label.t = A.label.s → A.label.t.Top → A.label.t.Arity a →
      A.Pivots E f →
      ∃ A' L U, luH E f A = some A' ∧ A'.label.t = A.label.t ∧ A'.label.s = A.label.s ∧ A'.ht ≤ A.ht ∧ Shape .full (fun n => Flag .full n ∧ LUP ad L U n) A' ∧
        LUNear ε ((n + 2 * hm) * (a * truncs a hm)) ad A.label.t L U A := by
  intro f
  induction f with
  | zero => intro n A M hA; have := Tree.ht_pos A; omega
  | succ f ih =>
    intro n A M hn hf hnm hA hsq ht har hM
    have b := Shape.self hA
    have hApos := Tree.ht_pos A
    cases hdat : A.label.data with
    | dense D piv =>
      unfold FTree.Pivots at hM
      rw [hdat] at hM
      have hM : Nonsing D.get 0 D.nr := hM
      have I := hA.dense_is hdat
      have hM' : Nonsing M A.label.t.off A.label.t.fin := by
        unfold Nonsing at hM ⊢
        have e : A.label.t.fin - A.label.t.off = A.label.t.sz := by unfold ClusterTree.fin; omega
        rw [e]
        rw [Nat.sub_zero, I.1] at hM
        have : subM M A.label.t.off A.label.t.sz = subM D.get 0 A.label.t.sz := by
          ext i j
          show M (A.label.t.off + i) (A.label.t.off + j) = D.get (0 + i) (0 + j)
          rw [Nat.zero_add, Nat.zero_add]
          have := I.2.2 i i.2 j (by rw [← hsq]; exact j.2)
          rw [this, ← hsq]
          rfl
        rw [this]; exact hM
      obtain ⟨L, U, h1, h2⟩ := lu_leaf hG hA hsq hM' hdat
      refine ⟨_, L, U, by unfold luH; rw [hdat], ?_, ?_, ?_, h1, ?_⟩
      · rw [setData_label]
      · rw [setData_label]
      · rw [setData_ht]
      · intro W Bd k H w1 w2 _ i hi j hj
        rw [h2 i hi j hj]
        refine (hA.entry_near w2 ?_).trans (accErr_mono hε w1.nonneg (by omega))
        unfold FNode.Has
        rw [← hsq]
        exact ⟨mem_Ico.1 hi, mem_Ico.1 hj⟩
    | lowRank W =>
      exfalso
      have := b.prop.2
      rw [hdat] at this
      rw [← hsq] at this
      exact hd _ this.1
    | hier =>
      have hh : A.isHier = true := isHier_iff.2 hdat
      unfold FTree.Pivots at hM
      rw [hdat] at hM
      set c := A.label.t with hc
      have hM : ∀ (l1 l2 : List (ClusterTree G)) (p : ClusterTree G) (A1 X : FTree G 𝕜), clList A.bad c = l1 ++ p :: l2 →
        l1.foldlM (luStep E f (clList A.bad c)) A = some A1 → getBlock p p A1 = some X → FTree.Pivots E f X := hM
      have T : ClL c (clList A.bad c) := clL_of b.clT ht A.bad
      have hrk : ∀ p ∈ clList A.bad c, 0 ≤ p.rk := fun p hp => clList_rank b.clT ht (fun hr => bad_iff.2 (Or.inl hr)) hp
      have hlen : (clList A.bad c).length ≤ a := har.clList (ClusterTree.Desc.refl _) A.bad
      set K0 := (n + 2 * hm) * (a * truncs a hm) with hK0
      have hK : a * truncs a hm + ((n - 1) + 2 * hm) * (a * truncs a hm) ≤ K0 := by
        rw [hK0]
        obtain ⟨m, rfl⟩ : ∃ m, n = m + 1 := ⟨n - 1, by omega⟩
        rw [Nat.add_sub_cancel, show m + 1 + 2 * hm = (m + 2 * hm) + 1 by ring, Nat.add_mul (m + 2 * hm) 1, Nat.one_mul]
        exact le_of_eq (Nat.add_comm _ _)
      have hK2 : 2 * hm * (a * truncs a hm) ≤ ((n - 1) + 2 * hm) * (a * truncs a hm) := Nat.mul_le_mul_right _ (by omega)
      have key := foldlM_inv (f := luStep E f (clList A.bad c))
        (fun l1 A1 => l1.foldlM (luStep E f (clList A.bad c)) A = some A1 ∧ ∃ b S L U, Tiles c.off b (l1.map ClusterTree.iv) ∧ b ≤ c.fin ∧
          FState .full A.bad c A.ht (QA ad (fun x y => x.off < b ∨ y.off < b) S L U (FamLU ε (l1.length * truncs a hm) ad A c.off b L U)) A1 ∧
          ZL (clList A.bad c) L ∧ ZU (clList A.bad c) U ∧
          ∀ x ∈ clList A.bad c, ∀ y ∈ clList A.bad c, x.off < b ∨ y.off < b → LRes ε K0 ad A c.off b L U x y)
        (clList A.bad c) [] A
        ⟨rfl, c.off, M, 0, 0, rfl, by unfold ClusterTree.fin; omega, ⟨?_, rfl, hsq.symm, le_refl _, rfl, Or.inr hh⟩, fun _ _ _ _ _ _ => rfl, fun _ _ _ _ _ _ => rfl, ?_⟩ ?_
      · obtain ⟨A', e1, -, bb, S, L, U, t1, t2, t4, t5, t6, t7⟩ := key
        rw [List.nil_append] at t1
        have hbb : bb = c.fin := by
          have := Tiles.split t1 (m := []) (by rw [List.append_nil]; exact T.tiles)
          exact this
        subst hbb
        have hh' : A'.isHier = true := by
          rcases t4.hier with hb | hb
          · -- the root of `A'` is above the partition
            have r : A'.label.t.rk < 0 ∨ A'.label.s.rk < 0 := by
              rw [← bad_iff, t4.badE]; exact hb
            by_contra hn
            have := t4.shape.self.leaf (by simpa using hn)
            omega
          · exact hb
        refine ⟨A', L, U, ?_, t4.t, t4.s.trans hsq, t4.ht, ?_, ?_⟩
        · unfold luH
          rw [hdat]
          exact e1
        · intro X hX
          have bX := t4.shape X hX
          refine ⟨⟨bX.prop.1, ?_⟩, bX.clT, bX.clS, bX.leaf, bX.split⟩
          have hbc : A'.bad = A.bad := t4.badE
          rcases Shape.below_or_above t4.shape (t4.t.trans t4.s.symm) hh' (by rw [t4.t]; exact ht) hX with ⟨p, hp, q, hq, d1, d2⟩ | ⟨u1, u2⟩
          · rw [t4.t, hbc] at hp hq
            refine (bX.prop.2 p hp q hq d1 d2).1 (Or.inl ?_)
            have := T.bounds hp
            have := T.pos p hp
            unfold ClusterTree.fin at *
            omega
          · have hx := isHier_iff.1 u1
            rw [t4.t, hbc] at u2
            refine ⟨⟨fun hts => ⟨fun i j hi => ⟨fun _ hj => ?_, fun h => by cases h⟩, by rw [hx]; trivial⟩, fun _ => ⟨bX.prop.1, by rw [hx]; trivial⟩⟩,
              ⟨fun hts => ⟨fun i j hi => ⟨fun h => by (cases h), fun _ hj => ?_⟩, by rw [hx]; trivial⟩, fun _ => ⟨bX.prop.1, by rw [hx]; trivial⟩⟩⟩
            · obtain ⟨p, hp, hip, h1, h2⟩ := u2 hts i hi.1 hi.2
              exact t5 p hp i j hip (by omega)
            · obtain ⟨p, hp, hip, h1, h2⟩ := u2 hts i hi.1 hi.2
              exact t6 p hp i j hip (by omega)
        · intro W Bd k H w1 w2 w3 i hi j hj
          obtain ⟨p, hp, hip⟩ := T.cover hi
          obtain ⟨q, hq, hjq⟩ := T.cover hj
          have bp := T.bounds hp
          have bq := T.bounds hq
          have sp := T.pos p hp
          refine t7 p hp q hq (Or.inl (by unfold ClusterTree.fin at *; omega)) W Bd k H w1 w2 (fun i hi j hj => ?_) i hip j hjq
          have hi := mem_Ico.1 hi
          have hj := mem_Ico.1 hj
          exact w3 i (mem_Ico.2 (by omega)) j (mem_Ico.2 (by omega))
      · refine Shape.imp hA fun X hX hP => ⟨hP.1, fun p hp q hq _ _ => ⟨fun hh => ?_, fun _ => ⟨hP, fun W Bd k H w1 w2 _ => ?_⟩⟩⟩
        · have := T.bounds hp
          have := T.bounds hq
          omega
        · rw [List.length_nil, Nat.zero_mul, Nat.add_zero]
          exact (w2 X hX).prop.congr fun i j _ => by rw [Ico_self, sum_empty, sub_zero]
      · intro x hx y hy hh
        have := T.bounds hx
        have := T.bounds hy
        omega
      · intro l1 p l2 B hl _ hI
        obtain ⟨hrun, bb, S, L, U, t1, t2, t4, t5, t6, t7⟩ := hI
        rw [List.nil_append] at hl
        have hp : p ∈ clList A.bad c := by rw [hl]; simp
        have hlt : l1.length < a := by
          rw [hl, List.length_append, List.length_cons] at hlen
          omega
        have t8 : Tiles bb c.fin ((p :: l2).map ClusterTree.iv) := by
          refine Tiles.split t1 ?_
          rw [← List.map_append, ← hl]
          exact T.tiles
        obtain ⟨e, -⟩ : p.off = bb ∧ Tiles (bb + p.sz) c.fin (l2.map ClusterTree.iv) := t8
        subst e
        have bp := T.bounds hp
        have dp := clList_desc b.clT ht hp
        obtain ⟨A', S', L', U', a1, a2, a3, a4, a5, a6, a7, a8⟩ := luA_step (a := a) (hm := hm) hE hε hT b.clT ht hrk har (by omega : 2 * A.ht ≤ f + 2) (by omega) hp (luH E f)
          (Kd := ((n - 1) + 2 * hm) * (a * truncs a hm)) (by
            intro X hgX hX h1 h2 h3
            obtain ⟨X', L1, U1, u1, u2, u3, u4, u5, u6⟩ := ih (n - 1) X S (by omega) (by omega) (by omega) hX (h1.trans h2.symm) (by rw [h1]; exact Or.inl (hrk p hp))
              (by rw [h1]; exact har.desc dp) (hM l1 l2 p B X hl hrun hgX)
            rw [h1] at u2 u6
            rw [h2] at u3
            exact ⟨X', L1, U1, u1, u2, u3, u4, u5, u6⟩) t4 t5 t6
        have hcnt : l1.length * truncs a hm ≤ a * truncs a hm := Nat.mul_le_mul_right _ (by omega)
        refine ⟨A', a1, ?_, p.fin, S', L', U', ?_, bp.2, ?_, a3, a4, fun x hx y hy hxy => ?_⟩
        · rw [List.foldlM_append, hrun]
          rw [Option.bind_eq_bind, Option.bind_some, List.foldlM_cons, show luStep E f (clList A.bad c) B p = some A' from a1]
          rfl
        · rw [List.map_append]
          exact t1.append ⟨rfl, rfl⟩
        · refine a2.congr fun x _ y _ m _ _ hm' => ⟨hm'.1, fun hdn => ⟨(hm'.2 hdn).1, ?_⟩⟩
          rw [List.length_append, List.length_singleton, Nat.succ_mul]
          exact FamLU.upd bp.1 a5 a6 (hm'.2 hdn).2
        · have hps := T.pos p hp
          have hxs := T.pos x hx
          have hys := T.pos y hy
          have apart : ∀ z ∈ clList A.bad c, z = p ∨ z.fin ≤ p.off ∨ p.fin ≤ z.off := by
            intro z hz
            by_cases e : z = p
            · exact Or.inl e
            · refine Or.inr ?_
              by_contra hn
              exact e (tiling_inj T.tiles T.pos hz hp (by omega))
          by_cases hold : x.off < p.off ∨ y.off < p.off
          · refine LRes.extend bp.1 a5 a6 (fun i hi j hj l hl => ?_) (t7 x hx y hy hold)
            have hi := mem_Ico.1 hi
            have hj := mem_Ico.1 hj
            have hl := mem_Ico.1 hl
            rcases hold with h1 | h1
            · refine Or.inl (a3 x hx i l hi ?_)
              rcases apart x hx with rfl | h2 | h2 <;> unfold ClusterTree.fin at * <;> omega
            · refine Or.inr (a4 p hp l j hl ?_)
              rcases apart y hy with rfl | h2 | h2 <;> unfold ClusterTree.fin at * <;> omega
          · rw [not_or, not_lt, not_lt] at hold
            by_cases ex : x = p
            · rw [ex]
              by_cases ey : y = p
              · rw [ey]
                exact (LRes.of_res2 bp.1 a5 a6 a7).le hε (by omega)
              · refine (LRes.of_res2 bp.1 a5 a6 (a8 y hy ?_).1).le hε (by omega)
                rcases apart y hy with h2 | h2 | h2
                · exact absurd h2 ey
                · unfold ClusterTree.fin at *; omega
                · unfold ClusterTree.fin at *; omega
            · have hpx : p.off < x.off := by
                rcases apart x hx with h2 | h2 | h2
                · exact absurd h2 ex
                · unfold ClusterTree.fin at *; omega
                · unfold ClusterTree.fin at *; omega
              have ey : y = p := by
                rcases apart y hy with h2 | h2 | h2
                · exact h2
                · unfold ClusterTree.fin at *; omega
                · rcases apart x hx with h3 | h3 | h3
                  · exact absurd h3 ex
                  · unfold ClusterTree.fin at *; omega
                  · unfold ClusterTree.fin at *; omega
              rw [ey]
              exact (LRes.of_res2 bp.1 a5 a6 (a8 x hx hpx).2).le hε (by omega)

end lu
end Htool
