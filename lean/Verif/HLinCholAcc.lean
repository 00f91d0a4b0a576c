import Verif.HLinChol3
import Verif.HLinTriAcc3

/-! # Accuracy of `cholesky_factorization` of a hierarchical matrix: the blocks -/

namespace Htool
open Finset

section defs
variable {G R : Type*} [CommRing R] [StarRing R] [DecidableEq R]

/-- `potrf` succeeds: the triangle `u` of `D` is the triangle of a product `F F^*` (`F^* F`) with an invertible diagonal. -/
def CanPotrf (u : UploType) (D : Mat R) : Prop := ∃ F : ℕ → ℕ → R, (∀ i < D.nr, IsUnit (F i i)) ∧ ∀ i < D.nr, ∀ j < D.nr, (u = .L ∧ j ≤ i) ∨ (u = .U ∧ i ≤ j) →
    ∑ l ∈ range D.nr, lowF u (tri u false F) i l * star (lowF u (tri u false F) j l) = D.get i j

/-- One iteration of the loop of `cholesky_factorization` (factorization.hpp 108-160), as in `cholH`. -/
def cholStep (E : LinOps R) (u : UploType) (f : ℕ) (cl : List (ClusterTree G)) (A : FTree G R) (p : ClusterTree G) : Option (FTree G R) :=
  ((updSub p p (cholH E u f) A).bind (fun A1 => cl.foldlM (cholApply E f u p) A1)).bind (fun A2 => (pairs cl cl).foldlM (cholUpdate E f u p) A2)

/-- During `cholesky_factorization` (factorization.hpp 90-163) every dense block given to `potrf` has a factor: `potrf` returns `info = 0`. For a hierarchical
block, at every iteration of the loop, the same for the diagonal block factorized in that iteration, in the state the matrix has then. -/
def FTree.PivotsC (E : LinOps R) (u : UploType) : ℕ → FTree G R → Prop
  | 0, _ => True
  | f + 1, A =>
    match A.label.data with
    | .hier => ∀ (l1 l2 : List (ClusterTree G)) (p : ClusterTree G) (A1 X : FTree G R), clList A.bad A.label.t = l1 ++ p :: l2 →
        l1.foldlM (cholStep E u f (clList A.bad A.label.t)) A = some A1 → getBlock p p A1 = some X → FTree.PivotsC E u f X
    | .dense D _ => CanPotrf u D
    | .lowRank _ => True

end defs

section chol
variable {G 𝕜 : Type*} [RCLike 𝕜] [DecidableEq 𝕜] {E : LinOps 𝕜} {ε : ℝ} {a hm : ℕ} {u : UploType}
variable {ad : ClusterTree G → ClusterTree G → Prop} {m : Mask}

/-- The factor is lower triangular with an invertible diagonal. -/
def CLow (u : UploType) (T : ℕ → ℕ → 𝕜) (a b : ℕ) : Prop :=
  (∀ i ∈ Ico a b, ∀ j ∈ Ico a b, i < j → lowF u T i j = 0) ∧ ∀ i ∈ Ico a b, IsUnit (lowF u T i i)

/-- The triangle which is used. -/
def InHalf (u : UploType) (i j : ℕ) : Prop := (u = .L ∧ j ≤ i) ∨ (u = .U ∧ i ≤ j)

omit [RCLike 𝕜] [DecidableEq 𝕜] in
/-- The half used is stored. -/
theorem MaskOK.ok_half (hm : MaskOK u m) {i j : ℕ} (h : (u = .L ∧ j ≤ i) ∨ (u = .U ∧ i ≤ j)) : m.ok i j := by
  rcases hm with rfl | ⟨rfl, rfl⟩ | ⟨rfl, rfl⟩
  · trivial
  · rcases h with h | h
    · exact h.2
    · cases h.1
  · rcases h with h | h
    · cases h.1
    · exact h.2

omit [DecidableEq 𝕜] in
/-- A block off the diagonal, all of whose entries are stored. -/
theorem NearT.full {e : ℝ} {H : ℕ → ℕ → 𝕜} {A : FTree G 𝕜} (h : NearT m e ad H A) (hk : ∀ p q, A.label.t.Desc p → A.label.s.Desc q → m.keep p q = true)
    (hd : ∀ i j, A.label.Has i j → m.ok i j) (ho : A.label.t.fin ≤ A.label.s.off ∨ A.label.s.fin ≤ A.label.t.off) : NearT .full e ad H A :=
  Shape.toFull h hk fun X hX hp => by
    have hb := Shape.pre_desc h hX
    have b1 := (Shape.self h).clT.desc_bounds hb.1
    have b2 := (Shape.self h).clS.desc_bounds hb.2.1
    have hx : ∀ i j, X.label.Has i j → m.ok i j := fun i j hi => hd i j (Shape.pre_has h hX hi)
    refine ⟨Or.inl ?_, ?_⟩
    · rcases hp.1 with q | q
      · exact q
      · exfalso; omega
    · have h2 := hp.2
      revert h2
      cases X.label.data with
      | dense D p => exact fun ⟨a, b, H', c, d⟩ => ⟨a, b, H', fun i j hi _ => c i j hi (hx i j hi), d⟩
      | lowRank L => exact fun h => ⟨⟨h.1.1, fun _ _ _ => trivial⟩, h.2⟩
      | hier => exact fun h => h

/-- A dense diagonal block. -/
theorem cholA_leaf (hE : PotrfOK E) (hu : u ≠ .N) (hm : MaskOK u m) {A : FTree G 𝕜} {M : ℕ → ℕ → 𝕜} (hA : Rep m ad M A) (hsq : A.label.t = A.label.s)
    {D : Mat 𝕜} {piv : List ℕ} (hs : CanPotrf u D) (hd : A.label.data = .dense D piv) (hp : piv = []) :
    ∃ T : ℕ → ℕ → 𝕜, Shape m (fun n => Flag m n ∧ TriP u false ad T n) (A.setData (.dense (E.potrf u D) piv)) ∧
      CLow u T A.label.t.off A.label.t.fin ∧ ∀ i ∈ Ico A.label.t.off A.label.t.fin, ∀ j ∈ Ico A.label.t.off A.label.t.fin, InHalf u i j →
        ∑ l ∈ Ico A.label.t.off A.label.t.fin, lowF u T i l * star (lowF u T j l) = M i j := by
  subst hp
  have b := Shape.self hA
  have hpos := b.clT.sz_pos
  have I := b.prop.2
  rw [hd] at I
  simp only at I
  have hl : A.isHier = false := by unfold FTree.isHier; rw [hd]
  have fin : A.label.t.fin = A.label.t.off + A.label.t.sz := rfl
  have has : ∀ i j, A.label.Has i j ↔ (A.label.t.off ≤ i ∧ i < A.label.t.fin) ∧ (A.label.t.off ≤ j ∧ j < A.label.t.fin) := by
    intro i j
    unfold FNode.Has
    rw [← hsq]
  have ok : ∀ i j, (u = .L ∧ j ≤ i) ∨ (u = .U ∧ i ≤ j) → m.ok i j := fun i j => hm.ok_half
  have hD : ∀ i < A.label.t.sz, ∀ j < A.label.t.sz, (u = .L ∧ j ≤ i) ∨ (u = .U ∧ i ≤ j) → D.get i j = M (A.label.t.off + i) (A.label.t.off + j) := by
    intro i hi j hj hij
    have := I.2.2 (A.label.t.off + i) (A.label.t.off + j) ((has _ _).2 (by omega)) (ok _ _ (hij.imp (fun h => ⟨h.1, by omega⟩) fun h => ⟨h.1, by omega⟩))
    rw [← hsq, Nat.add_sub_cancel_left, Nat.add_sub_cancel_left] at this
    exact this
  unfold CanPotrf at hs
  rw [I.1] at hs
  have sumI : ∀ f : ℕ → 𝕜, ∑ l ∈ Ico A.label.t.off A.label.t.fin, f l = ∑ l ∈ range A.label.t.sz, f (A.label.t.off + l) := fun f => by
    rw [fin, sum_Ico_range]
  obtain ⟨e1, e2, e3, e4⟩ := hE u D A.label.t.sz hu I.1 (by rw [I.2.1, ← hsq]) hs
  set T : ℕ → ℕ → 𝕜 := fun i j => if (A.label.t.off ≤ i ∧ i < A.label.t.fin) ∧ (A.label.t.off ≤ j ∧ j < A.label.t.fin) then
      tri u false (E.potrf u D).get (i - A.label.t.off) (j - A.label.t.off) else 0 with hT
  have lowT : ∀ i < A.label.t.sz, ∀ j < A.label.t.sz, lowF u T (A.label.t.off + i) (A.label.t.off + j) = lowF u (tri u false (E.potrf u D).get) i j := by
    intro i hi j hj
    have t : ∀ i < A.label.t.sz, ∀ j < A.label.t.sz, T (A.label.t.off + i) (A.label.t.off + j) = tri u false (E.potrf u D).get i j := by
      intro i hi j hj
      have : T (A.label.t.off + i) (A.label.t.off + j) = tri u false (E.potrf u D).get (A.label.t.off + i - A.label.t.off) (A.label.t.off + j - A.label.t.off) := if_pos (by omega)
      rw [this, Nat.add_sub_cancel_left, Nat.add_sub_cancel_left]
    unfold lowF
    rw [t i hi j hj, t j hj i hi]
  have rel : ∀ i ∈ Ico A.label.t.off A.label.t.fin, ∃ k < A.label.t.sz, i = A.label.t.off + k := fun i hi =>
    ⟨i - A.label.t.off, by have := mem_Ico.1 hi; omega, by have := mem_Ico.1 hi; omega⟩
  refine ⟨T, Shape.setLeaf hA hl (by simp) ⟨b.prop.1, fun _ => ⟨fun i j hi => ⟨fun _ hj => if_neg ?_, fun _ hj => if_neg ?_⟩, e1, e2, Or.inl rfl, fun _ => e3, ?_⟩, ?_⟩, ⟨?_, ?_⟩, ?_⟩
  · have : A.label.t.fin ≤ j := hj
    omega
  · have : j < A.label.t.off := hj
    omega
  · intro i j hij
    have hij' := (has i j).1 hij
    rw [ptri_nil]
    exact if_pos hij'
  · intro hh
    exfalso
    have hh' : (u = .L ∧ A.label.s.fin ≤ A.label.t.off) ∨ (u = .U ∧ A.label.t.fin ≤ A.label.s.off) := hh
    rw [← hsq] at hh'
    omega
  · intro i hi j hj hij
    obtain ⟨i, hi', rfl⟩ := rel i hi
    obtain ⟨j, hj', rfl⟩ := rel j hj
    rw [lowT i hi' j hj']
    exact lowF_tri hu _ (by omega)
  · intro i hi
    obtain ⟨i, hi', rfl⟩ := rel i hi
    rw [lowT i hi' i hi']
    exact lowF_diag _ (e3 i hi')
  · intro i hi j hj hij
    obtain ⟨i, hi', rfl⟩ := rel i hi
    obtain ⟨j, hj', rfl⟩ := rel j hj
    have hij' : (u = .L ∧ j ≤ i) ∨ (u = .U ∧ i ≤ j) := hij.imp (fun h => ⟨h.1, by omega⟩) fun h => ⟨h.1, by omega⟩
    rw [← hD i hi' j hj' hij', ← e4 i hi' j hj' hij', sumI]
    refine sum_congr rfl fun l hl => ?_
    rw [lowT i hi' l (mem_range.1 hl), lowT j hj' l (mem_range.1 hl)]

/-- What the block `x`, `y` contains, if it belongs to the half which is used: factors if `dn x y`, otherwise the current Schur complement, about which `F` is
known. -/
def QCA (u : UploType) (m : Mask) (ad dn : ClusterTree G → ClusterTree G → Prop) (S T : ℕ → ℕ → 𝕜) (F : ClusterTree G → ClusterTree G → FNode G 𝕜 → Prop)
    (x y : ClusterTree G) (n : FNode G 𝕜) : Prop :=
  (x = y ∨ (u = .L ∧ y.off < x.off) ∨ (u = .U ∧ x.off < y.off)) → (dn x y → TriP u false ad T n) ∧ (¬ dn x y → (RepP m ad S n ∧ n.NoPiv) ∧ F x y n)

/-- `W` bounds `|H| + |F| |F^*|` in the block `x`, `y`. -/
def CDom (u : UploType) (lo hi : ℕ) (T H : ℕ → ℕ → 𝕜) (W : ℕ → ℕ → ℝ) (x y : ClusterTree G) : Prop :=
  ∀ i ∈ Ico x.off x.fin, ∀ j ∈ Ico y.off y.fin, ‖H i j‖ + ∑ l ∈ Ico lo hi, ‖lowF u T i l‖ * ‖lowF u T j l‖ ≤ W i j

/-- Residual of the block `x`, `y`, solved with the cluster `p`. -/
def ResC (ε : ℝ) (K : ℕ) (u : UploType) (m : Mask) (ad : ClusterTree G → ClusterTree G → Prop) (F : FNode G 𝕜 → Prop) (T : ℕ → ℕ → 𝕜) (p x y : ClusterTree G) : Prop :=
  ∀ (W : ℕ → ℕ → ℝ) (Bd : ℝ) (k : ℕ) (H : ℕ → ℕ → 𝕜), Maj W Bd → (∀ n, F n → NearP m (accErr ε Bd k) ad H n) → CDom u p.off p.fin T H W x y →
    ∀ i ∈ Ico x.off x.fin, ∀ j ∈ Ico y.off y.fin, ‖∑ l ∈ Ico p.off p.fin, lowF u T i l * star (lowF u T j l) - H i j‖ ≤ accErr ε Bd (k + K)

/-- The block `x`, `y` after its update by the cluster `p`. -/
def UpdC (ε : ℝ) (K : ℕ) (u : UploType) (m : Mask) (ad : ClusterTree G → ClusterTree G → Prop) (F : FNode G 𝕜 → Prop) (T : ℕ → ℕ → 𝕜) (p x y : ClusterTree G)
    (n : FNode G 𝕜) : Prop :=
  ∀ (W : ℕ → ℕ → ℝ) (Bd : ℝ) (k : ℕ) (H : ℕ → ℕ → 𝕜), Maj W Bd → (∀ n, F n → NearP m (accErr ε Bd k) ad H n) → CDom u p.off p.fin T H W x y →
    NearP m (accErr ε Bd (k + K)) ad (fun i j => H i j - ∑ l ∈ Ico p.off p.fin, lowF u T i l * star (lowF u T j l)) n

variable {bad : Bool} {c : ClusterTree G} {N f : ℕ} {dn : ClusterTree G → ClusterTree G → Prop} {S T : ℕ → ℕ → 𝕜} {A : FTree G 𝕜}
variable {F : ClusterTree G → ClusterTree G → FNode G 𝕜 → Prop}

/-- Factorization of a diagonal block. -/
theorem cholA_diag (hu : u ≠ .N) (hc : ClOK c) (ht : c.Top) (h : FState m bad c N (QCA u m ad dn S T F) A) {p : ClusterTree G} (hp : p ∈ clList bad c)
    (nd : ¬ dn p p) (zT : ∀ i j, (p.off ≤ i ∧ i < p.fin) → (u = .L → p.fin ≤ j → T i j = 0) ∧ (u = .U → j < p.off → T i j = 0))
    (g : FTree G 𝕜 → Option (FTree G 𝕜)) {Post : (ℕ → ℕ → 𝕜) → Prop}
    (hg : ∀ X : FTree G 𝕜, getBlock p p A = some X → Rep m ad S X → X.NP → Shape m (fun n => RepP m ad S n ∧ (n.data ≠ .hier → F p p n)) X →
      X.label.t = p → X.label.s = p → X.ht < N → ∃ X' T1, g X = some X' ∧ X'.label.t = p ∧ X'.label.s = p ∧
      X'.ht ≤ X.ht ∧ Shape m (fun n => Flag m n ∧ TriP u false ad T1 n) X' ∧ Post T1) :
    ∃ A' T1, updSub p p g A = some A' ∧ FState m bad c N (QCA u m ad (fun x y => dn x y ∨ (x = p ∧ y = p)) S (setB p p T1 T) F) A' ∧ Post T1 := by
  have L : ClL c (clList bad c) := clL_of hc ht bad
  have hps := L.pos p hp
  have op := hc.desc (clList_desc hc ht hp)
  obtain ⟨X, x1, x2, x3, x4, x5, -, x6⟩ := h.focus hc ht hp hp (keep_diag m hps)
  obtain ⟨X', T1, y1, y2, y3, y4, y5, y6⟩ := hg X x1 (Shape.imp x2 fun Y _ hY => ((hY.2 (Or.inl rfl)).2 nd).1.1)
    (fun Y hY => (((x2 Y hY).prop.2 (Or.inl rfl)).2 nd).1.2) (Shape.imp x2 fun Y _ hY => ⟨((hY.2 (Or.inl rfl)).2 nd).1.1, fun _ => ((hY.2 (Or.inl rfl)).2 nd).2⟩) x3 x4 x5
  obtain ⟨A1, a1, a2⟩ := x6 g (QCA u m ad (fun x y => dn x y ∨ (x = p ∧ y = p)) S (setB p p T1 T) F) X' y1 (by
      refine Shape.imp y5 fun V hV hV' => ⟨hV'.1, fun _ => ⟨fun _ => ?_, fun hd => absurd (Or.inr ⟨rfl, rfl⟩) hd⟩⟩
      have d := Shape.pre_desc y5 hV
      rw [y2, y3] at d
      have b1 := op.desc_bounds d.1
      have b2 := op.desc_bounds d.2.1
      refine hV'.2.congr (fun i j hij => ?_) fun hts i j hi => ⟨fun hL hj => ?_, fun hU hj => ?_⟩
      · unfold FNode.Has at hij
        exact (setB_in (by omega) (by omega)).symm
      · by_cases hj' : p.off ≤ j ∧ j < p.fin
        · rw [setB_in (by omega) hj']
          exact ((hV'.2.1 hts).1 i j hi).1 hL hj
        · rw [setB_out (fun h => hj' h.2)]
          exact (zT i j (by omega)).1 hL (by omega)
      · by_cases hj' : p.off ≤ j ∧ j < p.fin
        · rw [setB_in (by omega) hj']
          exact ((hV'.2.1 hts).1 i j hi).2 hU hj
        · rw [setB_out (fun h => hj' h.2)]
          exact (zT i j (by omega)).2 hU (by omega)) y2 y3 y4
    (by
      intro p' hp' q' hq' hne n d1 d2 hn hk
      refine ⟨fun hd => ?_, fun hd => (hn hk).2 fun hd' => hd (Or.inl hd')⟩
      have t := (hn hk).1 (hd.resolve_right hne)
      cases u with
      | N => exact absurd rfl hu
      | L => exact t.set_lower hc ht hp hp hp' hq' hne (Nat.le_refl _) d1 d2
      | U => exact t.set_upper hc ht hp hp hp' hq' hne (Nat.le_refl _) d1 d2)
  exact ⟨A1, T1, a1, a2, y6⟩

/-- "Apply pivot block" for one block. -/
theorem cholA_apply_one (hE : E.Acc ε) (hε : 0 ≤ ε) (hT : TrsmOK E) (hu : u ≠ .N) (hmk : MaskOK u m) (hc : ClOK c) (ht : c.Top) (hrk : ∀ p ∈ clList bad c, 0 ≤ p.rk) (har : c.Arity a)
    (hf : 2 * N ≤ f + 2) (hN : N ≤ hm) (h : FState m bad c N (QCA u m ad dn S T F) A) {p o : ClusterTree G} (hp : p ∈ clList bad c) (ho : o ∈ clList bad c)
    (hpo : p.off < o.off) (d1 : dn p p) (d2 : ¬ dn (cblk u o p).1 (cblk u o p).2) :
    ∃ A' Y, cholApply E f u p A o = some A' ∧
      FState m bad c N (QCA u m ad (fun x y => dn x y ∨ (x = (cblk u o p).1 ∧ y = (cblk u o p).2)) S (setB (cblk u o p).1 (cblk u o p).2 Y T) F) A' ∧
      ResC ε (2 * hm * (a * truncs a hm)) u m ad (F (cblk u o p).1 (cblk u o p).2) (setB (cblk u o p).1 (cblk u o p).2 Y T) p (cblk u o p).1 (cblk u o p).2 := by
  obtain ⟨ap, hne⟩ := clL_apart hc ht hp ho hpo
  have op := hc.desc (clList_desc hc ht hp)
  have oo := hc.desc (clList_desc hc ht ho)
  have aro := har.desc (clList_desc hc ht ho)
  have arp := har.desc (clList_desc hc ht hp)
  have L : ClL c (clList bad c) := clL_of hc ht bad
  have hps := L.pos p hp
  have hos := L.pos o ho
  obtain ⟨P, g1, g2, g3, g4, g5, -, -⟩ := h.focus hc ht hp hp (keep_diag m hps)
  have TP : TriRep u false m ad T P := ⟨hu, hmk, g3.trans g4.symm, Shape.imp g2 fun X _ hX => (hX.2 (Or.inl rfl)).1 d1⟩
  set x := (cblk u o p).1 with hx0
  set y := (cblk u o p).2 with hy0
  have hx : x ∈ clList bad c := by rw [hx0]; unfold cblk; split <;> assumption
  have hy : y ∈ clList bad c := by rw [hy0]; unfold cblk; split <;> assumption
  have hxy : (u = .L ∧ x = o ∧ y = p) ∨ (u = .U ∧ x = p ∧ y = o) := by
    cases u with
    | N => exact absurd rfl hu
    | L => exact Or.inl ⟨rfl, rfl, rfl⟩
    | U => exact Or.inr ⟨rfl, rfl, rfl⟩
  have hkept : x = y ∨ (u = .L ∧ y.off < x.off) ∨ (u = .U ∧ x.off < y.off) := by
    rcases hxy with ⟨e, e1, e2⟩ | ⟨e, e1, e2⟩
    · rw [e1, e2]; exact Or.inr (Or.inl ⟨e, hpo⟩)
    · rw [e1, e2]; exact Or.inr (Or.inr ⟨e, hpo⟩)
  -- all blocks below are kept
  have keepxy : ∀ a b, x.Desc a → y.Desc b → m.keep a b = true := by
    intro a b ha hb
    have s1 := ((hc.desc (clList_desc hc ht hx)).desc ha).sz_pos
    have s2 := ((hc.desc (clList_desc hc ht hy)).desc hb).sz_pos
    have b1 := (hc.desc (clList_desc hc ht hx)).desc_bounds ha
    have b2 := (hc.desc (clList_desc hc ht hy)).desc_bounds hb
    rcases hmk with rfl | ⟨rfl, hu'⟩ | ⟨rfl, hu'⟩
    · rfl
    · rcases hxy with ⟨e, e1, e2⟩ | ⟨e, e1, e2⟩
      · rw [e1] at b1; rw [e2] at b2
        simp only [Mask.keep, decide_eq_true_eq]
        unfold ClusterTree.fin at *
        omega
      · rw [hu'] at e; cases e
    · rcases hxy with ⟨e, e1, e2⟩ | ⟨e, e1, e2⟩
      · rw [hu'] at e; cases e
      · rw [e1] at b1; rw [e2] at b2
        simp only [Mask.keep, decide_eq_true_eq]
        unfold ClusterTree.fin at *
        omega
  have okxy : ∀ i j, (x.off ≤ i ∧ i < x.fin) → (y.off ≤ j ∧ j < y.fin) → m.ok i j := by
    intro i j hi hj
    rcases hmk with rfl | ⟨rfl, hu'⟩ | ⟨rfl, hu'⟩
    · trivial
    · rcases hxy with ⟨e, e1, e2⟩ | ⟨e, e1, e2⟩
      · rw [e1] at hi; rw [e2] at hj
        show j ≤ i
        omega
      · rw [hu'] at e; cases e
    · rcases hxy with ⟨e, e1, e2⟩ | ⟨e, e1, e2⟩
      · rw [hu'] at e; cases e
      · rw [e1] at hi; rw [e2] at hj
        show i ≤ j
        omega
  obtain ⟨X, x1, x2, x3, x4, x5, -, x6⟩ := h.focus hc ht hx hy (keepxy x y (.refl _) (.refl _))
  have offd : X.label.t.fin ≤ X.label.s.off ∨ X.label.s.fin ≤ X.label.t.off := by
    rw [x3, x4]
    rcases hxy with ⟨e, e1, e2⟩ | ⟨e, e1, e2⟩
    · rw [e1, e2]; exact Or.inr ap
    · rw [e1, e2]; exact Or.inl ap
  have rX : Rep .full ad S X := Rep.full (m := m) (Shape.imp x2 fun Y _ hY => ((hY.2 hkept).2 d2).1.1) (fun i j hij => by
    unfold FNode.Has at hij
    rw [x3, x4] at hij
    exact okxy i j hij.1 hij.2) offd
  have nX : Shape m (fun n => RepP m ad S n ∧ (n.data ≠ .hier → F x y n)) X :=
    Shape.imp x2 fun Y _ hY => ⟨((hY.2 hkept).2 d2).1.1, fun _ => ((hY.2 hkept).2 d2).2⟩
  set side : Side := if u = .L then .R else .L with hside
  have own : ∀ B : FTree G 𝕜, B.label.t = x → B.label.s = y → B.own side = p ∧ B.oth side = o := by
    intro B hB1 hB2
    rcases hxy with ⟨e, e1, e2⟩ | ⟨e, e1, e2⟩
    · have hs : side = .R := by rw [hside, if_pos e]
      rw [hs]
      exact ⟨hB2.trans e2, hB1.trans e1⟩
    · have hs : side = .L := by rw [hside, if_neg (by rw [e]; simp)]
      rw [hs]
      exact ⟨hB1.trans e1, hB2.trans e2⟩
  obtain ⟨w1, w2⟩ := own X x3 x4
  have ok := triHH_near (a := a) (hm := hm) (adB := ad) (m := m) (ad := ad) (u := u) (unit := false) (T := T) hE hε hT side E.tr f (2 * N - 2) (by omega)
  obtain ⟨X', Y, y1, y2, y3, y4, y5, y6⟩ := ok P X S (by omega) (by omega) (by omega) (by rw [g3]; exact arp) (by rw [w2]; exact aro) TP rX
    (by rw [g3]; exact Or.inl (hrk p hp)) (by rw [w2]; exact Or.inl (hrk o ho)) (by rw [w1, g3]) (Or.inr (by rw [w2]; exact hrk o ho))
  have y2 : Rep .full ad (sv side Y) X' := y2
  obtain ⟨A1, a1, a2⟩ := x6 (triHH E f side u E.tr false 1 P) (QCA u m ad (fun a b => dn a b ∨ (a = x ∧ b = y)) S (setB x y (sv side Y) T) F) X' y1
    (by
      refine Shape.ofFull y2 (by rw [y3, y4, x3, x4]; exact keepxy) fun V hV hV' => ⟨hV'.1.elim Or.inl fun h => absurd rfl h.1, fun _ => ⟨fun _ => ?_, fun hn => absurd (Or.inr ⟨rfl, rfl⟩) hn⟩⟩
      have e := Shape.pre_desc y2 hV
      rw [y3, y4, x3, x4] at e
      have b1 := (hc.desc (clList_desc hc ht hx)).desc_bounds e.1
      have b2 := (hc.desc (clList_desc hc ht hy)).desc_bounds e.2.1
      have s1 := ((hc.desc (clList_desc hc ht hx)).desc e.1).sz_pos
      have nts : V.label.t ≠ V.label.s := by
        intro e'
        rw [e'] at b1 s1
        rcases hxy with ⟨e, e1, e2⟩ | ⟨e, e1, e2⟩
        · rw [e1] at b1; rw [e2] at b2; unfold ClusterTree.fin at *; omega
        · rw [e1] at b1; rw [e2] at b2; unfold ClusterTree.fin at *; omega
      refine ⟨fun e => absurd e nts, fun _ => hV'.full_congr fun i j hij => ?_⟩
      unfold FNode.Has at hij
      exact (setB_in (by omega) (by omega)).symm)
    (y3.trans x3) (y4.trans x4) y5 (by
      intro p' hp' q' hq' hne' n e1 e2 hn hk
      refine ⟨fun hd => ?_, fun hd => (hn hk).2 fun hd' => hd (Or.inl hd')⟩
      have t := (hn hk).1 (hd.resolve_right hne')
      rcases hxy with ⟨rfl, ex, ey⟩ | ⟨rfl, ex, ey⟩
      · refine t.set_lower hc ht hx hy hp' hq' hne' ?_ e1 e2
        rw [ex, ey]; omega
      · refine t.set_upper hc ht hx hy hp' hq' hne' ?_ e1 e2
        rw [ex, ey]; omega)
  have hK : (2 * N - 2) * (a * truncs a hm) ≤ 2 * hm * (a * truncs a hm) := Nat.mul_le_mul_right _ (by omega)
  refine ⟨A1, sv side Y, ?_, a2, fun W Bd k H h1 h2 h3 i hi j hj => ?_⟩
  · unfold cholApply
    rw [if_pos hpo]
    simp only [g1]
    rcases hxy with ⟨e, e1, e2⟩ | ⟨e, e1, e2⟩
    · rw [if_pos e]
      rw [hside, if_pos e, e1, e2] at a1
      exact a1
    · rw [if_neg (by rw [e]; simp)]
      rw [hside, if_neg (by rw [e]; simp), e1, e2] at a1
      exact a1
  · have nH : NearT .full (accErr ε Bd k) ad H X := NearT.full (nearT_of nX fun n hn => h2 n hn) (by rw [x3, x4]; exact keepxy) (fun i j hij => by
      unfold FNode.Has at hij
      rw [x3, x4] at hij
      exact okxy i j hij.1 hij.2) offd
    have v := fun hdom => y6 W Bd k (sv side H) h1 (by rw [sv_sv]; exact nH) hdom
    rw [g3, w2] at v
    rcases hxy with ⟨rfl, ex, ey⟩ | ⟨rfl, ex, ey⟩
    · have hs : side = .R := rfl
      rw [hs] at v h3 ⊢
      rw [ex] at hi
      rw [ey] at hj
      have key : ∀ i ∈ Ico o.off o.fin, ∀ j ∈ Ico p.off p.fin, ∀ l ∈ Ico p.off p.fin,
          lowF .L (setB x y (sv .R Y) T) i l = Y l i ∧ lowF .L (setB x y (sv .R Y) T) j l = T j l := by
        intro i hi j hj l hl
        have hi := mem_Ico.1 hi
        have hj := mem_Ico.1 hj
        have hl := mem_Ico.1 hl
        rw [ex, ey, lowF_L, lowF_L]
        exact ⟨(setB_in (p := o) (q := p) hi hl).trans rfl, setB_out (p := o) (q := p) (by omega)⟩
      refine le_trans (le_of_eq ?_) ((v ?_ j hj i hi).trans (accErr_mono hε h1.nonneg (by omega)))
      · congr 2
        refine sum_congr rfl fun l hl => ?_
        obtain ⟨k1, k2⟩ := key i hi j hj l hl
        rw [k1, k2, tv_R hE.real, mul_comm]
      · intro j hj i hi
        refine le_trans (le_of_eq ?_) (h3 i (by rw [ex]; exact hi) j (by rw [ey]; exact hj))
        congr 1
        refine sum_congr rfl fun l hl => ?_
        obtain ⟨k1, k2⟩ := key i hi j hj l hl
        rw [k1, k2, tv_R hE.real, norm_star, mul_comm]
    · have hs : side = .L := rfl
      rw [hs] at v h3 ⊢
      rw [ex] at hi
      rw [ey] at hj
      have key : ∀ i ∈ Ico p.off p.fin, ∀ j ∈ Ico o.off o.fin, ∀ l ∈ Ico p.off p.fin,
          lowF .U (setB x y (sv .L Y) T) i l = star (T l i) ∧ lowF .U (setB x y (sv .L Y) T) j l = star (Y l j) := by
        intro i hi j hj l hl
        have hi := mem_Ico.1 hi
        have hj := mem_Ico.1 hj
        have hl := mem_Ico.1 hl
        rw [ex, ey, lowF_U, lowF_U]
        exact ⟨congrArg star (setB_out (p := p) (q := o) (by omega)), congrArg star ((setB_in (p := p) (q := o) hl hj).trans rfl)⟩
      refine le_trans (le_of_eq ?_) ((v ?_ i hi j hj).trans (accErr_mono hε h1.nonneg (by omega)))
      · congr 2
        refine sum_congr rfl fun l hl => ?_
        obtain ⟨k1, k2⟩ := key i hi j hj l hl
        rw [k1, k2, tv_L hE.real, star_star]
      · intro i hi j hj
        refine le_trans (le_of_eq ?_) (h3 i (by rw [ex]; exact hi) j (by rw [ey]; exact hj))
        congr 1
        refine sum_congr rfl fun l hl => ?_
        obtain ⟨k1, k2⟩ := key i hi j hj l hl
        rw [k1, k2, tv_L hE.real, norm_star, norm_star]

/-- "Update Schur complement" for the block of the cluster `o`. -/
theorem cholA_update_one (hE : E.Acc ε) (hε : 0 ≤ ε) (hd : ∀ c, ¬ ad c c) (hu : u ≠ .N) (hmk : MaskOK u m) (hc : ClOK c) (ht : c.Top) (hrk : ∀ p ∈ clList bad c, 0 ≤ p.rk) (har : c.Arity a)
    (hf : 2 * N ≤ f + 2) (hN : N ≤ hm) (h : FState m bad c N (QCA u m ad dn S T F) A) {p o : ClusterTree G} (hp : p ∈ clList bad c) (ho : o ∈ clList bad c)
    (hpo : p.off < o.off) (d1 : dn (cblk u o p).1 (cblk u o p).2) (d2 : ¬ dn o o) :
    ∃ A' S', cholUpdate E f u p A (o, o) = some A' ∧
      FState m bad c N (QCA u m ad dn S' T (fun x' y' n => (x' = o ∧ y' = o → UpdC ε (truncs a hm) u m ad (F o o) T p o o n) ∧ (¬ (x' = o ∧ y' = o) → F x' y' n))) A' := by
  obtain ⟨ap, hne⟩ := clL_apart hc ht hp ho hpo
  have op := hc.desc (clList_desc hc ht hp)
  have oo := hc.desc (clList_desc hc ht ho)
  have aro := har.desc (clList_desc hc ht ho)
  have arp := har.desc (clList_desc hc ht hp)
  have L : ClL c (clList bad c) := clL_of hc ht bad
  have hos := L.pos o ho
  have flat : ∀ z ∈ clList bad c, z.Flat := fun z hz => Or.inl (hrk z hz)
  obtain ⟨C, c1, c2, c3, c4, c5, -, c6⟩ := h.focus hc ht ho ho (keep_diag m hos)
  have rC : Rep m ad S C := Shape.imp c2 fun V _ hV => ((hV.2 (Or.inl rfl)).2 d2).1.1
  have npC : C.NP := fun Y hY => (((c2 Y hY).prop.2 (Or.inl rfl)).2 d2).1.2
  have nC : Shape m (fun n => RepP m ad S n ∧ (n.data ≠ .hier → F o o n)) C :=
    Shape.imp c2 fun Y _ hY => ⟨((hY.2 (Or.inl rfl)).2 d2).1.1, fun _ => ((hY.2 (Or.inl rfl)).2 d2).2⟩
  -- the common end
  have fin : ∀ (g : FTree G 𝕜 → Option (FTree G 𝕜)) (C' : FTree G 𝕜) (S1 : ℕ → ℕ → 𝕜), g C = some C' → C'.NP → C'.label.t = C.label.t → C'.label.s = C.label.s → C'.ht ≤ C.ht →
      Rep m ad S1 C' →
      (∀ (W : ℕ → ℕ → ℝ) (B : ℝ) (k : ℕ) (H : ℕ → ℕ → 𝕜), Maj W B → NearT m (accErr ε B k) ad H C → CDom u p.off p.fin T H W o o →
        NearT m (accErr ε B (k + truncs a hm)) ad (fun i j => H i j - ∑ l ∈ Ico p.off p.fin, lowF u T i l * star (lowF u T j l)) C') →
      ∃ A', updSub o o g A = some A' ∧ FState m bad c N (QCA u m ad dn (setB o o S1 S) T (fun x' y' n =>
        (x' = o ∧ y' = o → UpdC ε (truncs a hm) u m ad (F o o) T p o o n) ∧ (¬ (x' = o ∧ y' = o) → F x' y' n))) A' := by
    intro g C' S1 e1 np e3 e4 e5 e2 v
    refine c6 g _ C' e1 (fun V hV => ?_) (e3.trans c3) (e4.trans c4) e5 ?_
    · have bV := e2 V hV
      refine ⟨⟨bV.prop.1, fun _ => ⟨fun hd => absurd hd d2, fun _ => ⟨⟨bV.prop.congr fun i j hij _ => ?_, np V hV⟩, fun _ => ?_, fun hn => absurd ⟨rfl, rfl⟩ hn⟩⟩⟩,
        bV.clT, bV.clS, bV.leaf, bV.split⟩
      · have hh := Shape.pre_has e2 hV hij
        unfold FNode.Has at hh
        rw [e3, e4, c3, c4] at hh
        exact (setB_in hh.1 hh.2).symm
      · intro W Bd k H h1 h2 h3
        exact (v W Bd k H h1 (nearT_of nC fun n hn => h2 n hn) h3 V hV).prop
    · intro p' hp' q' hq' hne' n d1' d2' hn hk
      refine ⟨(hn hk).1, fun hd => ⟨⟨((hn hk).2 hd).1.1.congr fun i j hij _ => ?_, ((hn hk).2 hd).1.2⟩, fun hc' => absurd hc' hne', fun _ => ((hn hk).2 hd).2⟩⟩
      exact (setB_out (block_disj hc ht ho ho hp' hq' hne' d1' d2' hij)).symm
  cases u with
  | N => exact absurd rfl hu
  | L =>
    have hm' : m.keep o p = true := by
      rcases hmk with rfl | ⟨rfl, -⟩ | ⟨rfl, e⟩
      · rfl
      · simp only [Mask.keep, decide_eq_true_eq]; unfold ClusterTree.fin; omega
      · cases e
    obtain ⟨LB, l1, l2, l3, l4, l5, -, -⟩ := h.focus hc ht ho hp hm'
    have rL : Rep .full ad T LB := TriRep.rep_of_half (u := .L) (unit := false) hmk (Shape.imp l2 fun V _ hV => (hV.2 (Or.inr (Or.inl ⟨rfl, hpo⟩))).1 d1) (Or.inl ⟨rfl, by
      rw [l3, l4]; exact ap⟩)
    have oL := rL.opnd (by rw [l3]; exact aro) (by rw [l4]; exact arp)
    obtain ⟨C', S1, e1, e2, e3, e4, e5, e6⟩ := hhH_upd_of (m := m) (a := a) (hm := hm) (adA := ad) (adB := ad) (adC := ad) hE hε .N E.tr (show LB.ht + LB.ht ≤ f by omega) (by omega)
      oL oL rC (by rw [l3]; exact flat o ho) (by rw [l4]; exact flat p hp)
      (by rw [l3]; exact flat o ho) (by rw [l4]; exact flat p hp) (by rw [(tr_outC E LB).1]; rfl) (by show C.label.t = LB.label.t; rw [c3, l3])
      (by rw [(tr_outC E LB).2, c4, l3]) (Or.inr ⟨c3.trans c4.symm, hd⟩)
    have hin : LB.inC .N = p := l4
    rw [hin] at e6
    obtain ⟨A', a1, a2⟩ := fin (hhH E f .N E.tr (-1) LB LB 1) C' S1 e1 (hhH_np _ _ _ _ _ _ _ _ _ e1 npC) e3 e4 e5 e2 (fun W B k H w1 w2 w3 =>
      NearT.congr (e6 W B k H w1 w2 (fun i j hij => by
        unfold FNode.Has at hij
        rw [c3, c4] at hij
        refine le_of_eq_of_le ?_ (w3 i (mem_Ico.2 hij.1) j (mem_Ico.2 hij.2))
        congr 1
        refine sum_congr rfl fun l _ => ?_
        show ‖T i l‖ * ‖opE E.tr T l j‖ = _
        rw [opE_tr hE.real, norm_star]
        rfl)) fun i j _ => by
          congr 1
          refine sum_congr rfl fun l _ => ?_
          show T i l * opE E.tr T l j = _
          rw [opE_tr hE.real]
          rfl)
    refine ⟨A', _, ?_, a2⟩
    unfold cholUpdate
    rw [if_pos ⟨rfl, hpo, hpo, Nat.le_refl _⟩]
    simp only [l1]
    exact a1
  | U =>
    have hm' : m.keep p o = true := by
      rcases hmk with rfl | ⟨rfl, e⟩ | ⟨rfl, -⟩
      · rfl
      · cases e
      · simp only [Mask.keep, decide_eq_true_eq]; unfold ClusterTree.fin; omega
    obtain ⟨UB, l1, l2, l3, l4, l5, -, -⟩ := h.focus hc ht hp ho hm'
    have rL : Rep .full ad T UB := TriRep.rep_of_half (u := .U) (unit := false) hmk (Shape.imp l2 fun V _ hV => (hV.2 (Or.inr (Or.inr ⟨rfl, hpo⟩))).1 d1) (Or.inr ⟨rfl, by
      rw [l3, l4]; exact ap⟩)
    have oL := rL.opnd (by rw [l3]; exact arp) (by rw [l4]; exact aro)
    obtain ⟨C', S1, e1, e2, e3, e4, e5, e6⟩ := hhH_upd_of (m := m) (a := a) (hm := hm) (adA := ad) (adB := ad) (adC := ad) hE hε E.tr .N (show UB.ht + UB.ht ≤ f by omega) (by omega)
      oL oL rC (by rw [l3]; exact flat p hp) (by rw [l4]; exact flat o ho)
      (by rw [l3]; exact flat p hp) (by rw [l4]; exact flat o ho) (by rw [(tr_outC E UB).2]; rfl) (by rw [(tr_outC E UB).1, c3, l4])
      (by show C.label.s = UB.label.s; rw [c4, l4]) (Or.inr ⟨c3.trans c4.symm, hd⟩)
    have hin : UB.inC E.tr = p := by rw [(tr_outC E UB).2, l3]
    rw [hin] at e6
    obtain ⟨A', a1, a2⟩ := fin (hhH E f E.tr .N (-1) UB UB 1) C' S1 e1 (hhH_np _ _ _ _ _ _ _ _ _ e1 npC) e3 e4 e5 e2 (fun W B k H w1 w2 w3 =>
      NearT.congr (e6 W B k H w1 w2 (fun i j hij => by
        unfold FNode.Has at hij
        rw [c3, c4] at hij
        refine le_of_eq_of_le ?_ (w3 i (mem_Ico.2 hij.1) j (mem_Ico.2 hij.2))
        congr 1
        refine sum_congr rfl fun l _ => ?_
        show ‖opE E.tr T i l‖ * ‖T l j‖ = _
        rw [opE_tr hE.real, norm_star, lowF_U, lowF_U, norm_star, norm_star])) fun i j _ => by
          congr 1
          refine sum_congr rfl fun l _ => ?_
          show opE E.tr T i l * T l j = _
          rw [opE_tr hE.real, lowF_U, lowF_U, star_star])
    refine ⟨A', _, ?_, a2⟩
    unfold cholUpdate
    rw [if_neg (by simp), if_pos ⟨rfl, hpo, hpo, Nat.le_refl _⟩]
    simp only [l1]
    exact a1

end chol
end Htool
