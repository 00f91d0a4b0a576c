import Verif.HLinLU2

/-! # The operations of the factorizations do not create blocks -/

namespace Htool
variable {G R : Type*}

/-- Every block of `A'` has the clusters of a block of `A`. -/
def FTree.Sub (A' A : FTree G R) : Prop := ∀ X ∈ A'.pre, ∃ Y ∈ A.pre, X.label.t = Y.label.t ∧ X.label.s = Y.label.s

namespace FTree.Sub
variable {A B C : FTree G R}

theorem refl (A : FTree G R) : FTree.Sub A A := fun X hX => ⟨X, hX, rfl, rfl⟩

theorem trans (h : FTree.Sub A B) (h' : FTree.Sub B C) : FTree.Sub A C := by
  intro X hX
  obtain ⟨Y, hY, e1, e2⟩ := h X hX
  obtain ⟨Z, hZ, e3, e4⟩ := h' Y hY
  exact ⟨Z, hZ, e1.trans e3, e2.trans e4⟩

theorem of_mem (h : B ∈ A.pre) : FTree.Sub B A := fun X hX => ⟨X, Tree.mem_pre_trans h hX, rfl, rfl⟩

theorem node {n : FNode G R} {cs : List (FTree G R)} (h1 : n.t = A.label.t) (h2 : n.s = A.label.s) (h : ∀ c ∈ cs, FTree.Sub c A) : FTree.Sub (.node n cs) A := by
  intro X hX
  rcases Tree.mem_pre.1 hX with rfl | ⟨c, hc, hX⟩
  · exact ⟨A, Tree.mem_pre_self A, h1, h2⟩
  · exact h c hc X hX

theorem setData (A : FTree G R) (d : FData R) : FTree.Sub (A.setData d) A :=
  node rfl rfl fun _ hc => of_mem (child_mem_pre hc)

theorem map (g : FNode G R → FNode G R) (hg : ∀ n, (g n).t = n.t ∧ (g n).s = n.s) (A : FTree G R) : FTree.Sub (A.map g) A := by
  intro X hX
  rw [pre_map, List.mem_map] at hX
  obtain ⟨Y, hY, rfl⟩ := hX
  exact ⟨Y, hY, by rw [label_map]; exact (hg _).1, by rw [label_map]; exact (hg _).2⟩

theorem updAt {f : FTree G R → Option (FTree G R)} (hf : ∀ X X', f X = some X' → FTree.Sub X' X) :
    ∀ (π : List ℕ) (A A' : FTree G R), Tree.updAt f π A = some A' → FTree.Sub A' A
  | [], A, A', h => hf A A' h
  | k :: π, A, A', h => by
    unfold Tree.updAt at h
    cases hk : A.children[k]? with
    | none => rw [hk] at h; cases h
    | some c =>
      rw [hk] at h
      obtain ⟨c', h1, rfl⟩ := Option.map_eq_some_iff.1 h
      refine node rfl rfl fun d hd => ?_
      rcases List.mem_or_eq_of_mem_set hd with hd | rfl
      · exact of_mem (child_mem_pre hd)
      · exact (updAt hf π c _ h1).trans (of_mem (child_mem_pre (List.mem_of_getElem? hk)))

theorem updSub {p q : ClusterTree G} {f : FTree G R → Option (FTree G R)} (hf : ∀ X X', f X = some X' → FTree.Sub X' X) {A A' : FTree G R}
    (h : Htool.updSub p q f A = some A') : FTree.Sub A' A := by
  unfold Htool.updSub at h
  cases hk : bfsPath (FNode.isBlock p q) A with
  | none => rw [hk] at h; cases h
  | some π => rw [hk] at h; exact updAt hf π A A' h

theorem updChild {p q : ClusterTree G} {f : FTree G R → Option (FTree G R)} (hf : ∀ X X', f X = some X' → FTree.Sub X' X) {A A' : FTree G R}
    (h : Htool.updChild p q f A = some A') : FTree.Sub A' A := by
  unfold Htool.updChild at h
  by_cases e : A.label.isBlock p q = true
  · rw [if_pos e] at h; exact hf A A' h
  · rw [if_neg e] at h
    cases hk : A.children.findIdx? (fun c => c.label.isBlock p q) with
    | none => rw [hk] at h; cases h
    | some k => rw [hk] at h; exact updAt hf [k] A A' h

theorem foldlM {α : Type*} {f : FTree G R → α → Option (FTree G R)} (hf : ∀ X x X', f X x = some X' → FTree.Sub X' X) :
    ∀ (l : List α) (A A' : FTree G R), l.foldlM f A = some A' → FTree.Sub A' A
  | [], A, A', h => by cases h; exact refl A
  | x :: l, A, A', h => by
    rw [List.foldlM_cons] at h
    obtain ⟨B, h1, h2⟩ := Option.bind_eq_some_iff.1 h
    exact (foldlM hf l B A' h2).trans (hf A x B h1)

end FTree.Sub

theorem getBlock_mem {p q : ClusterTree G} {A X : FTree G R} (h : getBlock p q A = some X) : X ∈ A.pre := by
  obtain ⟨-, b, hb, hX⟩ := (bfsLoop_spec (FNode.isBlock p q) [A]).1 X h
  rw [List.mem_singleton.1 hb] at hX
  exact hX

section ops
variable [CommRing R] [StarRing R] [DecidableEq R] {E : LinOps R}

omit [StarRing R] [DecidableEq R] in
theorem fscale_sub (a : R) (C : FTree G R) : FTree.Sub (fscale a C) C := by
  refine FTree.Sub.map _ (fun n => ?_) C
  cases n.data <;> exact ⟨rfl, rfl⟩

theorem addLRH_sub (L : LR R) (C : FTree G R) : FTree.Sub (addLRH E L C) C := by
  refine FTree.Sub.map _ (fun n => ?_) C
  cases n.data <;> exact ⟨rfl, rfl⟩

theorem hhH_sub : ∀ (f : ℕ) (ta tb : Trans) (α : R) (A B : FTree G R) (β : R) (C C' : FTree G R), hhH E f ta tb α A B β C = some C' → FTree.Sub C' C
  | 0, _, _, _, _, _, _, _, _, h => by cases h
  | f + 1, ta, tb, α, A, B, β, C, C', h => by
    unfold hhH at h
    cases hd : C.label.data with
    | dense D piv => rw [hd] at h; cases h; exact FTree.Sub.setData C _
    | lowRank L =>
      rw [hd] at h
      obtain ⟨L', -, rfl⟩ := Option.map_eq_some_iff.1 h
      exact FTree.Sub.setData C _
    | hier =>
      rw [hd] at h
      simp only at h
      by_cases hh : (A.isHier && B.isHier) = true
      · rw [if_pos hh] at h
        refine FTree.Sub.trans (FTree.Sub.foldlM (fun X x X' hx => ?_) _ _ _ h) ?_
        · revert hx
          cases getChildOp ta x.1 x.2.2 A with
          | none => intro hx; cases hx; exact FTree.Sub.refl _
          | some Ac =>
            cases getChildOp tb x.2.2 x.2.1 B with
            | none => intro hx; cases hx; exact FTree.Sub.refl _
            | some Bc =>
              cases getChild x.1 x.2.1 X with
              | none => intro hx; cases hx; exact FTree.Sub.refl _
              | some Cc => exact fun hx => FTree.Sub.updChild (fun Y Y' hy => hhH_sub f ta tb α Ac Bc 1 Y Y' hy) hx
        · by_cases e : β = 1
          · rw [if_pos e]; exact FTree.Sub.refl C
          · rw [if_neg e]; exact fscale_sub β C
      · rw [if_neg hh] at h
        cases h
        exact addLRH_sub _ C

theorem triHH_sub : ∀ (f : ℕ) (side : Side) (u : UploType) (tr : Trans) (unit : Bool) (α : R) (A B B' : FTree G R),
    triHH E f side u tr unit α A B = some B' → FTree.Sub B' B
  | 0, _, _, _, _, _, _, _, _, h => by cases h
  | f + 1, side, u, tr, unit, α, A, B0, B', h => by
    unfold triHH at h
    have hB : FTree.Sub (if α = 1 then B0 else fscale α B0) B0 := by
      by_cases e : α = 1
      · rw [if_pos e]; exact FTree.Sub.refl B0
      · rw [if_neg e]; exact fscale_sub α B0
    refine FTree.Sub.trans ?_ hB
    generalize (if α = 1 then B0 else fscale α B0) = B at h ⊢
    simp only at h
    cases hA : A.label.data with
    | lowRank L => rw [hA] at h; cases h; exact FTree.Sub.refl _
    | dense D piv =>
      rw [hA] at h
      cases hd : B.label.data with
      | dense D' piv' => rw [hd] at h; cases h; exact FTree.Sub.setData B _
      | lowRank L =>
        rw [hd] at h
        simp only at h
        split_ifs at h <;> (cases h; exact FTree.Sub.setData B _)
      | hier => rw [hd] at h; cases h; exact FTree.Sub.node rfl rfl (by simp)
    | hier =>
      rw [hA] at h
      cases hd : B.label.data with
      | dense D' piv' =>
        rw [hd] at h
        obtain ⟨L', -, rfl⟩ := Option.map_eq_some_iff.1 h
        exact FTree.Sub.setData B _
      | lowRank L =>
        rw [hd] at h
        obtain ⟨L', -, rfl⟩ := Option.map_eq_some_iff.1 h
        exact FTree.Sub.setData B _
      | hier =>
        rw [hd] at h
        simp only at h
        by_cases es : side = .L
        · rw [if_pos es] at h
          refine FTree.Sub.foldlM (fun X x X' hx => ?_) _ _ _ h
          unfold triRowStep at hx
          split_ifs at hx
          · revert hx
            cases getOp tr x.1 x.2.2 A with
            | none => exact fun hx => by cases hx
            | some Ac => exact fun hx => FTree.Sub.updSub (fun Y Y' hy => triHH_sub f side u tr unit 1 Ac Y Y' hy) hx
          · revert hx
            cases getOp tr x.1 x.2.2 A with
            | none => exact fun hx => by cases hx
            | some Ac =>
              cases getBlock x.2.2 x.2.1 X with
              | none => exact fun hx => by cases hx
              | some Bc => exact fun hx => FTree.Sub.updSub (fun Y Y' hy => hhH_sub f tr .N (-1) Ac Bc 1 Y Y' hy) hx
          · cases hx; exact FTree.Sub.refl _
        · rw [if_neg es] at h
          refine FTree.Sub.foldlM (fun X x X' hx => ?_) _ _ _ h
          unfold triColStep at hx
          split_ifs at hx
          · revert hx
            cases getOp tr x.2.2 x.1 A with
            | none => exact fun hx => by cases hx
            | some Ac => exact fun hx => FTree.Sub.updSub (fun Y Y' hy => triHH_sub f side u tr unit 1 Ac Y Y' hy) hx
          · revert hx
            cases getOp tr x.2.2 x.1 A with
            | none => exact fun hx => by cases hx
            | some Ac =>
              cases getBlock x.2.1 x.2.2 X with
              | none => exact fun hx => by cases hx
              | some Bc => exact fun hx => FTree.Sub.updSub (fun Y Y' hy => hhH_sub f .N tr (-1) Bc Ac 1 Y Y' hy) hx
          · cases hx; exact FTree.Sub.refl _

/-- One iteration of `lu_factorization`. -/
theorem luBody_sub {g : FTree G R → Option (FTree G R)} (hg : ∀ X X', g X = some X' → FTree.Sub X' X) {f : ℕ} {cl : List (ClusterTree G)} {p : ClusterTree G}
    {A A' : FTree G R} (h : ((updSub p p g A).bind (fun A1 => cl.foldlM (luApply E f p) A1)).bind (fun A2 => (pairs cl cl).foldlM (luUpdate E f p) A2) = some A') :
    FTree.Sub A' A := by
  obtain ⟨A2, h2, h3⟩ := Option.bind_eq_some_iff.1 h
  obtain ⟨A1, h1, h2⟩ := Option.bind_eq_some_iff.1 h2
  refine (FTree.Sub.foldlM (fun X x X' hx => ?_) _ _ _ h3).trans ((FTree.Sub.foldlM (fun X x X' hx => ?_) _ _ _ h2).trans (FTree.Sub.updSub hg h1))
  · unfold luUpdate at hx
    split_ifs at hx
    · revert hx
      cases getBlock p x.2 X with
      | none => exact fun hx => by cases hx
      | some U =>
        cases getBlock x.1 p X with
        | none => exact fun hx => by cases hx
        | some L => exact fun hx => FTree.Sub.updSub (fun Y Y' hy => hhH_sub _ _ _ _ _ _ _ Y Y' hy) hx
    · cases hx; exact FTree.Sub.refl _
  · unfold luApply at hx
    split_ifs at hx
    · revert hx
      cases getBlock p p X with
      | none => exact fun hx => by cases hx
      | some P =>
        intro hx
        obtain ⟨X1, x1, x2⟩ := Option.bind_eq_some_iff.1 hx
        exact (FTree.Sub.updSub (fun Y Y' hy => triHH_sub _ _ _ _ _ _ _ Y Y' hy) x2).trans (FTree.Sub.updSub (fun Y Y' hy => triHH_sub _ _ _ _ _ _ _ Y Y' hy) x1)
    · cases hx; exact FTree.Sub.refl _

theorem luH_sub : ∀ (f : ℕ) (A A' : FTree G R), luH E f A = some A' → FTree.Sub A' A
  | 0, _, _, h => by cases h
  | f + 1, A, A', h => by
    unfold luH at h
    cases hd : A.label.data with
    | dense D piv => rw [hd] at h; cases h; exact FTree.Sub.setData A _
    | lowRank L => rw [hd] at h; cases h; exact FTree.Sub.refl A
    | hier =>
      rw [hd] at h
      exact FTree.Sub.foldlM (fun X x X' hx => luBody_sub (luH_sub f) hx) _ _ _ h

end ops
end Htool
