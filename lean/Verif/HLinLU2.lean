import Verif.HLinLU
import Mathlib.Data.List.Nodup
import Mathlib.Data.List.ProdSigma

/-! # `lu_factorization` of a hierarchical matrix: the loops -/

namespace Htool
variable {G R : Type*}
open Finset

theorem tiles_nodup : ∀ (l : List (ClusterTree G)) (a b : ℕ), Tiles a b (l.map ClusterTree.iv) → (∀ p ∈ l, 0 < p.sz) → l.Nodup
  | [], _, _, _, _ => List.nodup_nil
  | x :: l, a, b, h, hp => by
    obtain ⟨e, h2⟩ : x.off = a ∧ Tiles (a + x.sz) b (l.map ClusterTree.iv) := h
    refine List.nodup_cons.2 ⟨fun hx => ?_, tiles_nodup l _ b h2 fun p hp' => hp p (List.mem_cons_of_mem _ hp')⟩
    have := (h2.mem_bounds (List.mem_map.2 ⟨x, hx, rfl⟩)).1
    have h3 := hp x List.mem_cons_self
    have h4 : (ClusterTree.iv x).1 = x.off := rfl
    omega

theorem ClL.nodup {c : ClusterTree G} {l : List (ClusterTree G)} (h : ClL c l) : l.Nodup := tiles_nodup l _ _ h.tiles h.pos

/-- Number of clusters with an index, after `b`. -/
theorem ClL.count {c : ClusterTree G} {l : List (ClusterTree G)} (h : ClL c l) {p : ClusterTree G} (hp : p ∈ l) (i : ℕ) :
    l.countP (fun x => decide (p.off < x.off ∧ x.off ≤ i ∧ i < x.fin)) = if p.fin ≤ i ∧ i < c.fin then 1 else 0 := by
  have h1 := h.tiles.countP i
  have hb := h.bounds hp
  have hps := h.pos p hp
  by_cases hi : p.fin ≤ i ∧ i < c.fin
  · rw [if_pos hi]
    rw [if_pos (by unfold ClusterTree.fin at *; omega), List.countP_map] at h1
    rw [← h1]
    refine List.countP_congr fun x hx => ?_
    simp only [Function.comp, decide_eq_true_eq]
    have e : InIv i (ClusterTree.iv x) ↔ x.off ≤ i ∧ i < x.fin := Iff.rfl
    rw [e]
    refine ⟨fun h => h.2, fun h => ⟨?_, h⟩⟩
    by_contra hc
    have : x.fin ≤ p.off ∨ x = p := by
      by_cases he : x = p
      · exact Or.inr he
      · refine Or.inl ?_
        by_contra h'
        have hxs := ‹ClL c l›.pos x hx
        exact he (tiling_inj ‹ClL c l›.tiles ‹ClL c l›.pos hx hp (by unfold ClusterTree.fin at *; omega))
    rcases this with h' | rfl
    · unfold ClusterTree.fin at *; omega
    · omega
  · rw [if_neg hi, List.countP_eq_zero]
    intro x hx
    simp only [decide_eq_true_eq]
    rintro ⟨a1, a2, a3⟩
    have hb' := h.bounds hx
    have hxs := h.pos x hx
    have : p.fin ≤ x.off := by
      by_contra h'
      have e := tiling_inj h.tiles h.pos hx hp (by unfold ClusterTree.fin at *; omega)
      rw [e] at a1; omega
    omega

section lu
variable [CommRing R] [StarRing R] [DecidableEq R] {E : LinOps R} {ad : ClusterTree G → ClusterTree G → Prop}
variable {bad : Bool} {c : ClusterTree G} {N f : ℕ} {S L U : ℕ → ℕ → R} {A : FTree G R}

/-- Rows of a lower factor stop with their cluster. -/
def ZL (cl : List (ClusterTree G)) (L : ℕ → ℕ → R) : Prop := ∀ p ∈ cl, ∀ i j, (p.off ≤ i ∧ i < p.fin) → p.fin ≤ j → L i j = 0
/-- Rows of an upper factor start with their cluster. -/
def ZU (cl : List (ClusterTree G)) (U : ℕ → ℕ → R) : Prop := ∀ p ∈ cl, ∀ i j, (p.off ≤ i ∧ i < p.fin) → j < p.off → U i j = 0

/-- "Apply pivot block to row and column". -/
theorem lu_apply_loop (hEx : E.Exact) (hE : TrsmOK E) (hc : ClOK c) (ht : c.Top) (hrk : ∀ p ∈ clList bad c, 0 ≤ p.rk) (hf : 2 * N ≤ f + 2)
    {p : ClusterTree G} (hp : p ∈ clList bad c)
    (h : FState .full bad c N (QL ad (fun x y => x.off < p.off ∨ y.off < p.off ∨ (x = p ∧ y = p)) S L U) A)
    (zL : ZL (clList bad c) L) (zU : ZU (clList bad c) U) :
    ∃ A' L' U', (clList bad c).foldlM (luApply E f p) A = some A' ∧
      FState .full bad c N (QL ad (fun x y => x.off < p.fin ∨ y.off < p.fin) S L' U') A' ∧ ZL (clList bad c) L' ∧ ZU (clList bad c) U' ∧
      (∀ i l, (¬ (p.off ≤ l ∧ l < p.fin) ∨ i < p.fin) → L' i l = L i l) ∧ (∀ l j, (¬ (p.off ≤ l ∧ l < p.fin) ∨ j < p.fin) → U' l j = U l j) ∧
      ∀ o ∈ clList bad c, p.off < o.off →
        (∀ i ∈ Ico p.off p.fin, ∀ k ∈ Ico o.off o.fin, ∑ l ∈ Ico p.off p.fin, L' i l * U' l k = S i k) ∧
        (∀ k ∈ Ico o.off o.fin, ∀ j ∈ Ico p.off p.fin, ∑ l ∈ Ico p.off p.fin, L' k l * U' l j = S k j) := by
  have T := clL_of hc ht bad
  have key := foldlM_inv (f := luApply E f p) (fun l1 A => ∃ L' U',
      FState .full bad c N (QL ad (fun x y => (x.off < p.off ∨ y.off < p.off ∨ (x = p ∧ y = p)) ∨ (x = p ∧ y ∈ l1 ∧ p.off < y.off) ∨ (y = p ∧ x ∈ l1 ∧ p.off < x.off)) S L' U') A ∧
      ZL (clList bad c) L' ∧ ZU (clList bad c) U' ∧
      (∀ i l, (¬ (p.off ≤ l ∧ l < p.fin) ∨ i < p.fin) → L' i l = L i l) ∧ (∀ l j, (¬ (p.off ≤ l ∧ l < p.fin) ∨ j < p.fin) → U' l j = U l j) ∧
      ∀ o ∈ l1, p.off < o.off →
        (∀ i ∈ Ico p.off p.fin, ∀ k ∈ Ico o.off o.fin, ∑ l ∈ Ico p.off p.fin, L' i l * U' l k = S i k) ∧
        (∀ k ∈ Ico o.off o.fin, ∀ j ∈ Ico p.off p.fin, ∑ l ∈ Ico p.off p.fin, L' k l * U' l j = S k j)) (clList bad c) [] A
    ⟨L, U, h.congr fun x _ y _ n _ _ hn => ⟨fun hd => hn.1 (by simpa using hd), fun hd => hn.2 fun hd' => hd (Or.inl hd')⟩, zL, zU, fun _ _ _ => rfl, fun _ _ _ => rfl, by simp⟩
    (by
      intro l1 o l2 B hl _ hI
      obtain ⟨L1, U1, i1, i2, i3, i4, i5, i6⟩ := hI
      rw [List.nil_append] at hl
      have ho : o ∈ clList bad c := by rw [hl]; simp
      have hsub : ∀ x ∈ l1, x ∈ clList bad c := fun x hx => by rw [hl]; exact List.mem_append_left _ hx
      have hno : o ∉ l1 := by
        have := T.nodup
        rw [hl, List.nodup_append] at this
        exact fun hx => this.2.2 o hx o List.mem_cons_self rfl
      by_cases hpo : p.off < o.off
      · obtain ⟨ap, hne⟩ := clL_apart hc ht hp ho hpo
        have hps := T.pos p hp
        have hos := T.pos o ho
        obtain ⟨A', Y, Z, a1, a2, a3, a4⟩ := lu_apply_one hEx hE hc ht hrk hf i1 hp ho hpo (Or.inl (Or.inr (Or.inr ⟨rfl, rfl⟩)))
          (by
            rintro ((h1 | h1 | h1) | h1 | h1)
            · omega
            · omega
            · exact hne h1.2.symm
            · exact hno h1.2.1
            · exact hne h1.1.symm)
          (by
            rintro ((h1 | h1 | h1) | h1 | h1)
            · omega
            · omega
            · exact hne h1.1.symm
            · exact hne h1.1.symm
            · exact hno h1.2.1)
        refine ⟨A', a1, setB o p Z L1, setB p o Y U1, a2.congr ?_, ?_, ?_, ?_, ?_, ?_⟩
        · intro x _ y _ n _ _ hn
          refine ⟨fun hd => hn.1 ?_, fun hd => hn.2 fun hd' => hd ?_⟩
          · rcases hd with hd | hd | hd
            · exact Or.inl (Or.inl hd)
            · rcases List.mem_append.1 hd.2.1 with h1 | h1
              · exact Or.inl (Or.inr (Or.inl ⟨hd.1, h1, hd.2.2⟩))
              · exact Or.inr (Or.inl ⟨hd.1, List.mem_singleton.1 h1⟩)
            · rcases List.mem_append.1 hd.2.1 with h1 | h1
              · exact Or.inl (Or.inr (Or.inr ⟨hd.1, h1, hd.2.2⟩))
              · exact Or.inr (Or.inr ⟨List.mem_singleton.1 h1, hd.1⟩)
          · rcases hd' with (hd' | hd' | hd') | hd' | hd'
            · exact Or.inl hd'
            · exact Or.inr (Or.inl ⟨hd'.1, List.mem_append_left _ hd'.2.1, hd'.2.2⟩)
            · exact Or.inr (Or.inr ⟨hd'.1, List.mem_append_left _ hd'.2.1, hd'.2.2⟩)
            · exact Or.inr (Or.inl ⟨hd'.1, by rw [hd'.2]; simp, by rw [hd'.2]; exact hpo⟩)
            · exact Or.inr (Or.inr ⟨hd'.2, by rw [hd'.1]; simp, by rw [hd'.1]; exact hpo⟩)
        · intro x hx i j hi hj
          rw [setB_out]
          · exact i2 x hx i j hi hj
          · rintro ⟨h1, h2⟩
            have := tiling_inj T.tiles T.pos hx ho (by omega)
            rw [this] at hj
            unfold ClusterTree.fin at *
            omega
        · intro x hx i j hi hj
          rw [setB_out]
          · exact i3 x hx i j hi hj
          · rintro ⟨h1, h2⟩
            have := tiling_inj T.tiles T.pos hx hp (by omega)
            rw [this] at hj
            unfold ClusterTree.fin at *
            omega
        · intro i l hil
          rw [setB_out (by rintro ⟨h1, h2⟩; omega)]
          exact i4 i l hil
        · intro l j hil
          rw [setB_out (by rintro ⟨h1, h2⟩; omega)]
          exact i5 l j hil
        · intro o' ho' hpo'
          rcases List.mem_append.1 ho' with h1 | h1
          · have hne' : o' ≠ o := fun e => hno (e ▸ h1)
            have dj : ∀ k ∈ Ico o'.off o'.fin, ¬ (o.off ≤ k ∧ k < o.fin) := fun k hk h2 => by
              have hk := mem_Ico.1 hk
              exact hne' (tiling_inj T.tiles T.pos (hsub o' h1) ho (by omega))
            obtain ⟨e1, e2⟩ := i6 o' h1 hpo'
            refine ⟨fun i hi k hk => ?_, fun k hk j hj => ?_⟩
            · rw [← e1 i hi k hk]
              have hi := mem_Ico.1 hi
              refine sum_congr rfl fun l _ => ?_
              rw [setB_out (by rintro ⟨h1, h2⟩; omega), setB_out (fun h2 => dj k hk h2.2)]
            · rw [← e2 k hk j hj]
              have hj := mem_Ico.1 hj
              refine sum_congr rfl fun l _ => ?_
              rw [setB_out (fun h2 => dj k hk h2.1), setB_out (by rintro ⟨h1, h2⟩; omega)]
          · rw [List.mem_singleton.1 h1]
            refine ⟨fun i hi k hk => ?_, fun k hk j hj => ?_⟩
            · rw [← a3 i hi k hk]
              have hi := mem_Ico.1 hi
              refine sum_congr rfl fun l hl => ?_
              rw [setB_out (by rintro ⟨h1, h2⟩; omega), setB_in (mem_Ico.1 hl) (mem_Ico.1 hk)]
            · rw [← a4 k hk j hj]
              have hj := mem_Ico.1 hj
              refine sum_congr rfl fun l hl => ?_
              rw [setB_in (mem_Ico.1 hk) (mem_Ico.1 hl), setB_out (by rintro ⟨h1, h2⟩; omega)]
      · refine ⟨B, by unfold luApply; rw [if_neg hpo], L1, U1, i1.congr ?_, i2, i3, i4, i5, ?_⟩
        · intro x _ y _ n _ _ hn
          refine ⟨fun hd => hn.1 ?_, fun hd => hn.2 fun hd' => hd ?_⟩
          · rcases hd with hd | hd | hd
            · exact Or.inl hd
            · rcases List.mem_append.1 hd.2.1 with h1 | h1
              · exact Or.inr (Or.inl ⟨hd.1, h1, hd.2.2⟩)
              · rw [List.mem_singleton.1 h1] at hd; exact absurd hd.2.2 hpo
            · rcases List.mem_append.1 hd.2.1 with h1 | h1
              · exact Or.inr (Or.inr ⟨hd.1, h1, hd.2.2⟩)
              · rw [List.mem_singleton.1 h1] at hd; exact absurd hd.2.2 hpo
          · rcases hd' with hd' | hd' | hd'
            · exact Or.inl hd'
            · exact Or.inr (Or.inl ⟨hd'.1, List.mem_append_left _ hd'.2.1, hd'.2.2⟩)
            · exact Or.inr (Or.inr ⟨hd'.1, List.mem_append_left _ hd'.2.1, hd'.2.2⟩)
        · intro o' ho' hpo'
          rcases List.mem_append.1 ho' with h1 | h1
          · exact i6 o' h1 hpo'
          · rw [List.mem_singleton.1 h1] at hpo'; exact absurd hpo' hpo)
  obtain ⟨A', e1, L', U', e2, e3⟩ := key
  rw [List.nil_append] at e2 e3
  refine ⟨A', L', U', e1, e2.congr ?_, e3⟩
  intro x hx y hy n _ _ hn
  have hps := T.pos p hp
  have cmp : ∀ x ∈ clList bad c, x.off < p.fin ↔ x.off < p.off ∨ x = p := by
    intro x hx
    have hxs := T.pos x hx
    constructor
    · intro h1
      by_cases he : x = p
      · exact Or.inr he
      · refine Or.inl ?_
        by_contra h2
        exact he (tiling_inj T.tiles T.pos hx hp (by unfold ClusterTree.fin at *; omega))
    · rintro (h1 | rfl)
      · unfold ClusterTree.fin; omega
      · unfold ClusterTree.fin; omega
  have tri : ∀ x ∈ clList bad c, x.off < p.off ∨ x = p ∨ p.off < x.off := by
    intro x hx
    by_cases he : x = p
    · exact Or.inr (Or.inl he)
    · have hxs := T.pos x hx
      have : ¬ (x.off < p.fin ∧ p.off < x.fin) := fun h1 => he (tiling_inj T.tiles T.pos hx hp h1)
      unfold ClusterTree.fin at *
      omega
  refine ⟨fun hd => hn.1 ?_, fun hd => hn.2 fun hd' => hd ?_⟩
  · rcases hd with hd | hd
    · rcases (cmp x hx).1 hd with h1 | h1
      · exact Or.inl (Or.inl h1)
      · rcases tri y hy with h2 | h2 | h2
        · exact Or.inl (Or.inr (Or.inl h2))
        · exact Or.inl (Or.inr (Or.inr ⟨h1, h2⟩))
        · exact Or.inr (Or.inl ⟨h1, hy, h2⟩)
    · rcases (cmp y hy).1 hd with h1 | h1
      · exact Or.inl (Or.inr (Or.inl h1))
      · rcases tri x hx with h2 | h2 | h2
        · exact Or.inl (Or.inl h2)
        · exact Or.inl (Or.inr (Or.inr ⟨h2, h1⟩))
        · exact Or.inr (Or.inr ⟨h1, hx, h2⟩)
  · rcases hd' with (h1 | h1 | h1) | h1 | h1
    · exact Or.inl ((cmp x hx).2 (Or.inl h1))
    · exact Or.inr ((cmp y hy).2 (Or.inl h1))
    · exact Or.inl ((cmp x hx).2 (Or.inr h1.1))
    · exact Or.inl ((cmp x hx).2 (Or.inr h1.1))
    · exact Or.inr ((cmp y hy).2 (Or.inr h1.1))

/-- "Update Schur complement". -/
theorem lu_update_loop (hEx : E.Exact) (hc : ClOK c) (ht : c.Top) (hrk : ∀ p ∈ clList bad c, 0 ≤ p.rk) (hf : 2 * N ≤ f + 2)
    {p : ClusterTree G} (hp : p ∈ clList bad c)
    (h : FState .full bad c N (QL ad (fun x y => x.off < p.fin ∨ y.off < p.fin) S L U) A) :
    ∃ A' S', (pairs (clList bad c) (clList bad c)).foldlM (luUpdate E f p) A = some A' ∧
      FState .full bad c N (QL ad (fun x y => x.off < p.fin ∨ y.off < p.fin) S' L U) A' ∧
      ∀ i j, p.fin ≤ i → i < c.fin → p.fin ≤ j → j < c.fin → S' i j = S i j - ∑ l ∈ Ico p.off p.fin, L i l * U l j := by
  have T := clL_of hc ht bad
  have hps := T.pos p hp
  have key := foldlM_inv (f := luUpdate E f p) (fun l1 A =>
      FState .full bad c N (QL ad (fun x y => x.off < p.fin ∨ y.off < p.fin) (fun i j => S i j -
        (l1.countP (fun x => decide (p.off < x.1.off ∧ x.1.off ≤ i ∧ i < x.1.fin) && decide (p.off < x.2.off ∧ x.2.off ≤ j ∧ j < x.2.fin)) : ℕ) *
          ∑ l ∈ Ico p.off p.fin, L i l * U l j) L U) A) (pairs (clList bad c) (clList bad c)) [] A
    (h.congr fun x _ y _ n _ _ hn => ⟨hn.1, fun hd => (hn.2 hd).full_congr fun i j _ => by simp⟩)
    (by
      rintro l1 ⟨x, y⟩ l2 B hl _ hI
      rw [List.nil_append] at hl
      have hm : (x, y) ∈ pairs (clList bad c) (clList bad c) := by rw [hl]; simp
      obtain ⟨hx, hy⟩ := mem_pairs.1 hm
      by_cases hxy : p.off < x.off ∧ p.off < y.off
      · obtain ⟨B', b1, b2⟩ := lu_update_one hEx hc ht hrk hf hI hp hx hy hxy.1 hxy.2 (Or.inl (by unfold ClusterTree.fin; omega))
          (Or.inr (by unfold ClusterTree.fin; omega)) (by
            have a1 := (clL_apart hc ht hp hx hxy.1).1
            have a2 := (clL_apart hc ht hp hy hxy.2).1
            omega)
        refine ⟨B', b1, b2.congr fun x' _ y' _ n _ _ hn => ⟨hn.1, fun hd => (hn.2 hd).full_congr fun i j _ => ?_⟩⟩
        rw [List.countP_append, List.countP_cons, List.countP_nil]
        by_cases hij : (x.off ≤ i ∧ i < x.fin) ∧ y.off ≤ j ∧ j < y.fin
        · simp only [if_pos hij]
          rw [if_pos (by simp only [Bool.and_eq_true, decide_eq_true_eq]; exact ⟨⟨hxy.1, hij.1⟩, hxy.2, hij.2⟩)]
          push_cast
          ring
        · simp only [if_neg hij]
          rw [if_neg (by simp only [Bool.and_eq_true, decide_eq_true_eq]; exact fun h1 => hij ⟨h1.1.2, h1.2.2⟩)]
          push_cast
          ring
      · refine ⟨B, by unfold luUpdate; rw [if_neg hxy], hI.congr fun x' _ y' _ n _ _ hn => ⟨hn.1, fun hd => (hn.2 hd).full_congr fun i j _ => ?_⟩⟩
        rw [List.countP_append, List.countP_cons, List.countP_nil]
        rw [if_neg (by simp only [Bool.and_eq_true, decide_eq_true_eq]; exact fun h1 => hxy ⟨h1.1.1, h1.2.1⟩)]
        rfl)
  obtain ⟨A', e1, e2⟩ := key
  refine ⟨A', _, e1, e2, fun i j h1 h2 h3 h4 => ?_⟩
  rw [List.nil_append, countP_pairs (clList bad c) (clList bad c) (fun x => decide (p.off < x.off ∧ x.off ≤ i ∧ i < x.fin))
    (fun x => decide (p.off < x.off ∧ x.off ≤ j ∧ j < x.fin)), T.count hp, T.count hp, if_pos ⟨h1, h2⟩, if_pos ⟨h3, h4⟩]
  simp

omit [StarRing R] [DecidableEq R] in
/-- A block of the diagonal of `L U`. -/
theorem QL_set_diag (hc : ClOK c) (ht : c.Top) {dn : ClusterTree G → ClusterTree G → Prop} {p x y : ClusterTree G} (hp : p ∈ clList bad c) (hx : x ∈ clList bad c)
    (hy : y ∈ clList bad c) (hne : ¬ (x = p ∧ y = p)) {n : FNode G R} (d1 : x.Desc n.t) (d2 : y.Desc n.s) {L1 U1 : ℕ → ℕ → R} (h : QL ad dn S L U x y n) :
    QL ad (fun x y => dn x y ∨ (x = p ∧ y = p)) S (setB p p L1 L) (setB p p U1 U) x y n := by
  refine ⟨fun hd => ?_, fun hd => h.2 fun hd' => hd (Or.inl hd')⟩
  obtain ⟨t1, t2⟩ := h.1 (hd.resolve_right hne)
  exact ⟨t1.set_lower hc ht hp hp hx hy hne (le_refl _) d1 d2, t2.set_upper hc ht hp hp hx hy hne (le_refl _) d1 d2⟩

/-- One iteration of the loop of the factorization. -/
theorem lu_step (hEx : E.Exact) (hE : TrsmOK E) (hc : ClOK c) (ht : c.Top) (hrk : ∀ p ∈ clList bad c, 0 ≤ p.rk) (hf : 2 * N ≤ f + 2)
    {p : ClusterTree G} (hp : p ∈ clList bad c) (g : FTree G R → Option (FTree G R))
    (hg : ∀ X : FTree G R, getBlock p p A = some X → Rep .full ad S X → X.label.t = p → X.label.s = p → X.ht < N → ∃ X' L U, g X = some X' ∧ X'.label.t = p ∧ X'.label.s = p ∧ X'.ht ≤ X.ht ∧
      Shape .full (fun n => Flag .full n ∧ LUP ad L U n) X' ∧ ∀ i ∈ Ico p.off p.fin, ∀ j ∈ Ico p.off p.fin, ∑ l ∈ Ico p.off p.fin, L i l * U l j = S i j)
    (h : FState .full bad c N (QL ad (fun x y => x.off < p.off ∨ y.off < p.off) S L U) A)
    (zL : ZL (clList bad c) L) (zU : ZU (clList bad c) U) :
    ∃ A' S' L' U', ((updSub p p g A).bind (fun A1 => (clList bad c).foldlM (luApply E f p) A1)).bind
        (fun A2 => (pairs (clList bad c) (clList bad c)).foldlM (luUpdate E f p) A2) = some A' ∧
      FState .full bad c N (QL ad (fun x y => x.off < p.fin ∨ y.off < p.fin) S' L' U') A' ∧ ZL (clList bad c) L' ∧ ZU (clList bad c) U' ∧
      (∀ i l, l < p.off → L' i l = L i l) ∧ (∀ l j, l < p.off → U' l j = U l j) ∧
      ∀ i j, p.off ≤ i → i < c.fin → p.off ≤ j → j < c.fin →
        ∑ l ∈ Ico p.off p.fin, L' i l * U' l j + (if p.fin ≤ i ∧ p.fin ≤ j then S' i j else 0) = S i j := by
  have T := clL_of hc ht bad
  have hps := T.pos p hp
  have op := hc.desc (clList_desc hc ht hp)
  -- the diagonal block
  obtain ⟨X, x1, x2, x3, x4, x5, -, x6⟩ := h.focus hc ht hp hp rfl
  have nd : ¬ (p.off < p.off ∨ p.off < p.off) := by omega
  obtain ⟨X', L1, U1, y1, y2, y3, y4, y5, y6⟩ := hg X x1 (Shape.imp x2 fun Y _ hY => hY.2.2 nd) x3 x4 x5
  obtain ⟨A1, a1, a2⟩ := x6 g (QL ad (fun x y => (x.off < p.off ∨ y.off < p.off) ∨ (x = p ∧ y = p)) S (setB p p L1 L) (setB p p U1 U)) X' y1 (by
      refine Shape.imp y5 fun V hV hV' => ⟨hV'.1, fun _ => ?_, fun hd => absurd (Or.inr ⟨rfl, rfl⟩) hd⟩
      have d := Shape.pre_desc y5 hV
      rw [y2, y3] at d
      have b1 := op.desc_bounds d.1
      have b2 := op.desc_bounds d.2.1
      refine ⟨hV'.2.1.congr (fun i j hij => ?_) fun hts i j hi => ⟨fun _ hj => ?_, fun hu => by cases hu⟩,
        hV'.2.2.congr (fun i j hij => ?_) fun hts i j hi => ⟨fun hu => by (cases hu), fun _ hj => ?_⟩⟩
      · unfold FNode.Has at hij
        exact (setB_in (by omega) (by omega)).symm
      · by_cases hj' : p.off ≤ j ∧ j < p.fin
        · rw [setB_in (by omega) hj']
          exact ((hV'.2.1.1 hts).1 i j hi).1 rfl hj
        · rw [setB_out (fun h => hj' h.2)]
          exact zL p hp i j (by omega) (by omega)
      · unfold FNode.Has at hij
        exact (setB_in (by omega) (by omega)).symm
      · by_cases hj' : p.off ≤ j ∧ j < p.fin
        · rw [setB_in (by omega) hj']
          exact ((hV'.2.2.1 hts).1 i j hi).2 rfl hj
        · rw [setB_out (fun h => hj' h.2)]
          exact zU p hp i j (by omega) (by omega)) y2 y3 y4
    (fun p' hp' q' hq' hne n d1 d2 hn => QL_set_diag hc ht hp hp' hq' hne d1 d2 hn)
  have zL1 : ZL (clList bad c) (setB p p L1 L) := by
    intro x hx i j hi hj
    rw [setB_out]
    · exact zL x hx i j hi hj
    · rintro ⟨h1, h2⟩
      rw [tiling_inj T.tiles T.pos hx hp (by omega)] at hj
      omega
  have zU1 : ZU (clList bad c) (setB p p U1 U) := by
    intro x hx i j hi hj
    rw [setB_out]
    · exact zU x hx i j hi hj
    · rintro ⟨h1, h2⟩
      rw [tiling_inj T.tiles T.pos hx hp (by omega)] at hj
      omega
  -- the row and the column
  obtain ⟨A2, L2, U2, b1, b2, b3, b4, b5, b6, b7⟩ := lu_apply_loop hEx hE hc ht hrk hf hp (A := A1) (S := S) (a2.congr fun x _ y _ n _ _ hn => by
    refine ⟨fun hd => hn.1 ?_, fun hd => hn.2 fun hd' => hd ?_⟩
    · rcases hd with hd | hd | hd
      · exact Or.inl (Or.inl hd)
      · exact Or.inl (Or.inr hd)
      · exact Or.inr hd
    · rcases hd' with (hd | hd) | hd
      · exact Or.inl hd
      · exact Or.inr (Or.inl hd)
      · exact Or.inr (Or.inr hd)) zL1 zU1
  -- the Schur complement
  obtain ⟨A3, S', c1, c2, c3⟩ := lu_update_loop hEx hc ht hrk hf hp b2
  refine ⟨A3, S', L2, U2, ?_, c2, b3, b4, fun i l hl => ?_, fun l j hl => ?_, ?_⟩
  · rw [a1]
    show Option.bind ((clList bad c).foldlM (luApply E f p) A1) _ = _
    rw [b1]
    exact c1
  · rw [b5 i l (Or.inl (by omega)), setB_out (by omega)]
  · rw [b6 l j (Or.inl (by omega)), setB_out (by omega)]
  · intro i j h1 h2 h3 h4
    have bp := T.bounds hp
    by_cases hi : p.fin ≤ i
    · by_cases hj : p.fin ≤ j
      · rw [if_pos ⟨hi, hj⟩, c3 i j hi h2 hj h4]
        ring
      · rw [if_neg (by omega), add_zero]
        obtain ⟨o, ho, hio⟩ := T.cover (mem_Ico.2 ⟨by omega, h2⟩ : i ∈ Ico c.off c.fin)
        have hio' := mem_Ico.1 hio
        refine (b7 o ho ?_).2 i hio j (mem_Ico.2 (by omega))
        by_contra hc'
        have e := tiling_inj T.tiles T.pos ho hp (by unfold ClusterTree.fin at *; omega)
        rw [e] at hio'
        omega
    · rw [if_neg (by omega), add_zero]
      by_cases hj : p.fin ≤ j
      · obtain ⟨o, ho, hjo⟩ := T.cover (mem_Ico.2 ⟨by omega, h4⟩ : j ∈ Ico c.off c.fin)
        have hjo' := mem_Ico.1 hjo
        refine (b7 o ho ?_).1 i (mem_Ico.2 (by omega)) j hjo
        by_contra hc'
        have e := tiling_inj T.tiles T.pos ho hp (by unfold ClusterTree.fin at *; omega)
        rw [e] at hjo'
        omega
      · rw [← y6 i (mem_Ico.2 (by omega)) j (mem_Ico.2 (by omega))]
        refine sum_congr rfl fun l hl => ?_
        rw [b5 i l (Or.inr (by omega)), b6 l j (Or.inr (by omega)), setB_in (by omega) (mem_Ico.1 hl), setB_in (mem_Ico.1 hl) (by omega)]

end lu
end Htool
