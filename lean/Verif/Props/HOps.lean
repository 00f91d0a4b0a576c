import Verif.HOps
import Verif.Props.HProd
import Mathlib.Tactic.IntervalCases

/-! # Properties C23–C27 -/

namespace Htool
variable {R : Type*} [CommRing R] [StarRing R]
open Finset

/-! ## C23: dense conversion -/

/-- The leaves of `A` hold the entries of `M` (cluster numbering) and lie inside the root block. -/
structure HTree.Holds (A : HTree R) (M : ℕ → ℕ → R) : Prop where
  inside : ∀ l ∈ A.leaves, Inside (l.label.toff, l.label.tsz) (A.label.toff, A.label.tsz) ∧
    Inside (l.label.soff, l.label.ssz) (A.label.soff, A.label.ssz)
  raw : ∀ l ∈ A.leaves, ∀ i j, l.label.Has i j → l.label.raw (i - l.label.toff) (j - l.label.soff) = M i j

theorem pos_split {n a b : ℕ} (h : a < n) : (a + b * n) % n = a ∧ (a + b * n) / n = b := by
  have hn : 0 < n := by omega
  constructor
  · rw [Nat.add_mul_mod_self_right, Nat.mod_eq_of_lt h]
  · rw [Nat.add_mul_div_right _ _ hn, Nat.div_eq_of_lt h, zero_add]

theorem pos_bound {n m a b : ℕ} (h1 : a < n) (h2 : b < m) : a + b * n < n * m := by
  have : (b + 1) * n ≤ m * n := Nat.mul_le_mul_right _ h2
  rw [Nat.add_mul, one_mul] at this
  rw [Nat.mul_comm n m]
  omega

/-- **C23.** `copy_to_dense` writes the entry `(i,j)` of every leaf at position `(i - row offset) + (j - column offset) * rows`, and no
other position. -/
theorem C23_copy_to_dense {A : HTree R} {M : ℕ → ℕ → R} (h : A.Holds M) (p : Buf R) :
    (∀ i < A.label.tsz, ∀ j < A.label.ssz, copyToDense A p (i + j * A.label.tsz) =
      if ∃ l ∈ A.leaves, l.label.Has (A.label.toff + i) (A.label.soff + j) then M (A.label.toff + i) (A.label.soff + j)
      else p (i + j * A.label.tsz)) ∧
    ∀ d, A.label.tsz * A.label.ssz ≤ d → copyToDense A p d = p d := by
  have hp := getLeavesH_perm A
  set W := (getLeavesH A).1.flatMap (fun l => copyDenseWrites A.label l.label) with hW
  -- what is written
  have key : ∀ w ∈ W, ∃ l ∈ A.leaves, ∃ i < A.label.tsz, ∃ j < A.label.ssz, l.label.Has (A.label.toff + i) (A.label.soff + j) ∧
      w.1 = i + j * A.label.tsz ∧ ∀ p, w.2 p = M (A.label.toff + i) (A.label.soff + j) := by
    intro w hw
    simp only [hW, List.mem_flatMap, copyDenseWrites, List.mem_map] at hw
    obtain ⟨l, hl, ⟨a, b⟩, hx, rfl⟩ := hw
    have hl := hp.1.mem_iff.1 hl
    rw [mem_colLoop] at hx
    obtain ⟨h1, h2⟩ := h.inside l hl
    unfold Inside at h1 h2
    simp only at h1 h2 hx
    refine ⟨l, hl, a + (l.label.toff - A.label.toff), by omega, b + (l.label.soff - A.label.soff), by omega, ?_, rfl, ?_⟩
    · unfold HNode.Has InIv; simp only; omega
    · intro p
      have := h.raw l hl (l.label.toff + a) (l.label.soff + b) (by unfold HNode.Has InIv; simp only; omega)
      simp only [Nat.add_sub_cancel_left] at this
      simp only
      rw [this]
      congr 1 <;> omega
  have good := runAssigns_good W (fun _ => False) (fun d => M (A.label.toff + d % A.label.tsz) (A.label.soff + d / A.label.tsz)) p
    (by simp) (by
      intro w hw q _
      obtain ⟨l, -, i, hi, j, hj, -, e1, e2⟩ := key w hw
      rw [e2, e1, (pos_split hi).1, (pos_split hi).2])
  have hrun : copyToDense A p = runAssigns W p := rfl
  rw [hrun]
  constructor
  · intro i hi j hj
    split_ifs with hex
    · obtain ⟨l, hl, hh⟩ := hex
      have hin : i + j * A.label.tsz ∈ W.map Prod.fst := by
        rw [List.mem_map]
        unfold HNode.Has InIv at hh
        simp only at hh
        obtain ⟨h1, h2⟩ := h.inside l hl
        unfold Inside at h1 h2
        simp only at h1 h2
        refine ⟨((A.label.toff + i - l.label.toff) + (l.label.toff - A.label.toff) +
          ((A.label.soff + j - l.label.soff) + (l.label.soff - A.label.soff)) * A.label.tsz,
          fun _ => l.label.raw (A.label.toff + i - l.label.toff) (A.label.soff + j - l.label.soff)), ?_, ?_⟩
        · simp only [hW, List.mem_flatMap, copyDenseWrites, List.mem_map]
          exact ⟨l, hp.1.mem_iff.2 hl, (A.label.toff + i - l.label.toff, A.label.soff + j - l.label.soff),
            mem_colLoop.2 (by simp only; omega), rfl⟩
        · simp only
          rw [show A.label.toff + i - l.label.toff + (l.label.toff - A.label.toff) = i by omega,
            show A.label.soff + j - l.label.soff + (l.label.soff - A.label.soff) = j by omega]
      rw [good.1 _ (Or.inr hin), (pos_split hi).1, (pos_split hi).2]
    · apply good.2
      intro hin
      obtain ⟨w, hw, e⟩ := List.mem_map.1 hin
      obtain ⟨l, hl, i', hi', j', hj', hh, e1, -⟩ := key w hw
      rw [e1] at e
      have a1 := pos_split (b := j') hi'
      have a2 := pos_split (b := j) hi
      rw [e] at a1
      obtain rfl : i = i' := by omega
      obtain rfl : j = j' := by omega
      exact hex ⟨l, hl, hh⟩
  · intro d hd
    apply good.2
    intro hin
    obtain ⟨w, hw, e⟩ := List.mem_map.1 hin
    obtain ⟨l, hl, i', hi', j', hj', hh, e1, -⟩ := key w hw
    have := pos_bound hi' hj'
    omega

/-- Position arithmetic of the permutations: `perm[off + i] - off = userIdx perm off i`. -/
theorem userPos_eq (pt ps : List ℕ) (A : HNode R) (i j : ℕ) :
    userPos pt ps A (A.toff + i) (A.soff + j) = userIdx pt A.toff i + userIdx ps A.soff j * A.tsz := rfl

/-- **C23.** `copy_to_dense_in_user_numbering` writes the whole matrix, mirrored half included, in user numbering: the entry in cluster
numbering `(i,j)` goes to the user indices the permutations give. -/
theorem C23_copy_to_dense_in_user_numbering {A : HTree R} {M : ℕ → ℕ → R} (h : A.Holds M) {pt ps : List ℕ}
    (hpt : LocalPerm pt A.label.toff A.label.tsz) (hps : LocalPerm ps A.label.soff A.label.ssz)
    (hsame : (getLeavesH A).2 ≠ [] → pt = ps ∧ A.label.symL ≠ .N)
    (hmir : ∀ l ∈ (getLeavesH A).2, Inside (l.label.soff, l.label.ssz) (A.label.toff, A.label.tsz) ∧
      Inside (l.label.toff, l.label.tsz) (A.label.soff, A.label.ssz))
    (hM : ∀ l ∈ (getLeavesH A).2, ∀ i j, l.label.Has i j → M j i = if A.label.symL = .S then M i j else star (M i j))
    (hcov : ∀ i j, A.label.Has i j → (∃ l ∈ (getLeavesH A).1, l.label.Has i j) ∨ ∃ l ∈ (getLeavesH A).2, l.label.Has j i)
    (p : Buf R) :
    (∀ i < A.label.tsz, ∀ j < A.label.ssz,
      copyToDenseUser pt ps A p (userIdx pt A.label.toff i + userIdx ps A.label.soff j * A.label.tsz) =
        M (A.label.toff + i) (A.label.soff + j)) ∧
    ∀ d, A.label.tsz * A.label.ssz ≤ d → copyToDenseUser pt ps A p d = p d := by
  have hp := getLeavesH_perm A
  -- the wanted content: user matrix
  obtain ⟨tv, htv⟩ : ∃ tv : ℕ → R, ∀ i < A.label.tsz, ∀ j < A.label.ssz,
      tv (userIdx pt A.label.toff i + userIdx ps A.label.soff j * A.label.tsz) = M (A.label.toff + i) (A.label.soff + j) := by
    classical
    refine ⟨fun d => if hd : ∃ x : ℕ × ℕ, x.1 < A.label.tsz ∧ x.2 < A.label.ssz ∧
      d = userIdx pt A.label.toff x.1 + userIdx ps A.label.soff x.2 * A.label.tsz then
        M (A.label.toff + hd.choose.1) (A.label.soff + hd.choose.2) else 0, ?_⟩
    intro i hi j hj
    have hex : ∃ x : ℕ × ℕ, x.1 < A.label.tsz ∧ x.2 < A.label.ssz ∧
      userIdx pt A.label.toff i + userIdx ps A.label.soff j * A.label.tsz =
        userIdx pt A.label.toff x.1 + userIdx ps A.label.soff x.2 * A.label.tsz := ⟨(i, j), hi, hj, rfl⟩
    beta_reduce
    rw [dif_pos hex]
    obtain ⟨c1, c2, c3⟩ := hex.choose_spec
    obtain ⟨-, -, -, b1⟩ := userIdx_eq hpt hi
    obtain ⟨-, -, -, b2⟩ := userIdx_eq hpt c1
    have a1 := pos_split (b := userIdx ps A.label.soff j) b1
    have a2 := pos_split (b := userIdx ps A.label.soff hex.choose.2) b2
    rw [c3] at a1
    rw [← userIdx_inj hpt hi c1 (by omega), ← userIdx_inj hps hj c2 (by omega)]
  set W := (getLeavesH A).1.flatMap (fun l => copyUserWrites pt ps A.label l.label) with hW
  set V := (if A.label.symL ≠ .N then (getLeavesH A).2 else []).flatMap (fun l => copyUserMirror pt ps A.label l.label) with hV
  have hrun : copyToDenseUser pt ps A p = runAssigns V (runAssigns W p) := by
    unfold copyToDenseUser
    simp only [hV]
    split_ifs <;> simp [hW, runAssigns]
  have pb : ∀ i < A.label.tsz, ∀ j < A.label.ssz,
      userIdx pt A.label.toff i + userIdx ps A.label.soff j * A.label.tsz < A.label.tsz * A.label.ssz := by
    intro i hi j hj
    obtain ⟨-, -, -, b1⟩ := userIdx_eq hpt hi
    obtain ⟨-, -, -, b2⟩ := userIdx_eq hps hj
    exact pos_bound b1 b2
  have kW : ∀ w ∈ W, ∃ i < A.label.tsz, ∃ j < A.label.ssz,
      w.1 = userIdx pt A.label.toff i + userIdx ps A.label.soff j * A.label.tsz ∧
      ∀ p, w.2 p = M (A.label.toff + i) (A.label.soff + j) := by
    intro w hw
    simp only [hW, List.mem_flatMap, copyUserWrites, List.mem_map] at hw
    obtain ⟨l, hl, ⟨a, b⟩, hx, rfl⟩ := hw
    have hl := hp.1.mem_iff.1 hl
    rw [mem_colLoop] at hx
    obtain ⟨h1, h2⟩ := h.inside l hl
    unfold Inside at h1 h2
    simp only at h1 h2 hx
    refine ⟨a + l.label.toff - A.label.toff, by omega, b + l.label.soff - A.label.soff, by omega, ?_, ?_⟩
    · rw [← userPos_eq]
      simp only
      congr 1 <;> omega
    · intro p
      have := h.raw l hl (l.label.toff + a) (l.label.soff + b) (by unfold HNode.Has InIv; simp only; omega)
      simp only [Nat.add_sub_cancel_left] at this
      simp only
      rw [this]
      congr 1 <;> omega
  have mW : ∀ l ∈ (getLeavesH A).1, ∀ i j, l.label.Has i j →
      userIdx pt A.label.toff (i - A.label.toff) + userIdx ps A.label.soff (j - A.label.soff) * A.label.tsz ∈ W.map Prod.fst := by
    intro l hl i j hh
    unfold HNode.Has InIv at hh
    simp only at hh
    obtain ⟨h1, h2⟩ := h.inside l (hp.1.mem_iff.1 hl)
    unfold Inside at h1 h2
    simp only at h1 h2
    rw [List.mem_map]
    refine ⟨(userPos pt ps A.label ((i - l.label.toff) + l.label.toff) ((j - l.label.soff) + l.label.soff),
      fun _ => l.label.raw (i - l.label.toff) (j - l.label.soff)), ?_, ?_⟩
    · simp only [hW, List.mem_flatMap, copyUserWrites, List.mem_map]
      exact ⟨l, hl, (i - l.label.toff, j - l.label.soff), mem_colLoop.2 (by simp only; omega), rfl⟩
    · rw [← userPos_eq]
      simp only
      congr 1 <;> omega
  have g1 := runAssigns_good W (fun _ => False) tv p (by simp) (by
    intro w hw q _
    obtain ⟨i, hi, j, hj, e1, e2⟩ := kW w hw
    rw [e2, e1, htv i hi j hj])
  have hsub : ∀ l ∈ (getLeavesH A).2, l ∈ (getLeavesH A).1 := fun l hl =>
    hp.1.mem_iff.2 (symLeavesG_sub _ _ (hp.2.mem_iff.1 hl))
  have kV : ∀ w ∈ V, ∃ l ∈ (getLeavesH A).2, ∃ i j, l.label.Has i j ∧
      w.1 = userIdx pt A.label.toff (j - A.label.toff) + userIdx ps A.label.soff (i - A.label.soff) * A.label.tsz ∧
      (j - A.label.toff < A.label.tsz ∧ i - A.label.soff < A.label.ssz ∧ A.label.toff ≤ j ∧ A.label.soff ≤ i) ∧
      ∀ q : Buf R, w.2 q = if A.label.symL = .S then
        q (userIdx pt A.label.toff (i - A.label.toff) + userIdx ps A.label.soff (j - A.label.soff) * A.label.tsz)
        else star (q (userIdx pt A.label.toff (i - A.label.toff) + userIdx ps A.label.soff (j - A.label.soff) * A.label.tsz)) := by
    intro w hw
    simp only [hV, List.mem_flatMap, copyUserMirror, List.mem_map] at hw
    obtain ⟨l, hl, ⟨a, b⟩, hx, rfl⟩ := hw
    have hl2 : l ∈ (getLeavesH A).2 := by
      split_ifs at hl with hN
      · exact hl
      · simp at hl
    have hl1 := hp.1.mem_iff.1 (hsub l hl2)
    rw [mem_colLoop] at hx
    obtain ⟨h1, h2⟩ := h.inside l hl1
    obtain ⟨h3, h4⟩ := hmir l hl2
    obtain ⟨hpp, -⟩ := hsame (List.ne_nil_of_mem hl2)
    unfold Inside at h1 h2 h3 h4
    simp only at h1 h2 h3 h4 hx
    refine ⟨l, hl2, l.label.toff + a, l.label.soff + b, by unfold HNode.Has InIv; simp only; omega, ?_, by omega, ?_⟩
    · subst hpp
      unfold userIdx
      simp only
      congr 2
      · congr 1; omega
      · congr 2; omega
    · intro q
      simp only
      rw [← userPos_eq]
      rw [show A.label.toff + (l.label.toff + a - A.label.toff) = a + l.label.toff by omega,
        show A.label.soff + (l.label.soff + b - A.label.soff) = b + l.label.soff by omega]
  have g2 := runAssigns_good V (fun d => d ∈ W.map Prod.fst) tv (runAssigns W p) (fun d hd => g1.1 d (Or.inr hd)) (by
    intro w hw q hq
    obtain ⟨l, hl, i, j, hh, e1, hb, e2⟩ := kV w hw
    have hr := hq _ (mW l (hsub l hl) i j hh)
    obtain ⟨h1, h2⟩ := h.inside l (hp.1.mem_iff.1 (hsub l hl))
    have hh' := hh
    unfold HNode.Has InIv at hh'
    unfold Inside at h1 h2
    simp only at h1 h2 hh'
    rw [e2, hr, htv _ (by omega) _ (by omega), e1, htv _ hb.1 _ hb.2.1]
    rw [show A.label.toff + (i - A.label.toff) = i by omega, show A.label.soff + (j - A.label.soff) = j by omega,
      show A.label.toff + (j - A.label.toff) = j by omega, show A.label.soff + (i - A.label.soff) = i by omega]
    rw [hM l hl i j hh])
  rw [hrun]
  constructor
  · intro i hi j hj
    rw [← htv i hi j hj]
    apply g2.1
    rcases hcov (A.label.toff + i) (A.label.soff + j) (by unfold HNode.Has InIv; simp only; omega) with ⟨l, hl, hh⟩ | ⟨l, hl, hh⟩
    · left
      have := mW l hl _ _ hh
      rwa [Nat.add_sub_cancel_left, Nat.add_sub_cancel_left] at this
    · right
      obtain ⟨hpp, hN⟩ := hsame (List.ne_nil_of_mem hl)
      rw [List.mem_map]
      unfold HNode.Has InIv at hh
      simp only at hh
      refine ⟨?_, ?_, ?_⟩
      · exact (ps.getD ((A.label.toff + i - l.label.soff) + l.label.soff) 0 - A.label.toff +
          (pt.getD ((A.label.soff + j - l.label.toff) + l.label.toff) 0 - A.label.soff) * A.label.tsz,
          fun p => if A.label.symL = .S then
            p (userPos pt ps A.label ((A.label.soff + j - l.label.toff) + l.label.toff) ((A.label.toff + i - l.label.soff) + l.label.soff))
          else star (p (userPos pt ps A.label ((A.label.soff + j - l.label.toff) + l.label.toff)
            ((A.label.toff + i - l.label.soff) + l.label.soff))))
      · simp only [hV, List.mem_flatMap, copyUserMirror, List.mem_map, if_pos hN]
        exact ⟨l, hl, (A.label.soff + j - l.label.toff, A.label.toff + i - l.label.soff), mem_colLoop.2 (by simp only; omega), rfl⟩
      · subst hpp
        unfold userIdx
        simp only
        rw [show A.label.toff + i - l.label.soff + l.label.soff = A.label.toff + i by omega,
          show A.label.soff + j - l.label.toff + l.label.toff = A.label.soff + j by omega]
  · intro d hd
    rw [g2.2, g1.2]
    · intro hin
      obtain ⟨w, hw, e⟩ := List.mem_map.1 hin
      obtain ⟨i, hi, j, hj, e1, -⟩ := kW w hw
      have := pb i hi j hj
      omega
    · intro hin
      obtain ⟨w, hw, e⟩ := List.mem_map.1 hin
      obtain ⟨l, hl, i, j, hh, e1, hb, e2⟩ := kV w hw
      have := pb _ hb.1 _ hb.2.1
      omega

/-! ## C24: diagonal -/

/-- A leaf which starts on the diagonal and reaches the diagonal entry `i` (cluster numbering). -/
def HNode.OnDiag (l : HNode R) (i : ℕ) : Prop := l.toff = l.soff ∧ l.toff ≤ i ∧ i < l.toff + min l.tsz l.ssz

theorem diagVal_raw {l : HNode R} (hsq : ∀ r U V, l.data = .lowRank r U V → l.tsz = l.ssz) (hd : l.data ≠ .hier) {k : ℕ}
    (hk : k < min l.tsz l.ssz) : l.diagVal k = l.raw k k := by
  unfold HNode.diagVal
  cases hl : l.data with
  | dense M => simp [HNode.raw, hl]
  | hier => exact absurd hl hd
  | lowRank r U V =>
    simp only
    have hs := hsq r U V hl
    unfold HNode.lrDiag
    have h1 : k < l.tsz := by omega
    have e := pos_split (b := k) h1
    have b := pos_bound h1 (show k < l.ssz by omega)
    simp only
    rw [← hs] at b ⊢
    rw [if_pos b, e.1, e.2]

theorem mem_copyDiagWrites {A l : HNode R} (hd : l.data ≠ .hier) {w : Assign R} : w ∈ copyDiagWrites A l ↔
    l.toff - A.toff = l.soff - A.soff ∧ ∃ k < min l.tsz l.ssz, w = (k + (l.toff - A.toff), fun _ => l.diagVal k) := by
  unfold copyDiagWrites
  cases h : l.data with
  | hier => exact absurd h hd
  | dense M =>
    simp only
    split_ifs with he
    · simp only [List.mem_map, List.mem_range, he, true_and]
      exact exists_congr (fun k => and_congr_right (fun _ => eq_comm))
    · simp [he]
  | lowRank r U V =>
    simp only
    split_ifs with he
    · simp only [List.mem_map, List.mem_range, he, true_and]
      exact exists_congr (fun k => and_congr_right (fun _ => eq_comm))
    · simp [he]

theorem mem_copyDiagUserWrites {pt : List ℕ} {A l : HNode R} (hd : l.data ≠ .hier) {w : Assign R} :
    w ∈ copyDiagUserWrites pt A l ↔
    l.toff = l.soff ∧ ∃ k < min l.tsz l.ssz, w = (pt.getD (k + l.toff) 0 - A.toff, fun _ => l.diagVal k) := by
  unfold copyDiagUserWrites
  cases h : l.data with
  | hier => exact absurd h hd
  | dense M =>
    simp only
    split_ifs with he
    · simp only [List.mem_map, List.mem_range, he, true_and]
      exact exists_congr (fun k => and_congr_right (fun _ => eq_comm))
    · simp [he]
  | lowRank r U V =>
    simp only
    split_ifs with he
    · simp only [List.mem_map, List.mem_range, he, true_and]
      exact exists_congr (fun k => and_congr_right (fun _ => eq_comm))
    · simp [he]

open Classical in
/-- **C24.** On a square H-matrix whose low-rank leaves on the diagonal are square, `copy_diagonal` writes exactly the diagonal entries
met by a leaf starting on the diagonal; when every diagonal entry is, this is the whole diagonal. -/
theorem C24_copy_diagonal {A : HTree R} {M : ℕ → ℕ → R} (h : A.Holds M) (hoff : A.label.toff = A.label.soff)
    (hdata : ∀ l ∈ A.leaves, l.label.data ≠ .hier)
    (hsq : ∀ l ∈ A.leaves, l.label.toff = l.label.soff → ∀ r U V, l.label.data = .lowRank r U V → l.label.tsz = l.label.ssz)
    (p : Buf R) (d : ℕ) :
    copyDiag A p d = if ∃ l ∈ A.leaves, l.label.OnDiag (A.label.toff + d) then M (A.label.toff + d) (A.label.toff + d) else p d := by
  have hp := getLeavesH_perm A
  set W := (getLeavesH A).1.flatMap (fun l => copyDiagWrites A.label l.label) with hW
  have hrun : copyDiag A p = runAssigns W p := rfl
  have key : ∀ w, w ∈ W ↔ ∃ l ∈ A.leaves, ∃ d, l.label.OnDiag (A.label.toff + d) ∧
      w = (d, fun _ => M (A.label.toff + d) (A.label.toff + d)) := by
    intro w
    simp only [hW, List.mem_flatMap]
    constructor
    · rintro ⟨l, hl, hw⟩
      have hl := hp.1.mem_iff.1 hl
      rw [mem_copyDiagWrites (hdata l hl)] at hw
      obtain ⟨he, k, hk, rfl⟩ := hw
      obtain ⟨h1, h2⟩ := h.inside l hl
      unfold Inside at h1 h2
      simp only at h1 h2
      have heq : l.label.toff = l.label.soff := by omega
      refine ⟨l, hl, k + (l.label.toff - A.label.toff), ⟨heq, by omega, by omega⟩, ?_⟩
      rw [diagVal_raw (hsq l hl heq) (hdata l hl) hk]
      have := h.raw l hl (l.label.toff + k) (l.label.soff + k) (by unfold HNode.Has InIv; simp only; omega)
      simp only [Nat.add_sub_cancel_left] at this
      rw [this]
      congr 1
      funext _
      congr 1 <;> omega
    · rintro ⟨l, hl, d, ⟨he, h3, h4⟩, rfl⟩
      obtain ⟨h1, h2⟩ := h.inside l hl
      unfold Inside at h1 h2
      simp only at h1 h2
      refine ⟨l, hp.1.mem_iff.2 hl, ?_⟩
      rw [mem_copyDiagWrites (hdata l hl)]
      refine ⟨by omega, A.label.toff + d - l.label.toff, by omega, ?_⟩
      rw [diagVal_raw (hsq l hl he) (hdata l hl) (by omega)]
      have := h.raw l hl (A.label.toff + d) (A.label.toff + d) (by unfold HNode.Has InIv; simp only; omega)
      rw [← this, ← he]
      congr 1
      omega
  have good := runAssigns_good W (fun _ => False) (fun d => M (A.label.toff + d) (A.label.toff + d)) p (by simp) (by
    intro w hw q _
    obtain ⟨l, -, d, -, rfl⟩ := (key w).1 hw
    rfl)
  rw [hrun]
  split_ifs with hex
  · obtain ⟨l, hl, ho⟩ := hex
    exact good.1 d (Or.inr (List.mem_map.2 ⟨_, (key _).2 ⟨l, hl, d, ho, rfl⟩, rfl⟩))
  · apply good.2
    intro hin
    obtain ⟨w, hw, e⟩ := List.mem_map.1 hin
    obtain ⟨l, hl, d', ho, rfl⟩ := (key w).1 hw
    simp only at e
    subst e
    exact hex ⟨l, hl, ho⟩

/-- **C24 (user numbering).** When every diagonal entry is met by a leaf starting on the diagonal, the diagonal entry of cluster index
`i` is written at the user index of `i`, and nothing is written outside the root block. -/
theorem C24_copy_diagonal_in_user_numbering {A : HTree R} {M : ℕ → ℕ → R} (h : A.Holds M) {pt : List ℕ}
    (hpt : LocalPerm pt A.label.toff A.label.tsz)
    (hdata : ∀ l ∈ A.leaves, l.label.data ≠ .hier)
    (hsq : ∀ l ∈ A.leaves, l.label.toff = l.label.soff → ∀ r U V, l.label.data = .lowRank r U V → l.label.tsz = l.label.ssz)
    (hcov : ∀ i < A.label.tsz, ∃ l ∈ A.leaves, l.label.OnDiag (A.label.toff + i)) (p : Buf R) :
    (∀ i < A.label.tsz, copyDiagUser pt A p (userIdx pt A.label.toff i) = M (A.label.toff + i) (A.label.toff + i)) ∧
    ∀ d, A.label.tsz ≤ d → copyDiagUser pt A p d = p d := by
  have hp := getLeavesH_perm A
  set W := (getLeavesH A).1.flatMap (fun l => copyDiagUserWrites pt A.label l.label) with hW
  have hrun : copyDiagUser pt A p = runAssigns W p := rfl
  have key : ∀ w, w ∈ W ↔ ∃ l ∈ A.leaves, ∃ i < A.label.tsz, l.label.OnDiag (A.label.toff + i) ∧
      w = (userIdx pt A.label.toff i, fun _ => M (A.label.toff + i) (A.label.toff + i)) := by
    intro w
    simp only [hW, List.mem_flatMap]
    constructor
    · rintro ⟨l, hl, hw⟩
      have hl := hp.1.mem_iff.1 hl
      rw [mem_copyDiagUserWrites (hdata l hl)] at hw
      obtain ⟨he, k, hk, rfl⟩ := hw
      obtain ⟨h1, h2⟩ := h.inside l hl
      unfold Inside at h1 h2
      simp only at h1 h2
      refine ⟨l, hl, k + l.label.toff - A.label.toff, by omega, ⟨he, by omega, by omega⟩, ?_⟩
      rw [diagVal_raw (hsq l hl he) (hdata l hl) hk]
      have := h.raw l hl (l.label.toff + k) (l.label.soff + k) (by unfold HNode.Has InIv; simp only; omega)
      simp only [Nat.add_sub_cancel_left] at this
      rw [this]
      congr 1
      · unfold userIdx
        congr 2; omega
      · funext _
        congr 1 <;> omega
    · rintro ⟨l, hl, i, hi, ⟨he, h3, h4⟩, rfl⟩
      obtain ⟨h1, h2⟩ := h.inside l hl
      unfold Inside at h1 h2
      simp only at h1 h2
      refine ⟨l, hp.1.mem_iff.2 hl, ?_⟩
      rw [mem_copyDiagUserWrites (hdata l hl)]
      refine ⟨he, A.label.toff + i - l.label.toff, by omega, ?_⟩
      rw [diagVal_raw (hsq l hl he) (hdata l hl) (by omega)]
      have := h.raw l hl (A.label.toff + i) (A.label.toff + i) (by unfold HNode.Has InIv; simp only; omega)
      rw [← this, ← he]
      congr 1
      unfold userIdx
      congr 2; omega
  obtain ⟨tv, htv⟩ : ∃ tv : ℕ → R, ∀ i < A.label.tsz, tv (userIdx pt A.label.toff i) = M (A.label.toff + i) (A.label.toff + i) := by
    classical
    refine ⟨fun d => if hd : ∃ i < A.label.tsz, d = userIdx pt A.label.toff i then
      M (A.label.toff + hd.choose) (A.label.toff + hd.choose) else 0, ?_⟩
    intro i hi
    have hex : ∃ i' < A.label.tsz, userIdx pt A.label.toff i = userIdx pt A.label.toff i' := ⟨i, hi, rfl⟩
    beta_reduce
    rw [dif_pos hex, ← userIdx_inj hpt hi hex.choose_spec.1 hex.choose_spec.2]
  have good := runAssigns_good W (fun _ => False) tv p (by simp) (by
    intro w hw q _
    obtain ⟨l, -, i, hi, -, rfl⟩ := (key w).1 hw
    exact (htv i hi).symm)
  rw [hrun]
  constructor
  · intro i hi
    obtain ⟨l, hl, ho⟩ := hcov i hi
    rw [good.1 _ (Or.inr (List.mem_map.2 ⟨_, (key _).2 ⟨l, hl, i, hi, ho, rfl⟩, rfl⟩)), htv i hi]
  · intro d hd
    apply good.2
    intro hin
    obtain ⟨w, hw, e⟩ := List.mem_map.1 hin
    obtain ⟨l, hl, i, hi, ho, rfl⟩ := (key w).1 hw
    obtain ⟨-, -, -, b⟩ := userIdx_eq hpt hi
    simp only at e
    omega

/-! ## Trees with the same leaves -/

omit [CommRing R] [StarRing R] in
theorem leavesLoopG_rel {α β : Type*} {r : α → β → Prop} {sy od : α → Bool} {sy' od' : β → Bool}
    (hr : ∀ a b, r a b → sy a = sy' b ∧ od a = od' b) (st : List (Tree α × Bool)) :
    ∀ (st' : List (Tree β × Bool)), List.Forall₂ (fun x y => Tree.Rel r x.1 y.1 ∧ x.2 = y.2) st st' →
    List.Forall₂ (Tree.Rel r) (leavesLoopG sy od st).1 (leavesLoopG sy' od' st').1 ∧
    List.Forall₂ (Tree.Rel r) (leavesLoopG sy od st).2 (leavesLoopG sy' od' st').2 := by
  induction h : Tree.countL (st.map Prod.fst) using Nat.strong_induction_on generalizing st with
  | _ n ih =>
    intro st' hst
    match st, st', hst with
    | [], [], _ => simp [leavesLoopG]
    | (.node a cs, fl) :: rest, (.node b ds, fl') :: rest', .cons hx hrest =>
      obtain ⟨hab, hfl⟩ := hx
      simp only at hab hfl
      subst hfl
      have hab' := Tree.Rel_node.1 hab
      obtain ⟨e1, e2⟩ := hr a b hab'.1
      rw [leavesLoopG, leavesLoopG, Tree.pushAll_eq, Tree.pushAll_eq]
      have hlt : Tree.countL ((((Tree.node a cs).children.map
          (fun c => (c, sy (Tree.node a cs).label || fl))).reverse ++ rest).map Prod.fst) < n := by
        subst h
        simp only [List.map_append, List.map_reverse, List.map_map, Tree.countL_append,
          Tree.countL_reverse, List.map_cons, Tree.countL_cons, Tree.children_node]
        have e : ((Prod.fst : Tree α × Bool → Tree α) ∘
          fun c => (c, sy (Tree.node a cs).label || fl)) = id := rfl
        rw [e, List.map_id, Tree.count_node]; omega
      have hF : List.Forall₂ (fun (x : Tree α × Bool) (y : Tree β × Bool) => Tree.Rel r x.1 y.1 ∧ x.2 = y.2)
          (((Tree.node a cs).children.map (fun c => (c, sy (Tree.node a cs).label || fl))).reverse ++ rest)
          (((Tree.node b ds).children.map (fun c => (c, sy' (Tree.node b ds).label || fl))).reverse ++ rest') := by
        refine List.rel_append (List.rel_reverse ?_) hrest
        simp only [Tree.children_node, Tree.label_node, List.forall₂_map_left_iff, List.forall₂_map_right_iff]
        exact hab'.2.imp (fun x y hxy => ⟨hxy, by rw [e1]⟩)
      obtain ⟨h1, h2⟩ := ih _ hlt _ rfl _ hF
      have hleaf : (Tree.node a cs).isLeaf = (Tree.node b ds).isLeaf := by
        have := hab'.2.length_eq
        simp only [Tree.isLeaf, Tree.children_node]
        cases cs <;> cases ds <;> simp_all
      simp only [Tree.label_node] at h1 h2 ⊢
      simp only [← hleaf]
      by_cases hl : (Tree.node a cs).isLeaf = true
      · simp only [hl, if_true]
        refine ⟨.cons hab h1, ?_⟩
        by_cases ho : (fl && od a) = true
        · have ho' : (fl && od' b) = true := by rw [← e2]; exact ho
          simp only [ho, ho', if_true]; exact .cons hab h2
        · have ho' : ¬ (fl && od' b) = true := by rw [← e2]; exact ho
          simp only [ho, ho']; exact h2
      · simp only [hl]
        exact ⟨h1, h2⟩

omit [CommRing R] [StarRing R] in
theorem getLeavesH_rel {S : Type*} {r : HNode R → HNode S → Prop}
    (hr : ∀ a b, r a b → a.isSym = b.isSym ∧ a.offDiag = b.offDiag) {A : HTree R} {B : HTree S} (h : Tree.Rel r A B) :
    List.Forall₂ (Tree.Rel r) (getLeavesH A).1 (getLeavesH B).1 ∧ List.Forall₂ (Tree.Rel r) (getLeavesH A).2 (getLeavesH B).2 := by
  apply leavesLoopG_rel hr
  exact .cons ⟨h, (hr _ _ h.label).1⟩ .nil

theorem forall₂_foldl {α β γ : Type*} {p : α → β → Prop} {f : γ → α → γ} {g : γ → β → γ} {L : List α} {M : List β}
    (h : List.Forall₂ p L M) (hfg : ∀ a ∈ L, ∀ b, p a b → ∀ x, f x a = g x b) (x : γ) : L.foldl f x = M.foldl g x := by
  induction h generalizing x with
  | nil => rfl
  | cons h1 h2 ih =>
    rw [List.foldl_cons, List.foldl_cons, hfg _ (by simp) _ h1]
    exact ih (fun a ha b hab y => hfg a (by simp [ha]) b hab y) _

theorem forall₂_map_eq {α β γ : Type*} {p : α → β → Prop} {f : α → γ} {g : β → γ} {L : List α} {M : List β}
    (h : List.Forall₂ p L M) (hfg : ∀ a b, p a b → f a = g b) : L.map f = M.map g := by
  induction h with
  | nil => rfl
  | cons h1 h2 ih => rw [List.map_cons, List.map_cons, hfg _ _ h1, ih]

/-! ## C25: scaling -/

/-- **C25.** `scale` multiplies the represented operator by the scalar, except that for hermitian storage the scalar must be real. -/
theorem C25_scale_multiplies_operator_partial (da : R) (A : HTree R)
    (hda : star da = da ∨ ((A.label.symL = .N ∨ A.label.symL = .S) ∧ ∀ l ∈ A.leaves, l.label.sym ≠ .H)) (i j : ℕ) :
    (hscale da A).entry i j = da * A.entry i j := by
  have hrel : Tree.Rel (fun a b => b = HNode.scaled da a) A (hscale da A) := Tree.Rel_map _ A
  have hr : ∀ a b : HNode R, b = HNode.scaled da a → a.isSym = b.isSym ∧ a.offDiag = b.offDiag := by
    rintro a b rfl; exact ⟨rfl, rfl⟩
  obtain ⟨h1, h2⟩ := getLeavesH_rel hr hrel
  have hp := getLeavesH_perm A
  have hsym : (hscale da A).label.symL = A.label.symL := by
    have := hrel.label; rw [this]; rfl
  have own : ∀ l ∈ A.leaves, ∀ i j, (HNode.scaled da l.label).own i j = da * l.label.own i j := by
    intro l hl i j
    unfold HNode.own
    have hH : (HNode.scaled da l.label).Has i j ↔ l.label.Has i j := Iff.rfl
    by_cases hh : l.label.Has i j
    · rw [if_pos hh, if_pos (hH.2 hh)]
      have : ∀ a b, (HNode.scaled da l.label).val a b = da * l.label.val a b := by
        intro a b
        unfold HNode.val HNode.scaled
        cases hd : l.label.data with
        | hier => simp
        | dense M =>
          simp only
          cases hs : l.label.sym with
          | N => rfl
          | nul => rfl
          | S => simp only [symE]; cases l.label.uplo <;> simp only <;> split_ifs <;> rfl
          | H =>
            have hst : star da = da := hda.resolve_right (fun hx => hx.2 l hl hs)
            simp only [herE]
            cases l.label.uplo <;> simp only <;> split_ifs <;> simp [hst]
        | lowRank r U V =>
          simp only
          split_ifs <;> simp only <;> rw [Finset.mul_sum] <;> apply Finset.sum_congr rfl <;> intro k _ <;> ring
      exact this _ _
    · rw [if_neg hh, if_neg (fun hx => hh (hH.1 hx)), mul_zero]
  unfold HTree.entry
  have e1 : (getLeavesH (hscale da A)).1.map (fun l => l.label.own i j) = (getLeavesH A).1.map (fun l => da * l.label.own i j) := by
    symm
    have hmem : ∀ l ∈ (getLeavesH A).1, l ∈ A.leaves := fun l hl => hp.1.mem_iff.1 hl
    generalize (getLeavesH (hscale da A)).1 = X at h1
    generalize (getLeavesH A).1 = Y at h1 hmem
    induction h1 with
    | nil => rfl
    | cons x1 x2 ih =>
      rw [List.map_cons, List.map_cons, ih (fun l hl => hmem l (by simp [hl]))]
      congr 1
      have := x1.label
      rw [this, own _ (hmem _ (by simp))]
  have e2 : A.label.symL ≠ .N → (getLeavesH (hscale da A)).2.map (fun l => l.label.mirror A.label.symL i j) =
      (getLeavesH A).2.map (fun l => da * l.label.mirror A.label.symL i j) := by
    intro hN
    symm
    have hmem : ∀ l ∈ (getLeavesH A).2, l ∈ A.leaves := fun l hl => symLeavesG_sub _ _ (hp.2.mem_iff.1 hl)
    generalize (getLeavesH (hscale da A)).2 = X at h2
    generalize (getLeavesH A).2 = Y at h2 hmem
    induction h2 with
    | nil => rfl
    | cons x1 x2 ih =>
      rw [List.map_cons, List.map_cons, ih (fun l hl => hmem l (by simp [hl]))]
      congr 1
      have := x1.label
      rw [this]
      unfold HNode.mirror
      rw [own _ (hmem _ (by simp))]
      split_ifs with hS
      · rfl
      · have hst : star da = da := hda.resolve_right (fun hx => by rcases hx.1 with h | h <;> contradiction)
        rw [star_mul', hst]
  rw [hsym, e1, List.sum_map_mul_left]
  split_ifs with hN
  · rw [e2 hN, List.sum_map_mul_left]; ring
  · ring

/-- **C25, disagreement.** For a hermitian H-matrix a non-real scalar does not scale the operator: here the mirrored entry `(0,2)`. -/
theorem C25_hermitian_complex_scalar_wrong :
    (hscale (⟨0, 1⟩ : GaussianInt) exHerm).entry 0 2 ≠ ⟨0, 1⟩ * exHerm.entry 0 2 := by decide +kernel

/-- A parallel loop over distinct objects: the cells of `L` are processed in some order, each by `f`. -/
def ParFor {κ σ : Type*} [DecidableEq κ] (f : σ → σ) (L : List κ) (m m' : κ → σ) : Prop :=
  ∃ L' : List κ, L'.Perm L ∧ m' = L'.foldl (fun m k => Function.update m k (f (m k))) m

omit [CommRing R] [StarRing R] in
theorem ParFor.eq {κ σ : Type*} [DecidableEq κ] {f : σ → σ} {L : List κ} (hL : L.Nodup) {m m' : κ → σ} (h : ParFor f L m m') (k : κ) :
    m' k = if k ∈ L then f (m k) else m k := by
  obtain ⟨L', hp, rfl⟩ := h
  have hn : L'.Nodup := hp.nodup_iff.2 hL
  have : ∀ (L' : List κ), L'.Nodup → ∀ m : κ → σ,
      L'.foldl (fun m k => Function.update m k (f (m k))) m k = if k ∈ L' then f (m k) else m k := by
    intro L'
    induction L' with
    | nil => simp
    | cons a L' ih =>
      intro hn m
      rw [List.foldl_cons, ih (List.nodup_cons.1 hn).2]
      by_cases hk : k = a
      · subst hk
        rw [if_neg (List.nodup_cons.1 hn).1]; simp
      · rw [Function.update_of_ne hk]; simp [hk]
  rw [this L' hn]
  simp only [hp.mem_iff]

/-- `openmp_scale` (scale.hpp 12-36): the H-matrix is a tree `T` of addresses into the memory `m`; the loop visits the blocks with data,
in whatever order the threads take them. -/
def OmpScale (da : R) (T : Tree ℕ) (m m' : ℕ → HNode R) : Prop :=
  ParFor (HNode.scaled da) ((T.pre.map Tree.label).filter (fun a => match (m a).data with | .hier => false | _ => true)) m m'

omit [CommRing R] [StarRing R] in
theorem Tree.map_congr {α β : Type*} {f g : α → β} {t : Tree α} (h : ∀ s ∈ t.pre, f s.label = g s.label) : t.map f = t.map g := by
  induction t using Tree.ind with
  | h a cs ih =>
    rw [Tree.map_node, Tree.map_node]
    have h1 := h (.node a cs) (Tree.mem_pre_self _)
    simp only [Tree.label_node] at h1
    rw [h1]
    congr 1
    apply List.map_congr_left
    intro c hc
    exact ih c hc (fun s hs => h s (Tree.mem_pre_trans (child_mem_pre (by simpa using hc)) hs))

omit [CommRing R] [StarRing R] in
theorem Tree.map_map {α β γ : Type*} (f : α → β) (g : β → γ) (t : Tree α) : (t.map f).map g = t.map (g ∘ f) := by
  induction t using Tree.ind with
  | h a cs ih =>
    rw [Tree.map_node, Tree.map_node, Tree.map_node, List.map_map]
    congr 1
    exact List.map_congr_left (fun c hc => ih c hc)

omit [StarRing R] in
/-- **C25.** Whatever the schedule, the parallel version scales every block exactly once, and touches no other block in memory. -/
theorem C25_parallel_scale {da : R} {T : Tree ℕ} (hT : (T.pre.map Tree.label).Nodup) {m m' : ℕ → HNode R} (h : OmpScale da T m m') :
    T.map m' = hscale da (T.map m) ∧ ∀ a, a ∉ T.pre.map Tree.label → m' a = m a := by
  have e := ParFor.eq (hT.filter _) h
  constructor
  · unfold hscale
    rw [Tree.map_map]
    apply Tree.map_congr
    intro s hs
    rw [e]
    simp only [Function.comp]
    split_ifs with hm
    · rfl
    · simp only [List.mem_filter, not_and] at hm
      have := hm (List.mem_map.2 ⟨s, hs, rfl⟩)
      cases hd : (m s.label).data with
      | hier =>
        unfold HNode.scaled
        simp only [hd]
        rw [← hd]
      | dense M => rw [hd] at this; simp at this
      | lowRank r U V => rw [hd] at this; simp at this
  · intro a ha
    rw [e, if_neg]
    simp only [List.mem_filter, not_and]
    exact fun hx => absurd hx ha

/-! ## C26: copies -/

omit [CommRing R] [StarRing R] in
theorem hcopy_rel (A : HTree R) : Tree.Rel (fun a b => b.copied = a.copied) A (hcopy A) :=
  (Tree.Rel_map HNode.copied A).mono (by rintro a b rfl; rfl)

omit [CommRing R] [StarRing R] in
theorem hassign_rel (A : HTree R) : Tree.Rel (fun a b => b.copied = a.copied) A (hassign A) := by
  cases A with
  | node a cs =>
    unfold hassign
    rw [Tree.Rel_node]
    refine ⟨rfl, ?_⟩
    simp only [Tree.children_node, List.forall₂_map_right_iff, List.forall₂_same]
    exact fun c _ => hcopy_rel c

omit [CommRing R] [StarRing R] in
theorem copied_fields {a b : HNode R} (h : b.copied = a.copied) : b.toff = a.toff ∧ b.tsz = a.tsz ∧ b.soff = a.soff ∧ b.ssz = a.ssz ∧
    b.sym = a.sym ∧ b.uplo = a.uplo ∧ b.data = a.data := by
  unfold HNode.copied at h
  simp only [HNode.mk.injEq] at h
  tauto

theorem leafVec_congr {a b : HNode R} (h : b.copied = a.copied) (cplx : Bool) (tr : Trans) (α : R) (x : Buf R) (β : R) (y : Buf R) :
    leafVec cplx tr α b x β y = leafVec cplx tr α a x β y := by
  obtain ⟨h1, h2, h3, h4, h5, h6, h7⟩ := copied_fields h
  unfold leafVec
  rw [h2, h4, h5, h6, h7]

theorem opE_real (hreal : RealType R) (M : ℕ → ℕ → R) (i j : ℕ) : opE .C M i j = opE .T M i j := hreal _

theorem gemv_real (hreal : RealType R) (nr nc : ℕ) (α : R) (M : ℕ → ℕ → R) (x : Buf R) (β : R) (y : Buf R) :
    gemv .C nr nc α M x β y = gemv .T nr nc α M x β y := by
  unfold gemv
  simp only [opE_real hreal]
  rfl

theorem leafVec_real (hreal : RealType R) (cplx : Bool) (α : R) (n : HNode R) (x : Buf R) (β : R) (y : Buf R) :
    leafVec cplx .C α n x β y = leafVec cplx .T α n x β y := by
  unfold leafVec lrmatVec
  simp only [gemv_real hreal]
  rfl

variable [DecidableEq R]

theorem copy_product_aux {cplx : Bool} {tr : Trans} {α β : R} {A B : HTree R} {x y : Buf R}
    (hrel : Tree.Rel (fun a b => b.copied = a.copied) A B)
    (htest : (getLeavesH A).2 ≠ [] → (A.label.symL = .N ↔ B.label.symL = .N))
    (htr : (getLeavesH A).2 ≠ [] → A.label.symL ≠ .N → ∀ n : HNode R, ∀ x y : Buf R, leafVec cplx (B.label.transSym tr) α n x 1 y =
      leafVec cplx (A.label.transSym tr) α n x 1 y) :
    seqVec cplx tr α B x β y = seqVec cplx tr α A x β y := by
  have hr : ∀ a b : HNode R, b.copied = a.copied → a.isSym = b.isSym ∧ a.offDiag = b.offDiag := by
    intro a b h
    obtain ⟨h1, h2, h3, h4, h5, h6, h7⟩ := copied_fields h
    unfold HNode.isSym HNode.offDiag
    rw [h5, h1, h3]; exact ⟨rfl, rfl⟩
  obtain ⟨k1, k2⟩ := getLeavesH_rel hr hrel
  obtain ⟨a1, a2, a3, a4, a5, a6, a7⟩ := copied_fields hrel.label
  have es : B.label.outSize tr = A.label.outSize tr := by unfold HNode.outSize; rw [a2, a4]
  have eo : B.label.outOff tr = A.label.outOff tr := by unfold HNode.outOff; rw [a1, a3]
  have ei : B.label.inOff tr = A.label.inOff tr := by unfold HNode.inOff; rw [a1, a3]
  have f1 : ∀ z, (getLeavesH A).1.foldl (fun o l => leafStep cplx tr A.label x α l.label o) z =
      (getLeavesH B).1.foldl (fun o l => leafStep cplx tr B.label x α l.label o) z := by
    intro z
    apply forall₂_foldl k1
    intro a _ b hab o
    obtain ⟨c1, c2, c3, c4, c5, c6, c7⟩ := copied_fields hab.label
    unfold leafStep
    rw [eo, ei, show b.label.outOff tr = a.label.outOff tr by unfold HNode.outOff; rw [c1, c3],
      show b.label.inOff tr = a.label.inOff tr by unfold HNode.inOff; rw [c1, c3]]
    unfold Buf.at'
    simp only [leafVec_congr hab.label]
  unfold seqVec
  simp only
  rw [es, ← f1]
  by_cases hnil : (getLeavesH A).2 = []
  · have hnil' : (getLeavesH B).2 = [] := by
      have := k2.length_eq; rw [hnil] at this
      exact List.length_eq_zero_iff.1 this.symm
    rw [hnil, hnil']; simp
  · by_cases hN : A.label.symL = .N
    · rw [if_neg (by simpa using (htest hnil).1 hN), if_neg (by simpa using hN)]
    · rw [if_pos (fun h => hN ((htest hnil).2 h)), if_pos hN]
      symm
      apply forall₂_foldl k2
      intro a _ b hab o
      obtain ⟨c1, c2, c3, c4, c5, c6, c7⟩ := copied_fields hab.label
      unfold mirrorStep
      rw [eo, ei, show b.label.outOff tr = a.label.outOff tr by unfold HNode.outOff; rw [c1, c3],
        show b.label.inOff tr = a.label.inOff tr by unfold HNode.inOff; rw [c1, c3]]
      unfold Buf.at'
      simp only [leafVec_congr hab.label, htr hnil hN]

/-- **C26 (partial).** A deep copy made by the copy constructor multiplies like the original, for real coefficients and for complex
ones without symmetry or with hermitian symmetry. Missing: complex symmetric matrices, where it is false
(`C26_copy_of_complex_symmetric_wrong`). -/
theorem C26_copy_partial {cplx : Bool} {tr : Trans} {α β : R} {A : HTree R} {x y : Buf R}
    (hflag : (getLeavesH A).2 ≠ [] → A.label.symL ≠ .N) (hS : A.label.symL ≠ .S ∨ RealType R) :
    seqVec cplx tr α (hcopy A) x β y = seqVec cplx tr α A x β y := by
  have hl : (hcopy A).label.symL = .nul := by cases A with | node a cs => unfold hcopy; rw [Tree.map_node]; rfl
  apply copy_product_aux (hcopy_rel A)
  · intro h
    rw [hl]
    exact ⟨fun h' => absurd h' (hflag h), fun h' => by simp at h'⟩
  · intro _ hN n x y
    unfold HNode.transSym
    rw [hl]
    cases tr with
    | N =>
      simp only [if_true]
      rw [if_neg (show HSym.nul ≠ HSym.S by decide)]
      rcases hS with hS | hS
      · rw [if_neg hS]
      · split_ifs
        · exact leafVec_real hS _ _ _ _ _ _
        · rfl
    | T => rfl
    | C => rfl

/-- **C26.** Copy assignment keeps the symmetry of the root: the assigned matrix multiplies like the original. -/
theorem C26_assignment {cplx : Bool} {tr : Trans} {α β : R} {A : HTree R} {x y : Buf R} :
    seqVec cplx tr α (hassign A) x β y = seqVec cplx tr α A x β y := by
  apply copy_product_aux (hassign_rel A)
  · intro _; exact Iff.rfl
  · intro _ _ n x y; rfl

/-- A 2 × 2 complex symmetric H-matrix with a leaf below the diagonal. -/
def exSym2 : HTree GaussianInt :=
  .node ⟨0, 2, 0, 2, .S, .L, .S, .L, .hier⟩
    [exLeaf (0, 1) (0, 1) .S .L (fun _ _ => 1), .node ⟨1, 1, 0, 1, .N, .N, .N, .N, .dense (fun _ _ => ⟨0, 1⟩)⟩ [],
     exLeaf (1, 1) (1, 1) .S .L (fun _ _ => 1)]

/-- **C26, disagreement.** A copy of a complex symmetric H-matrix multiplies by the hermitian matrix with the same lower triangle. -/
theorem C26_copy_of_complex_symmetric_wrong :
    seqVec true .N (1 : GaussianInt) (hcopy exSym2) (fun _ => 1) 0 (fun _ => 0) 0 ≠
      seqVec true .N (1 : GaussianInt) exSym2 (fun _ => 1) 0 (fun _ => 0) 0 := by decide +kernel

/-- The hypotheses of `C26_copy_partial` are met by `exHerm`. -/
example : ((getLeavesH exHerm).2 ≠ [] → exHerm.label.symL ≠ .N) ∧ (exHerm.label.symL ≠ .S ∨ RealType GaussianInt) :=
  ⟨fun _ => by decide, Or.inl (by decide)⟩

/-! ## C27: sub-block lookup -/

omit [CommRing R] [StarRing R] [DecidableEq R] in
/-- **C27.** `get_sub_hmatrix` returns a node of the tree with the required clusters if there is one, and nothing otherwise. -/
theorem C27_get_sub_hmatrix {α : Type*} (p : α → Bool) (b : Tree α) :
    (∀ c, getSub p b = some c → c ∈ b.pre ∧ p c.label = true) ∧
    (getSub p b = none ↔ ∀ c ∈ b.pre, p c.label = false) := by
  obtain ⟨h1, h2⟩ := bfsLoop_spec p [b]
  refine ⟨?_, ?_, ?_⟩
  · intro c hc
    obtain ⟨e, d, hd, hcd⟩ := h1 c hc
    simp only [List.mem_singleton] at hd
    exact ⟨hd ▸ hcd, e⟩
  · intro hn c hc
    exact h2 hn b (by simp) c hc
  · intro hall
    cases hg : getSub p b with
    | none => rfl
    | some c =>
      obtain ⟨e, d, hd, hcd⟩ := h1 c hg
      simp only [List.mem_singleton] at hd
      rw [hall c (hd ▸ hcd)] at e
      simp at e

omit [CommRing R] [StarRing R] [DecidableEq R] in
/-- **C27.** `get_child_or_this` does the same among the node and its children. -/
theorem C27_get_child_or_this {α : Type*} (p : α → Bool) (b : Tree α) :
    (∀ c, getChildOrThis p b = some c → (c = b ∨ c ∈ b.children) ∧ p c.label = true) ∧
    (getChildOrThis p b = none ↔ p b.label = false ∧ ∀ c ∈ b.children, p c.label = false) := by
  unfold getChildOrThis
  by_cases hp : p b.label = true
  · simp only [hp, if_true]
    refine ⟨?_, by simp⟩
    intro c hc
    cases hc
    exact ⟨Or.inl rfl, hp⟩
  · rw [if_neg hp]
    refine ⟨?_, ?_⟩
    · intro c hc
      exact ⟨Or.inr (List.mem_of_find?_eq_some hc), by simpa using List.find?_some hc⟩
    · rw [List.find?_eq_none]
      simp only [Bool.not_eq_true] at hp ⊢
      exact ⟨fun h => ⟨hp, h⟩, fun h => h.2⟩

/-! ## Concrete cases -/

/-- The matrix held by `exHerm`: stored entries, and the mirror image of the low-rank leaf. -/
def exHermM (i j : ℕ) : GaussianInt :=
  if i < 2 ∧ j < 2 then (if i = j then 3 else ⟨1, 1⟩)
  else if 2 ≤ i ∧ j < 2 then ⟨(i - 2 : ℕ), 1⟩ * ⟨1, j⟩
  else if i < 2 then star (⟨(j - 2 : ℕ), 1⟩ * ⟨1, i⟩)
  else (if i = j then 5 else ⟨0, 2⟩)

theorem exHerm_holds : exHerm.Holds exHermM where
  inside := exHerm_fit.inside
  raw := by
    intro l hl i j hh
    simp only [exHerm, exLeaf, Tree.leaves, Tree.leavesL, List.mem_append, List.mem_singleton, List.append_nil] at hl
    unfold HNode.Has InIv at hh
    rcases hl with rfl | rfl | rfl <;> simp only [Tree.label_node] at hh ⊢ <;> obtain ⟨⟨h1, h2⟩, h3, h4⟩ := hh <;>
      interval_cases i <;> interval_cases j <;> decide +kernel

/-- The hypotheses of the user-numbering conversion are met by `exHerm` with a non-trivial permutation. -/
example (p : Buf GaussianInt) :
    copyToDenseUser [2, 0, 3, 1] [2, 0, 3, 1] exHerm p (userIdx [2, 0, 3, 1] 0 1 + userIdx [2, 0, 3, 1] 0 3 * 4) = exHermM 1 3 := by
  have hmem : ∀ l, l ∈ (getLeavesH exHerm).2 → l = .node ⟨2, 2, 0, 2, .N, .N, .N, .N, .lowRank 1 (fun i _ => ⟨i, 1⟩) (fun _ j => ⟨1, j⟩)⟩ [] := by
    intro l hl
    have hl := (getLeavesH_perm exHerm).2.mem_iff.1 hl
    simp [exHerm, exLeaf, symLeavesG, symLeavesGL, HNode.isSym, HNode.offDiag] at hl
    exact hl
  refine (C23_copy_to_dense_in_user_numbering exHerm_holds ?_ ?_ ?_ ?_ ?_ ?_ p).1 1 (by decide) 3 (by decide)
  · unfold LocalPerm; decide
  · unfold LocalPerm; decide
  · intro _; exact ⟨rfl, by decide⟩
  · intro l hl; exact (exHerm_fit.mirror l hl).2
  · intro l hl i j hh
    rw [hmem l hl] at hh
    unfold HNode.Has InIv at hh
    simp only [Tree.label_node] at hh
    obtain ⟨⟨h1, h2⟩, h3, h4⟩ := hh
    interval_cases i <;> interval_cases j <;> decide +kernel
  · intro i j hh
    unfold HNode.Has InIv at hh
    have h0 : i < 4 ∧ j < 4 := by
      have := hh; simp only [exHerm, Tree.label_node] at this; omega
    obtain ⟨hi, hj⟩ := h0
    have : ∀ i < 4, ∀ j < 4, (∃ l ∈ (getLeavesH exHerm).1, l.label.Has i j) ∨ ∃ l ∈ (getLeavesH exHerm).2, l.label.Has j i := by
      decide +kernel
    exact this i hi j hj

/-- Diagonal of `exHerm`, directly and through C24. -/
example : (List.range 5).map (copyDiag exHerm (fun _ => 7)) = [3, 3, 5, 5, 7] := by decide +kernel

end Htool
