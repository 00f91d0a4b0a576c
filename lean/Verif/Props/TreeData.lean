import Verif.TreeData

/-! # C75: tree-wide parameters of H-matrices -/

namespace Htool.TreeData
variable {N D : Type*}

/-- States reached from nothing by any history. -/
def Reached (s : St N D) : Prop := ∃ d0 os, run (init d0) os = .ok s

theorem Reached.r {s : St N D} (h : Reached s) : ∃ a, R s a := by
  obtain ⟨d0, os, h⟩ := h
  have hr := run_refines (R_init (N := N) d0) os
  rw [h] at hr
  cases h2 : specRun (fun _ => none) os with
  | ok a => rw [h2] at hr; exact ⟨a, hr⟩
  | bad => rw [h2] at hr; exact hr.elim
  | ub => rw [h2] at hr; exact hr.elim

/-- C75: for every history of constructions, copies, assignments and setters, what every block of every H-matrix sees, and whether the history is defined, are given
by the specification `specStep` on values. -/
theorem C75_refines (d0 : D) (os : List (Op N D)) :
    (∀ s, run (init d0) os = .ok s → ∃ a, specRun (fun _ => none) os = .ok a ∧
      (∀ i, (s.var i).map (Tree.map Prod.fst) = (a i).map HV.shape) ∧ ∀ i k, read s i k = (a i).bind fun h => h.vals[k]?) ∧
    (run (N := N) (init d0) os = .ub ↔ specRun (N := N) (D := D) (fun _ => none) os = .ub) := by
  have hr := run_refines (R_init (N := N) d0) os
  constructor
  · intro s h
    rw [h] at hr
    cases h2 : specRun (N := N) (D := D) (fun _ => none) os with
    | ok a =>
      rw [h2] at hr
      refine ⟨a, rfl, fun i => ?_, fun i k => R.read hr i k⟩
      cases hs : s.var i with
      | none => rw [(R.none' hr i).1 hs]; rfl
      | some T =>
        obtain ⟨b, hb, hv⟩ := R.has hr hs
        rw [hb, Option.map_some, Option.map_some, hv.shape]
    | bad => rw [h2] at hr; exact hr.elim
    | ub => rw [h2] at hr; exact hr.elim
  · cases h1 : run (N := N) (init d0) os with
    | ok s =>
      cases h2 : specRun (N := N) (D := D) (fun _ => none) os with
      | ok a => simp
      | bad => simp
      | ub => rw [h1, h2] at hr; exact hr.elim
    | bad =>
      cases h2 : specRun (N := N) (D := D) (fun _ => none) os with
      | ok a => simp
      | bad => simp
      | ub => rw [h1, h2] at hr; exact hr.elim
    | ub =>
      cases h2 : specRun (N := N) (D := D) (fun _ => none) os with
      | ok a => rw [h1, h2] at hr; exact hr.elim
      | bad => rw [h1, h2] at hr; exact hr.elim
      | ub => simp

/-- The variable an operation changes. -/
def Op.target : Op N D → ℕ
  | .build i _ _ => i
  | .copy dst _ _ => dst
  | .assign dst _ _ => dst
  | .set i _ _ => i

/-- C75: what is done with an H-matrix is never seen by another one, be it the origin of a copy or a copy of it. -/
theorem C75_independent {s s' : St N D} (hs : Reached s) {o : Op N D} (h : step s o = .ok s') {i : ℕ} (hi : o.target ≠ i) (k : ℕ) : read s' i k = read s i k := by
  obtain ⟨a, r⟩ := hs.r
  have hr := step_refines r o
  rw [h] at hr
  have key : ∀ a', specStep a o = .ok a' → a' i = a i := by
    intro a' h2
    cases o with
    | build j T d =>
      simp only [specStep, Out.ok.injEq] at h2
      rw [← h2]; exact Function.update_of_ne (Ne.symm hi) _ _
    | copy dst src k =>
      simp only [specStep] at h2
      split at h2
      · cases h2
      · simp only [Out.ok.injEq] at h2
        rw [← h2]; exact Function.update_of_ne (Ne.symm hi) _ _
    | assign dst src k =>
      simp only [specStep] at h2
      split at h2
      · split at h2
        · split at h2
          · simp only [Out.ok.injEq] at h2; rw [← h2]
          · cases h2
        · simp only [Out.ok.injEq] at h2
          rw [← h2]; exact Function.update_of_ne (Ne.symm hi) _ _
      · cases h2
    | set j k f =>
      simp only [specStep] at h2
      split at h2
      · cases h2
      · split at h2
        · simp only [Out.ok.injEq] at h2
          rw [← h2]; exact Function.update_of_ne (Ne.symm hi) _ _
        · cases h2
  cases h2 : specStep a o with
  | ok a' =>
    rw [h2] at hr
    rw [R.read hr, R.read r, key a' h2]
  | bad => rw [h2] at hr; exact hr.elim
  | ub => rw [h2] at hr; exact hr.elim

/-- C75: a setter called on any block of a built H-matrix is seen by all its blocks: after any calls, every block sees their composition. -/
theorem C75_setters {s : St N D} (hs : Reached s) (i : ℕ) (T : Tree N) (d : D) (fs : List (ℕ × (D → D))) (hk : ∀ p ∈ fs, p.1 < T.pre.length) :
    ∃ s', run s (.build i T d :: fs.map fun p => .set i p.1 p.2) = .ok s' ∧
      ∀ k < T.pre.length, read s' i k = some (fs.foldl (fun x p => p.2 x) d) := by
  obtain ⟨a, r⟩ := hs.r
  have key : ∀ (fs : List (ℕ × (D → D))) (s1 : St N D) (a1 : ℕ → Option (HV N D)) (x : D), R s1 a1 → (∀ p ∈ fs, p.1 < T.pre.length) →
      a1 i = some ⟨T, T.pre.map fun _ => x, true⟩ → ∃ s', run s1 (fs.map fun p => .set i p.1 p.2) = .ok s' ∧ ∃ a', R s' a' ∧
        a' i = some ⟨T, T.pre.map fun _ => fs.foldl (fun x p => p.2 x) x, true⟩ := by
    intro fs
    induction fs with
    | nil => intro s1 a1 x r1 _ h1; exact ⟨s1, rfl, a1, r1, h1⟩
    | cons p fs ih =>
      intro s1 a1 x r1 hp h1
      have hr := step_refines r1 (.set i p.1 p.2)
      have h2 : specStep a1 (.set i p.1 p.2) = .ok (Function.update a1 i (some ⟨T, T.pre.map fun _ => p.2 x, true⟩)) := by
        simp only [specStep, h1]
        rw [if_pos (hp p (List.mem_cons_self ..)), if_pos trivial, List.map_map]
        rfl
      rw [h2] at hr
      cases h3 : step s1 (.set i p.1 p.2) with
      | ok s2 =>
        rw [h3] at hr
        obtain ⟨s', e1, a', r', e2⟩ := ih s2 _ (p.2 x) hr (fun q hq => hp q (List.mem_cons_of_mem _ hq)) (Function.update_self ..)
        refine ⟨s', ?_, a', r', e2⟩
        rw [List.map_cons, run, h3]
        exact e1
      | bad => rw [h3] at hr; exact hr.elim
      | ub => rw [h3] at hr; exact hr.elim
  obtain ⟨s', e1, a', r', e2⟩ := key fs _ _ d (r.build i T d) hk (Function.update_self ..)
  refine ⟨s', e1, fun k hk => ?_⟩
  rw [R.read r', e2, Option.bind_some]
  simp only [List.getElem?_map, List.getElem?_eq_getElem hk, Option.map_some]

/-- C75: right after a copy (construction from, or assignment of, any block), the blocks of the copy see what the blocks of the origin see. -/
theorem C75_copy {s : St N D} (hs : Reached s) {src k : ℕ} {T : Tree (N × ℕ)} {c : Tree (N × ℕ)} (hv : s.var src = some T) (hk : T.pre[k]? = some c) (dst : ℕ)
    (o : Op N D) (ho : o = .copy dst src k ∨ (o = .assign dst src k ∧ dst ≠ src ∧ (s.var dst).isSome)) :
    ∃ s', step s o = .ok s' ∧ ∀ j < c.pre.length, read s' dst j = read s src (k + j) := by
  obtain ⟨a, r⟩ := hs.r
  have hst : step s o = .ok ⟨Function.update s.var dst (some (copyT c s.val s.next).1), (copyT c s.val s.next).2.1, (copyT c s.val s.next).2.2⟩ := by
    rcases ho with rfl | ⟨rfl, hne, hd⟩
    · simp only [step, hv, hk, Option.bind_some]
    · obtain ⟨T0, hT0⟩ := Option.isSome_iff_exists.1 hd
      simp only [step, hv, hk, hT0, Option.bind_some]
      rw [if_neg hne]
  refine ⟨_, hst, fun j hj => ?_⟩
  rw [R.read (r.copy dst hv hk), Function.update_self, Option.bind_some, read, hv, Option.bind_some]
  obtain ⟨q, hq⟩ := pre_prefix T k c hk
  have e : T.pre[k + j]? = c.pre[j]? := by
    rw [← List.getElem?_drop, ← hq, List.getElem?_append_left hj]
  rw [e]
  unfold ids
  rw [List.map_map, List.getElem?_map]
  rfl

/-- The number of blocks of the H-matrix in a variable. -/
def blocks (s : St N D) (i : ℕ) : ℕ := ((s.var i).map fun T => T.pre.length).getD 0

/-- C75, what the code does with copies: a setter called on a block of a copied H-matrix is seen by this block only. -/
theorem C75_copy_setter_partial {s s1 : St N D} (hs : Reached s) {dst src k : ℕ} (h1 : step s (.copy dst src k) = .ok s1) {p : ℕ} (hp : p < blocks s1 dst)
    (f : D → D) : ∃ s2, step s1 (.set dst p f) = .ok s2 ∧ (∀ j, read s2 dst j = if j = p then (read s1 dst p).map f else read s1 dst j) := by
  obtain ⟨a, r⟩ := hs.r
  simp only [step] at h1
  split at h1
  · cases h1
  · rename_i c hc
    simp only [Out.ok.injEq] at h1
    obtain ⟨T, hv, hk⟩ := Option.bind_eq_some_iff.1 hc
    have r1 := r.copy dst hv hk
    rw [h1] at r1
    have hr := step_refines r1 (.set dst p f)
    have hb : blocks s1 dst = c.pre.length := by
      rw [← h1]
      unfold blocks
      simp only [Function.update_self, Option.map_some, Option.getD_some]
      have := (copy_spec c s.val s.next fun d hd => r.lt _ _ hv d (ids_sub hk d hd)).2.1
      have e := congrArg List.length this
      rw [List.length_range'] at e
      unfold ids at e
      simpa using e
    rw [hb] at hp
    have h2 : specStep (Function.update a dst (some ⟨c.map Prod.fst, (ids c).map s.val, false⟩)) (.set dst p f) =
        .ok (Function.update a dst (some ⟨c.map Prod.fst, ((ids c).map s.val).modify p f, false⟩)) := by
      simp only [specStep, Function.update_self]
      rw [if_pos (by rw [pre_map, List.length_map]; exact hp), if_neg (by simp), Function.update_idem]
    rw [h2] at hr
    cases h3 : step s1 (.set dst p f) with
    | ok s2 =>
      rw [h3] at hr
      refine ⟨s2, rfl, fun j => ?_⟩
      rw [R.read hr, R.read r1, R.read r1, Function.update_self, Function.update_self, Option.bind_some, Option.bind_some, Option.bind_some,
        List.getElem?_modify]
      by_cases hj : j = p
      · subst hj; simp
      · rw [if_neg hj]; simp [Ne.symm hj]
    | bad => rw [h3] at hr; exact hr.elim
    | ub => rw [h3] at hr; exact hr.elim

/-- An H-matrix with three blocks below the root. -/
def exBlocks : Tree ℕ := .node 0 [.node 1 [], .node 2 [], .node 3 []]

/-- C75 is false for copies: the tolerance set on a copied H-matrix is not seen by its blocks. -/
theorem C75_copy_setter_false : ¬ ∀ (s s1 s2 : St ℕ ℕ) (dst src : ℕ) (f : ℕ → ℕ), Reached s → step s (.copy dst src 0) = .ok s1 →
    step s1 (.set dst 0 f) = .ok s2 → ∀ j < blocks s2 dst, read s2 dst j = read s2 dst 0 := by
  intro h
  have h0 : ∃ s, run (init 0) [Op.build 0 exBlocks 6] = Out.ok s ∧ ∃ s1, step s (.copy 1 0 0) = .ok s1 ∧ ∃ s2, step s1 (.set 1 0 fun _ => 3) = .ok s2 ∧
      1 < blocks s2 1 ∧ read s2 1 1 = some 6 ∧ read s2 1 0 = some 3 :=
    ⟨_, rfl, _, rfl, _, rfl, by decide +kernel, by decide +kernel, by decide +kernel⟩
  obtain ⟨s, e0, s1, e1, s2, e2, e3, e4, e5⟩ := h0
  have e6 := h s s1 s2 1 0 (fun _ => 3) ⟨0, _, e0⟩ e1 e2 1 e3
  rw [e4, e5] at e6
  exact absurd e6 (by decide)

/-- C75: assigning to an H-matrix one of its own blocks below the root is undefined behaviour; assigning it to itself changes nothing. -/
theorem C75_own_block {s : St N D} {i k : ℕ} {T : Tree (N × ℕ)} (hv : s.var i = some T) (hk : k < T.pre.length) :
    step s (.assign i i k) = if k = 0 then .ok s else .ub := by
  simp only [step, hv, Option.bind_some, List.getElem?_eq_getElem hk, if_true]

/-- The hypotheses are met: a built H-matrix of four blocks, whose tolerance is set through a leaf, then copied. -/
example : ∃ s s' : St ℕ ℕ, run (init 0) [Op.build 0 exBlocks 6, Op.set 0 2 fun _ => 5] = Out.ok s ∧ read s 0 0 = some 5 ∧ read s 0 3 = some 5 ∧
    step s (.copy 1 0 0) = .ok s' ∧ read s' 1 0 = some 5 ∧ read s' 1 3 = some 5 ∧ 3 < blocks s' 1 :=
  ⟨_, _, rfl, by decide +kernel, by decide +kernel, rfl, by decide +kernel, by decide +kernel, by decide +kernel⟩

end Htool.TreeData
