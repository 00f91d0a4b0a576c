import Verif.Assembled

/-! # Properties C17, C18 and C19 for the H-matrices returned by the builder -/

namespace Htool
open Htool.Tree (iv)
variable {G R : Type*}

/-! ## C17 -/

/-- What a node of the H-matrix must hold for a block of the block tree: ranges of the block and, for a block proposed for
compression, low-rank data of matching dimensions or, if the compression failed, the exact coefficients; for a block of two leaf clusters,
the coefficients (or what the dense blocks generator gives); nothing for a block with children. -/
structure HoldsBlock (lr : LRGen R) (dg : Option (DenseGen R)) (gen : ℕ → ℕ → R) (a : BNode G) (n : HNode R) : Prop where
  rows : (n.toff, n.tsz) = a.t.iv
  cols : (n.soff, n.ssz) = a.s.iv
  adm : a.kind = .adm →
    ((lr gen a.t.iv a.s.iv).urows = a.t.sz ∧ (lr gen a.t.iv a.s.iv).vcols = a.s.sz ∧
      n.data = .lowRank (lr gen a.t.iv a.s.iv).rank (lr gen a.t.iv a.s.iv).U (lr gen a.t.iv a.s.iv).V) ∨
    (((lr gen a.t.iv a.s.iv).urows ≠ a.t.sz ∨ (lr gen a.t.iv a.s.iv).vcols ≠ a.s.sz) ∧
      n.data = .dense (fun i j => gen (a.t.off + i) (a.s.off + j)))
  dense : a.kind = .dense → n.data = .dense (match dg with
    | none => fun i j => gen (a.t.off + i) (a.s.off + j)
    | some d => d a.t.iv a.s.iv)
  hier : a.kind = .hier → n.data = .hier

theorem lrFails_iff {n : HNode R} {r : LRResult R} : lrFails n r = true ↔ r.urows ≠ n.tsz ∨ r.vcols ≠ n.ssz := by
  unfold lrFails
  rw [Bool.or_eq_true, decide_eq_true_iff, decide_eq_true_iff]

theorem finalNode_holds (E : BEnv G) (lr : LRGen R) (dg : Option (DenseGen R)) (gen : ℕ → ℕ → R) (c : BTree G) :
    HoldsBlock lr dg gen c.label (finalNode E lr dg gen c) := by
  refine ⟨rfl, rfl, ?_, ?_, ?_⟩
  · intro hk
    have hd : (finalNode E lr dg gen c).data = admOf lr gen (mkCell E c.label) := by unfold finalNode; simp only [hk]
    rw [hd]
    unfold admOf
    split_ifs with hf
    · right
      exact ⟨lrFails_iff.1 hf, rfl⟩
    · left
      have : (lr gen c.label.t.iv c.label.s.iv).urows = c.label.t.sz ∧ (lr gen c.label.t.iv c.label.s.iv).vcols = c.label.s.sz := by
        rw [lrFails_iff] at hf
        push Not at hf
        exact hf
      exact ⟨this.1, this.2, rfl⟩
  · intro hk
    unfold finalNode
    simp only [hk]
    cases dg <;> rfl
  · intro hk
    unfold finalNode
    simp only [hk]

theorem assembled_holds (E : BEnv G) (lr : LRGen R) (dg : Option (DenseGen R)) (gen : ℕ → ℕ → R) (b : BTree G) :
    Tree.Rel (HoldsBlock lr dg gen) b (assembled E lr dg gen b) := by
  induction b using Tree.ind with
  | h a cs ih =>
    rw [assembled_node, Tree.Rel_node]
    refine ⟨finalNode_holds E lr dg gen (.node a cs), ?_⟩
    rw [List.forall₂_map_right_iff]
    exact List.forall₂_same.2 (fun c hc => ih c hc)

/-- The number of blocks proposed for compression whose compression failed. -/
def fallbacks (lr : LRGen R) (gen : ℕ → ℕ → R) (b : BTree G) : ℕ :=
  b.pre.countP (fun c => decide (c.label.kind = .adm ∧
    ((lr gen c.label.t.iv c.label.s.iv).urows ≠ c.label.t.sz ∨ (lr gen c.label.t.iv c.label.s.iv).vcols ≠ c.label.s.sz)))

theorem failCount_eq (E : BEnv G) (lr : LRGen R) (gen : ℕ → ℕ → R) (b : BTree G) : failCount E lr gen b = fallbacks lr gen b := by
  unfold failCount fallbacks
  apply List.countP_congr
  intro c _
  rw [Bool.and_eq_true, decide_eq_true_iff, decide_eq_true_iff, lrFails_iff]
  exact Iff.rfl

theorem sysInv_empty (m : Mem R) : SysInv m Builder.empty :=
  ⟨⟨List.nodup_nil, List.nodup_nil, by simp [Builder.empty], by simp [Builder.empty]⟩, by simp [Builder.empty]⟩

/-- **C17.** Whatever the number of threads and the schedule, `build` with a new builder returns an H-matrix of the shape of the block
tree; every block proposed for compression holds a low-rank approximation with matching dimensions or the exact coefficients, and the
number of false positives is the number of fallbacks. No deleted block is accessed, and nothing allocated before is changed. -/
theorem C17_fallback_every_schedule [Zero R] {T : ℕ} (hT : 0 < T) {E : BEnv G} {lr : LRGen R} {dg : Option (DenseGen R)} {fuel : ℕ}
    {t s : CTree G} (hE : BuildOK E t s) {gen : ℕ → ℕ → R} {m m' : Mem R} {B' : Builder} {H : Tree ℕ}
    (h : BuildStep T E lr dg fuel t s gen m Builder.empty m' B' H) :
    ∃ b, buildBlocks E fuel t s = some b ∧ Tree.Rel (HoldsBlock lr dg gen) b (H.map m'.heap) ∧
      B'.fp = fallbacks lr gen b ∧ m'.ub = m.ub ∧ ∀ a < m.next, m'.heap a = m.heap a ∧ m'.live a = m.live a := by
  obtain ⟨b, h1, h2, -, -, h5, h6, -, h8, -⟩ := build_spec hT hE (sysInv_empty m) h
  refine ⟨b, h1, ?_, ?_, h6, ?_⟩
  · rw [h2]; exact assembled_holds E lr dg gen b
  · rw [h8, failCount_eq]; simp [Builder.empty]
  · intro a ha
    have := h5 a ha
    simpa [Builder.empty] using this

/-- **C17.** The result does not depend on the schedule: two executions (with any numbers of threads) give the same H-matrix. -/
theorem C17_schedule_independent [Zero R] {T T' : ℕ} (hT : 0 < T) (hT' : 0 < T') {E : BEnv G} {lr : LRGen R} {dg : Option (DenseGen R)}
    {fuel : ℕ} {t s : CTree G} (hE : BuildOK E t s) {gen : ℕ → ℕ → R} {m n m' n' : Mem R} {B' C' : Builder} {H K : Tree ℕ}
    (h : BuildStep T E lr dg fuel t s gen m Builder.empty m' B' H) (k : BuildStep T' E lr dg fuel t s gen n Builder.empty n' C' K) :
    H.map m'.heap = K.map n'.heap ∧ B'.fp = C'.fp := by
  obtain ⟨b, h1, h2, -, -, -, -, -, h8, -⟩ := build_spec hT hE (sysInv_empty m) h
  obtain ⟨c, k1, k2, -, -, -, -, -, k8, -⟩ := build_spec hT' hE (sysInv_empty n) k
  obtain rfl : b = c := by rw [h1] at k1; injection k1
  exact ⟨h2.trans k2.symm, h8.trans k8.symm⟩

/-- **C17.** The parallel region of `compute_blocks` terminates (every step decreases the work left), is never stuck before all threads
are done, and can be completed from every state it can reach. -/
theorem C17_parallel_region_completes {T : ℕ} {lr : LRGen R} {dg : Option (DenseGen R)} {gen : ℕ → ℕ → R} {m : Mem R} {B : Builder}
    (hB : TasksOK m B) {s : CBState T R} (hr : CBRun lr gen (cbInit T dg m B) s) :
    (∀ u, CBStep lr gen s u → u.work < s.work) ∧ ((∃ th, s.pc th ≠ 2) → ∃ u, CBStep lr gen s u) ∧
    ∃ u, CBRun lr gen s u ∧ ∀ th, u.pc th = 2 := by
  have inv := cbInv_run (cbInv_init (T := T) (lr := lr) (gen := gen) (dg := dg) hB.nodupA hB.nodupD hB.disj hB.live) hr
  refine ⟨fun u h => cbStep_work h, fun h => cbInv_progress inv h, ?_⟩
  exact cb_completes inv

/-! ## C18 -/

/-- Histories of one builder object: any sequence of calls of `build`, most recent first, each with its root clusters, generator and
returned H-matrix. -/
inductive BuildHistory [Zero R] (T : ℕ) (E : BEnv G) (lr : LRGen R) (dg : Option (DenseGen R)) (fuel : ℕ) :
    List (CTree G × CTree G × (ℕ → ℕ → R) × Tree ℕ) → Mem R → Builder → Prop
  | new (m : Mem R) : BuildHistory T E lr dg fuel [] m Builder.empty
  | build {L m B m' B' t s gen H} : BuildHistory T E lr dg fuel L m B → BuildOK E t s → BuildStep T E lr dg fuel t s gen m B m' B' H →
      BuildHistory T E lr dg fuel ((t, s, gen, H) :: L) m' B'

/-- What holds of every H-matrix a builder has returned. -/
structure Kept (E : BEnv G) (lr : LRGen R) (dg : Option (DenseGen R)) (fuel : ℕ) (gen : ℕ → ℕ → R) (m : Mem R) (B : Builder)
    (t s : CTree G) (H : Tree ℕ) (T1 : Tree (ℕ × BNode G)) : Prop where
  blocks : buildBlocks E fuel t s = some (T1.map Prod.snd)
  addr : H = T1.map Prod.fst
  nodup : T1.addrs.Nodup
  owns : Owns B T1
  old : ∀ a ∈ T1.addrs, a < m.next ∧ m.live a = true
  heap : ∀ c ∈ T1.pre, m.heap c.label.1 = finalNode E lr dg gen (c.map Prod.snd)

theorem history_kept [Zero R] {T : ℕ} (hT : 0 < T) {E : BEnv G} {lr : LRGen R} {dg : Option (DenseGen R)} {fuel : ℕ}
    {L : List (CTree G × CTree G × (ℕ → ℕ → R) × Tree ℕ)} {m : Mem R} {B : Builder} (h : BuildHistory T E lr dg fuel L m B) :
    SysInv m B ∧ ∀ x ∈ L, ∀ y ∈ L.head?, ∃ T1, Kept E lr dg fuel y.2.2.1 m B x.1 x.2.1 x.2.2.2 T1 := by
  induction h with
  | new m => exact ⟨sysInv_empty m, by simp⟩
  | @build L m B m' B' t s gen H hL hE hst ih =>
    obtain ⟨hI, hk⟩ := ih
    obtain ⟨b, h1, h2, ⟨T1, e1, e2, e3, e4, e5⟩, ⟨nA, nD, a1, a2, a3⟩, h5, h6, h7, h8, h9⟩ := build_spec hT hE hI hst
    refine ⟨h9, ?_⟩
    intro x hx y hy
    have hy : y = (t, s, gen, H) := by simpa using hy.symm
    subst hy
    simp only
    rcases List.mem_cons.1 hx with rfl | hx
    · refine ⟨T1, by rw [h1, e2], e1, e3, e4, fun a ha => ⟨(e5 a ha).2.1, (e5 a ha).2.2⟩, ?_⟩
      -- read back from the equality of trees
      intro c hc
      have key : ∀ (T2 : Tree (ℕ × BNode G)), (T2.map Prod.fst).map m'.heap = assembled E lr dg gen (T2.map Prod.snd) →
          ∀ c ∈ T2.pre, m'.heap c.label.1 = finalNode E lr dg gen (c.map Prod.snd) := by
        intro T2
        induction T2 using Tree.ind with
        | h a cs ihc =>
          intro he c hc
          rw [Tree.map_node, Tree.map_node, Tree.map_node, assembled_node] at he
          injection he with he1 he2
          rw [List.map_map, List.map_map] at he2
          rcases Tree.mem_pre.1 hc with rfl | ⟨d, hd, hcd⟩
          · rw [Tree.map_node]; exact he1
          · exact ihc d hd (List.map_inj_left.1 he2 d hd) c hcd
      exact key T1 (by rw [← e1, ← e2]; exact h2) c hc
    · have hne : L ≠ [] := List.ne_nil_of_mem hx
      obtain ⟨z, hz⟩ : ∃ z, z ∈ L.head? := by
        cases L with
        | nil => exact absurd rfl hne
        | cons z L => exact ⟨z, rfl⟩
      obtain ⟨T2, k⟩ := hk x hx z hz
      have hlt : ∀ c ∈ T2.pre, c.label.1 < m.next := fun c hc => (k.old _ (List.mem_map.2 ⟨c, hc, rfl⟩)).1
      refine ⟨T2, k.blocks, k.addr, k.nodup, ?_, ?_, ?_⟩
      · intro c hc
        obtain ⟨o1, o2⟩ := k.owns c hc
        have hc' := hlt c hc
        rw [a1, a2]
        simp only [List.mem_append]
        constructor
        · rw [← o1]
          refine or_iff_left (fun hh => ?_)
          have := a3 _ (Or.inl hh); omega
        · rw [← o2]
          refine or_iff_left (fun hh => ?_)
          have := a3 _ (Or.inr hh); omega
      · intro a ha
        obtain ⟨o1, o2⟩ := k.old a ha
        exact ⟨by omega, by rw [(h5 a o1).2]; exact o2⟩
      · intro c hc
        obtain ⟨o1, o2⟩ := k.owns c hc
        rw [(h5 _ (hlt c hc)).1, k.heap c hc]
        have hl : (c.map Prod.snd).label = c.label.2 := Tree.label_map _ _
        unfold finalNode
        simp only [hl]
        cases hkd : c.label.2.kind with
        | adm => simp only [o1.2 hkd, if_true]; rfl
        | dense =>
          have n1 : c.label.1 ∉ B.adm := fun hh => by rw [o1.1 hh] at hkd; simp at hkd
          simp only [n1, if_false, o2.2 hkd, if_true]
          unfold denseData
          cases dg <;> rfl
        | hier =>
          have n1 : c.label.1 ∉ B.adm := fun hh => by rw [o1.1 hh] at hkd; simp at hkd
          have n2 : c.label.1 ∉ B.dense := fun hh => by rw [o2.1 hh] at hkd; simp at hkd
          simp only [n1, n2, if_false]

/-- **C18 (partial: the property fails, this is what holds).** After any sequence of calls of `build` on one builder, *every* H-matrix it
has returned holds the blocks of its own block tree filled with the coefficients of the *most recent* generator. So earlier H-matrices
survive exactly as far as the generators agree; there is no access to freed memory as long as none has been destroyed. -/
theorem C18_reuse_partial [Zero R] {T : ℕ} (hT : 0 < T) {E : BEnv G} {lr : LRGen R} {dg : Option (DenseGen R)} {fuel : ℕ}
    {L : List (CTree G × CTree G × (ℕ → ℕ → R) × Tree ℕ)} {t s : CTree G} {gen : ℕ → ℕ → R} {H : Tree ℕ} {m : Mem R} {B : Builder}
    (h : BuildHistory T E lr dg fuel ((t, s, gen, H) :: L) m B) :
    ∀ x ∈ (t, s, gen, H) :: L, ∃ b, buildBlocks E fuel x.1 x.2.1 = some b ∧ Tree.Rel (HoldsBlock lr dg gen) b (x.2.2.2.map m.heap) := by
  intro x hx
  obtain ⟨-, hk⟩ := history_kept hT h
  obtain ⟨T1, k⟩ := hk x hx _ rfl
  refine ⟨_, k.blocks, ?_⟩
  rw [k.addr, read_assembled T1 k.heap]
  exact assembled_holds E lr dg gen _

/-- **C18 (partial).** With a new builder for each H-matrix, no earlier object changes. -/
theorem C18_new_builder_partial [Zero R] {T : ℕ} (hT : 0 < T) {E : BEnv G} {lr : LRGen R} {dg : Option (DenseGen R)} {fuel : ℕ}
    {t s : CTree G} (hE : BuildOK E t s) {gen : ℕ → ℕ → R} {m m' : Mem R} {B' : Builder} {H : Tree ℕ}
    (h : BuildStep T E lr dg fuel t s gen m Builder.empty m' B' H) (K : Tree ℕ) (hK : ∀ c ∈ K.pre, c.label < m.next) :
    K.map m'.heap = K.map m.heap := by
  obtain ⟨-, -, -, -, -, h5⟩ := C17_fallback_every_schedule hT hE h
  exact Tree.map_congr (fun c hc => (h5 _ (hK c hc)).1)

/-- Invariant: a task whose block has been freed is either still to be done or has been accessed. -/
theorem cb_dead {T : ℕ} {lr : LRGen R} {dg : Option (DenseGen R)} {gen : ℕ → ℕ → R} {m : Mem R} {B : Builder} {a : ℕ}
    (ha : a ∈ B.adm ∨ dg = none ∧ a ∈ B.dense) (hd : m.live a = false) {s : CBState T R} (hr : CBRun lr gen (cbInit T dg m B) s) :
    s.mem.live = m.live ∧ (∀ th, 1 ≤ s.pc th → s.todoA = []) ∧ (∀ th, 2 ≤ s.pc th → s.todoD = []) ∧
      (s.mem.ub = true ∨ a ∈ s.todoA ∨ a ∈ s.todoD) := by
  induction hr with
  | refl =>
    refine ⟨rfl, by simp [cbInit], by simp [cbInit], Or.inr ?_⟩
    unfold cbInit
    rcases ha with h | ⟨rfl, h⟩
    · exact Or.inl h
    · right; simpa using h
  | tail hr hst ih =>
    obtain ⟨i1, i2, i3, i4⟩ := ih
    cases hst with
    | take th x before after hp hc h =>
      refine ⟨i1, ?_, i3, ?_⟩
      · intro u hu
        have := i2 u hu
        rw [h] at this; simp at this
      · simp only [Mem.setData]
        by_cases hx : x = a
        · subst hx; left; rw [i1, hd]; simp
        · rcases i4 with i4 | i4 | i4
          · left; rw [i4]; rfl
          · right; left
            rw [h] at i4
            simp only [List.mem_append, List.mem_cons] at i4 ⊢
            rcases i4 with i4 | i4 | i4
            · exact Or.inl i4
            · exact absurd i4.symm hx
            · exact Or.inr i4
          · exact Or.inr (Or.inr i4)
    | keep th x hp hc h => exact ⟨i1, i2, i3, i4⟩
    | fallback th x hp hc h =>
      refine ⟨i1, i2, i3, ?_⟩
      rcases i4 with i4 | i4
      · left; simp only [Mem.setData]; rw [i4]; rfl
      · exact Or.inr i4
    | next th hp hc h =>
      refine ⟨i1, ?_, ?_, i4⟩
      · intro u _; exact h
      · intro u hu
        by_cases hut : u = th
        · subst hut; simp at hu
        · simp only [Function.update_of_ne hut] at hu; exact i3 u hu
    | dense th x before after hp h =>
      refine ⟨i1, i2, ?_, ?_⟩
      · intro u hu
        have := i3 u hu
        rw [h] at this; simp at this
      · simp only [Mem.setData]
        by_cases hx : x = a
        · subst hx; left; rw [i1, hd]; simp
        · rcases i4 with i4 | i4 | i4
          · left; rw [i4]; rfl
          · exact Or.inr (Or.inl i4)
          · right; right
            rw [h] at i4
            simp only [List.mem_append, List.mem_cons] at i4 ⊢
            rcases i4 with i4 | i4 | i4
            · exact Or.inl i4
            · exact absurd i4.symm hx
            · exact Or.inr i4
    | commit th hp h =>
      refine ⟨i1, ?_, ?_, i4⟩
      · intro u hu
        by_cases hut : u = th
        · subst hut; exact i2 u (by omega)
        · simp only [Function.update_of_ne hut] at hu; exact i2 u hu
      · intro u _; exact h

/-- **C18 fails (use after free).** Whenever an H-matrix returned by a builder has been destroyed, the next `build` of that builder
accesses freed memory: stated for one freed block `a` of the task lists, for every environment, generator and schedule. -/
theorem C18_destroy_then_build_accesses_freed_memory [Zero R] {T : ℕ} (hT : 0 < T) {E : BEnv G} {lr : LRGen R} {fuel : ℕ}
    {t s : CTree G} {gen : ℕ → ℕ → R} {m m' : Mem R} {B B' : Builder} {H : Tree ℕ} {a : ℕ} (ha : a ∈ B.adm ∨ a ∈ B.dense)
    (hlt : a < m.next) (hd : m.live a = false) (h : BuildStep T E lr none fuel t s gen m B m' B' H) : m'.ub = true := by
  obtain ⟨b0, h0, rfl, hBA, hBD, m2, hcb, rfl⟩ := h
  obtain ⟨n1, n2, n3⟩ := Tree.number_spec b0 m.next
  set T0 := (b0.number m.next).1 with hT0
  set m1 := (m.alloc E T0 (b0.number m.next).2).reset E T0 (resetRootA E T0) with hm1
  have hnd0 : T0.addrs.Nodup := by rw [n3]; exact List.nodup_range'
  have hna : a ∉ T0.addrs := by rw [n3, List.mem_range'_1]; omega
  have hlive : m1.live a = false := by
    obtain ⟨-, a2, -⟩ := alloc_fold (R := R) E T0.pre hnd0 m
    have e : (m.alloc E T0 (b0.number m.next).2).live a = false := by
      rw [← hd]; exact (a2 a hna).2
    show ((m.alloc E T0 (b0.number m.next).2).live a && _) = false
    rw [e]; rfl
  obtain ⟨s1, hr, hpc, -, hfin⟩ := hcb
  obtain ⟨-, i2, i3, i4⟩ := cb_dead (a := a) (dg := none) (by
    rcases ha with ha | ha
    · exact Or.inl (List.mem_append_left _ ha)
    · exact Or.inr ⟨rfl, List.mem_append_left _ ha⟩) hlive hr
  have hub : s1.mem.ub = true := by
    rcases i4 with i4 | i4 | i4
    · exact i4
    · rw [i2 ⟨0, hT⟩ (by rw [hpc]; omega)] at i4; simp at i4
    · rw [i3 ⟨0, hT⟩ (by rw [hpc])] at i4; simp at i4
  have hm2 : m2.ub = true := by rw [← hfin]; exact hub
  have : ∀ (L : List (Tree ℕ)) (m : Mem R), (L.foldl (fun m c =>
      if symLOf E (decide ((m.heap c.label).sym ≠ .N)) (c.children.map (fun d => decide ((m.heap d.label).sym ≠ .N))) then
        { m with heap := Function.update m.heap c.label { m.heap c.label with symL := E.sym.toH, uploL := E.uplo } }
      else m) m).ub = m.ub := by
    intro L
    induction L with
    | nil => intro m; rfl
    | cons c L ih =>
      intro m
      rw [List.foldl_cons, ih]
      split_ifs <;> rfl
  rw [← hm2]
  exact this _ m2

/-! ### Concrete cases -/

/-- One cluster with one point. -/
def exPoint : CTree Unit := .node ⟨0, 1, 0, 0, 0, true, ()⟩ []

/-- Builder settings on one point: no symmetry, nothing admissible. -/
def exPointEnv : BEnv Unit where
  tct := ⟨exPoint, [exPoint]⟩
  sct := ⟨exPoint, [exPoint]⟩
  adm := fun _ _ => false
  mint := 0
  mins := 0
  tp := none
  sym := .N
  uplo := .N
  psym := none
  consistent := true

theorem exPoint_wf : (⟨exPoint, [exPoint]⟩ : ClusterTree Unit).WF where
  hier := by
    intro x hx hne
    simp [exPoint, Tree.pre, Tree.preL] at hx; subst hx; simp at hne
  parts_mem := by simp [Tree.mem_pre_self]
  parts_tiles := ⟨rfl, rfl⟩
  parts_rank := by
    intro p P hP x hx
    have : p = 0 := by
      by_contra hp
      obtain ⟨q, rfl⟩ := Nat.exists_eq_succ_of_ne_zero hp
      simp at hP
    subst this
    simp at hP; subst hP
    simp [exPoint, Tree.pre, Tree.preL] at hx; subst hx; rfl
  ranked := by
    intro x hx _
    exact ⟨exPoint, by simp, hx⟩
  above := by
    intro x hx hr
    simp [exPoint, Tree.pre, Tree.preL] at hx; subst hx
    simp [Tree.rk] at hr

theorem exPoint_ok : BuildOK exPointEnv exPoint exPoint :=
  ⟨exPoint_wf, exPoint_wf, Tree.mem_pre_self _, Tree.mem_pre_self _, by simp [exPointEnv]⟩

/-- A low-rank generator that always fails. -/
def exLr : LRGen ℤ := fun _ _ _ => ⟨0, 0, 0, fun _ _ => 0, fun _ _ => 0⟩

/-- Memory before the first allocation. -/
def exMem : Mem ℤ := ⟨fun _ => ⟨0, 0, 0, 0, .N, .N, .N, .N, .hier⟩, fun _ => false, 0, false⟩

/-- Executions of `build` exist: from every consistent state of memory and builder. -/
theorem build_exists [Zero R] {T : ℕ} {E : BEnv G} {lr : LRGen R} {dg : Option (DenseGen R)} {fuel : ℕ} {t s : CTree G}
    (hE : BuildOK E t s) {gen : ℕ → ℕ → R} {m : Mem R} {B : Builder} (hm : SysInv m B) {b : BTree G}
    (hb : buildBlocks E fuel t s = some b) : ∃ m' B' H, BuildStep T E lr dg fuel t s gen m B m' B' H := by
  obtain ⟨b0, h0, -⟩ := buildBlocks_inv hb
  obtain ⟨n1, n2, n3⟩ := Tree.number_spec b0 m.next
  have key : TasksOK ((m.alloc E (b0.number m.next).1 (b0.number m.next).2).reset E (b0.number m.next).1 (resetRootA E (b0.number m.next).1))
      (⟨B.adm ++ tasksOf .adm (b0.number m.next).1, B.dense ++ tasksOf .dense (b0.number m.next).1, B.fp⟩ : Builder) :=
    build_tasks hE hm h0
  obtain ⟨m2, fp, hcb⟩ := computeBlocks_exists (T := T) (lr := lr) (dg := dg) (gen := gen) key
  exact ⟨_, ⟨B.adm ++ tasksOf .adm (b0.number m.next).1, B.dense ++ tasksOf .dense (b0.number m.next).1, fp⟩, _,
    b0, h0, rfl, rfl, rfl, m2, hcb, rfl⟩

/-! ## C19, C20 for the H-matrices returned by `build`: from generator to product -/

/-- The ways of calling `build` for which the block tree covers the root block. `Covered E t s r`: settings `E`, root clusters `t` and `s`,
and `r` the cluster of the rows of the result.
* `plain`: no symmetry, any two clusters (with a target partition, the target cluster lies in it);
* `plainPart`: no symmetry, target partition `p` below the target cluster: the result has the rows of the partition;
* `diag`: symmetry, one cluster against itself, no restriction of the symmetry;
* `loc`: symmetry restricted to partition `p`, rows of that partition, columns of a cluster above or equal to a partition;
* `part`: symmetry restricted to partition `p`, target partition `p`, a cluster above the partition against itself (this is what
  `DefaultApproximationBuilder` calls). -/
inductive Covered (E : BEnv G) : CTree G → CTree G → CTree G → Prop
  | plain {t s} : E.tct.WF → E.sct.WF → E.tct.Pos → E.sct.Pos → E.sym = .N → t ∈ E.tct.root.pre → s ∈ E.sct.root.pre →
      (E.tp = none ∨ ∃ (p : ℕ) (P : CTree G), E.tp = some p ∧ E.tct.parts[p]? = some P ∧ t.rk = (p : ℤ)) → Covered E t s t
  | plainPart {t s p P} : E.tct.WF → E.sct.WF → E.tct.Pos → E.sct.Pos → E.sym = .N → t ∈ E.tct.root.pre → s ∈ E.sct.root.pre →
      E.tp = some p → E.tct.parts[p]? = some P → t.rk < 0 → P ∈ t.pre → Covered E t s P
  | diag {a} : E.Symm → E.psym = none → a ∈ E.tct.root.pre →
      (E.tp = none ∨ ∃ (p : ℕ) (P : CTree G), E.tp = some p ∧ E.tct.parts[p]? = some P ∧ a.rk = (p : ℤ)) → Covered E a a a
  | loc {p P s} : E.Symm → E.psym = some p → E.tct.parts[p]? = some P → (E.tp = none ∨ E.tp = some p) → s ∈ E.tct.root.pre →
      (s.rk < 0 ∨ s ∈ E.tct.parts) → Covered E P s P
  | part {p P a} : E.Symm → E.psym = some p → E.tp = some p → E.tct.parts[p]? = some P → a ∈ E.tct.root.pre → a.rk < 0 → P ∈ a.pre →
      Covered E a a P

theorem Covered.buildOK {E : BEnv G} {t s r : CTree G} (h : Covered E t s r) : BuildOK E t s := by
  cases h with
  | plain h1 h2 _ _ _ h3 h4 h5 =>
    refine ⟨h1, h2, h3, h4, ?_⟩
    intro p hp
    rcases h5 with h5 | ⟨q, Q, h5, h6, h7⟩
    · rw [h5] at hp; simp at hp
    · obtain rfl : q = p := by rw [h5] at hp; injection hp
      exact ⟨Q, h6, Or.inr h7⟩
  | plainPart h1 h2 _ _ _ h3 h4 h5 h6 h7 _ =>
    refine ⟨h1, h2, h3, h4, ?_⟩
    intro q hq
    rw [h5] at hq; injection hq with hq; subst hq
    exact ⟨_, h6, Or.inl h7⟩
  | diag hE _ h3 h5 =>
    refine ⟨hE.wf, hE.same ▸ hE.wf, h3, hE.same ▸ h3, ?_⟩
    intro p hp
    rcases h5 with h5 | ⟨q, Q, h5, h6, h7⟩
    · rw [h5] at hp; simp at hp
    · obtain rfl : q = p := by rw [h5] at hp; injection hp
      exact ⟨Q, h6, Or.inr h7⟩
  | @loc p P s hE _ hP h5 hs _ =>
    refine ⟨hE.wf, hE.same ▸ hE.wf, hE.wf.parts_mem t (List.mem_of_getElem? hP), hE.same ▸ hs, ?_⟩
    intro q hq
    rcases h5 with h5 | h5
    · rw [h5] at hq; simp at hq
    · rw [h5] at hq; injection hq with hq; subst hq
      exact ⟨t, hP, Or.inr (hE.wf.parts_rank p t hP t (Tree.mem_pre_self _))⟩
  | part hE _ h5 hP ha hr _ =>
    refine ⟨hE.wf, hE.same ▸ hE.wf, ha, hE.same ▸ ha, ?_⟩
    intro q hq
    rw [h5] at hq; injection hq with hq; subst hq
    exact ⟨_, hP, Or.inl hr⟩

theorem Covered.blocks {E : BEnv G} {t s r : CTree G} (h : Covered E t s r) {f : ℕ} {b : BTree G} (hb : buildBlocks E f t s = some b) :
    BlockOK E b ∧ b.label.t = r ∧ b.label.s = s := by
  obtain ⟨b0, h0, e0⟩ := buildBlocks_inv hb
  obtain ⟨l1, l2, -⟩ := buildBlockTree_label h0
  have same : (E.tp = none ∨ ∃ p : ℕ, E.tp = some p ∧ t.rk = (p : ℤ)) → b.label.t = t ∧ b.label.s = s := by
    intro hp
    rw [e0, resetRoot_same h0 hp]; exact ⟨l1, l2⟩
  have weak : ∀ {x : CTree G}, (E.tp = none ∨ ∃ (p : ℕ) (P : CTree G), E.tp = some p ∧ E.tct.parts[p]? = some P ∧ x.rk = (p : ℤ)) →
      (E.tp = none ∨ ∃ p : ℕ, E.tp = some p ∧ x.rk = (p : ℤ)) := by
    rintro x (h | ⟨p, P, h1, -, h2⟩)
    · exact Or.inl h
    · exact Or.inr ⟨p, h1, h2⟩
  have part : ∀ {p : ℕ} {P : CTree G}, E.tp = some p → t.rk < 0 → E.tct.parts[p]? = some P → b.label.t = P ∧ b.label.s = s := by
    intro p P hp hr hP
    obtain ⟨a, cs, e1, e2, e3, -⟩ := resetRoot_part h0 hp hr hP
    rw [e0, e1]; exact ⟨e2, e3⟩
  cases h with
  | plain h1 h2 h3 h4 h5 h6 h7 h8 =>
    refine ⟨blockOK_N h1 h2 h3 h4 h5 h6 h7 ?_ hb, same (weak h8)⟩
    intro p hp
    rcases weak h8 with h | ⟨q, hq, hr⟩
    · rw [h] at hp; simp at hp
    · rw [hq] at hp; injection hp with hp; subst hp; exact Or.inl hr
  | plainPart h1 h2 h3 h4 h5 h6 h7 h8 h9 h10 h11 =>
    refine ⟨blockOK_N h1 h2 h3 h4 h5 h6 h7 ?_ hb, part h8 h10 h9⟩
    intro q hq
    rw [h8] at hq; injection hq with hq; subst hq
    exact Or.inr ⟨h10, _, h11, h9⟩
  | diag hE h1 h2 h3 => exact ⟨blockOK_diag hE h1 h2 (weak h3) hb, same (weak h3)⟩
  | @loc p P s hE h1 hP h3 h4 h5 =>
    refine ⟨blockOK_local hE h1 hP h3 h4 h5 hb, same ?_⟩
    exact h3.imp id (fun h => ⟨p, h, hE.wf.parts_rank p t hP t (Tree.mem_pre_self _)⟩)
  | part hE h1 h2 hP h4 h5 h6 => exact ⟨blockOK_partition hE h1 hP h2 h4 h5 h6 hb, part h2 h5 hP⟩

/-- What the user promises about the coefficients, on rows `t` and columns `s`: declared symmetry on the square block of the rows, complex
coefficients and a triangle to store for a hermitian matrix, and a dense blocks generator (if any) that agrees with the generator. -/
structure UserGen [CommRing R] [StarRing R] (E : BEnv G) (cplx : Bool) (dg : Option (DenseGen R)) (gen : ℕ → ℕ → R) (t : ℕ × ℕ) : Prop where
  uplo : E.sym ≠ .N → E.uplo ≠ .N
  symS : E.sym = .S → ∀ i j, InIv i t → InIv j t → gen j i = gen i j
  symH : E.sym = .H → cplx = true ∧ ∀ i j, InIv i t → InIv j t → gen j i = star (gen i j)
  dense : ∀ d, dg = some d → ∀ a b : ℕ × ℕ, ∀ i < a.2, ∀ j < b.2, d a b i j = gen (a.1 + i) (b.1 + j)

theorem UserGen.genOK [CommRing R] [StarRing R] {E : BEnv G} {cplx : Bool} {dg : Option (DenseGen R)} {gen : ℕ → ℕ → R} {b : BTree G}
    (h : UserGen E cplx dg gen b.label.t.iv) : GenOK E cplx dg gen b :=
  ⟨h.uplo, h.symS, h.symH, fun d hd c _ _ i hi j hj => h.dense d hd c.label.t.iv c.label.s.iv i hi j hj⟩

/-- What the compressor promises: unless it reports a failure (factors of wrong dimensions), the product of the factors is entrywise
`close` to the block. -/
def UserLR [CommRing R] (close : R → R → Prop) (lr : LRGen R) (gen : ℕ → ℕ → R) : Prop :=
  ∀ a b : ℕ × ℕ, (lr gen a b).urows = a.2 → (lr gen a b).vcols = b.2 → ∀ i < a.2, ∀ j < b.2,
    close (∑ k ∈ Finset.range (lr gen a b).rank, (lr gen a b).U i k * (lr gen a b).V k j) (gen (a.1 + i) (b.1 + j))

theorem UserLR.lrClose [CommRing R] [StarRing R] {E : BEnv G} {close : R → R → Prop} {lr : LRGen R} {gen : ℕ → ℕ → R} {b : BTree G}
    (h : UserLR close lr gen) : LRClose E close lr gen b := by
  intro c _ _ hf i hi j hj
  have : ¬ lrFails (mkCell E c.label) (lr gen c.label.t.iv c.label.s.iv) = true := by rw [hf]; simp
  rw [lrFails_iff] at this
  push Not at this
  exact h c.label.t.iv c.label.s.iv this.1 this.2 i hi j hj

section
variable [CommRing R] [StarRing R]

/-- **C19 (built H-matrices).** Every H-matrix returned by `build`, for every schedule, is fit for products, has the expected ranges, and
every entry of the operator it represents is `close` to the generator's. -/
theorem C19_built_operator {T : ℕ} (hT : 0 < T) {E : BEnv G} {cplx : Bool} {lr : LRGen R} {dg : Option (DenseGen R)} {fuel : ℕ}
    {t s r : CTree G} (hcov : Covered E t s r) {gen : ℕ → ℕ → R} (hgen : UserGen E cplx dg gen r.iv) {close : R → R → Prop}
    (hcl : Closeness close) (hlr : UserLR close lr gen) {m m' : Mem R} {B' : Builder} {H : Tree ℕ}
    (h : BuildStep T E lr dg fuel t s gen m Builder.empty m' B' H) :
    HTree.Fit cplx E.sym.toH (H.map m'.heap) ∧
    ((H.map m'.heap).label.toff, (H.map m'.heap).label.tsz) = r.iv ∧ ((H.map m'.heap).label.soff, (H.map m'.heap).label.ssz) = s.iv ∧
    ∀ i j, InIv i r.iv → InIv j s.iv → close (HTree.entry (H.map m'.heap) i j) (gen i j) := by
  obtain ⟨b, h1, h2, -⟩ := build_spec hT hcov.buildOK (sysInv_empty m) h
  obtain ⟨hb, e1, e2⟩ := hcov.blocks h1
  rw [← e1] at hgen
  have hg : GenOK E cplx dg gen b := hgen.genOK
  have hlab : (assembled E lr dg gen b).label = finalNode E lr dg gen b := by
    cases b with | node a cs => rw [assembled_node]; rfl
  rw [h2]
  refine ⟨assembled_fit hb hg, ?_, ?_, ?_⟩
  · rw [hlab, ← e1]; rfl
  · rw [hlab, ← e2]; rfl
  · intro i j hi hj
    rw [← e1] at hi; rw [← e2] at hj
    exact assembled_close hb hg hcl hlr.lrClose hi hj

/-- **C19 + C20 (from generator to product).** Build an H-matrix under any schedule with any number of threads, then multiply in parallel
under any schedule: the output is `β y + α op(M) x` for one matrix `M`, the same for all products, whose entries are all `close` to the
generator's; nothing outside the output range is written. -/
theorem C19_built_product [DecidableEq R] {T : ℕ} (hT : 0 < T) {E : BEnv G} {cplx : Bool} {lr : LRGen R} {dg : Option (DenseGen R)} {fuel : ℕ}
    {t s r : CTree G} (hcov : Covered E t s r) {gen : ℕ → ℕ → R} (hgen : UserGen E cplx dg gen r.iv) {close : R → R → Prop}
    (hcl : Closeness close) (hlr : UserLR close lr gen) {m m' : Mem R} {B' : Builder} {H : Tree ℕ}
    (h : BuildStep T E lr dg fuel t s gen m Builder.empty m' B' H) :
    ∃ M : ℕ → ℕ → R, (∀ i < r.sz, ∀ j < s.sz, close (M i j) (gen (r.off + i) (s.off + j))) ∧
      ∀ (T' : ℕ), 0 < T' → ∀ (tr : Trans), Supported R E.sym.toH tr → ∀ (α β : R) (x y z : Buf R),
        OmpVec T' cplx tr α (H.map m'.heap) x β y z → ∀ i, z i = if i < opRows tr r.sz s.sz then
          β * y i + α * ∑ j ∈ Finset.range (opCols tr r.sz s.sz), opE tr M i j * x j else y i := by
  obtain ⟨hfit, hr, hs, hclose⟩ := C19_built_operator hT hcov hgen hcl hlr h
  have r1 : (H.map m'.heap).label.toff = r.off := congrArg Prod.fst hr
  have r2 : (H.map m'.heap).label.tsz = r.sz := congrArg Prod.snd hr
  have s1 : (H.map m'.heap).label.soff = s.off := congrArg Prod.fst hs
  have s2 : (H.map m'.heap).label.ssz = s.sz := congrArg Prod.snd hs
  refine ⟨HTree.mat (H.map m'.heap), ?_, ?_⟩
  · intro i hi j hj
    unfold HTree.mat
    rw [r1, s1]
    apply hclose <;> (unfold InIv Tree.iv; simp only; omega)
  · intro T' hT' tr hsup α β x y z hz i
    rw [C20_parallel_product_is_sequential hT' hfit hsup hz, C19_sequential_product hfit hsup, r2, s2]

/-- **C19 + C20 (exact blocks).** If every compressed block is exact (or nothing is compressed) the parallel product of a built H-matrix is
the product with the matrix of coefficients. -/
theorem C19_built_product_exact [DecidableEq R] {T T' : ℕ} (hT : 0 < T) (hT' : 0 < T') {E : BEnv G} {cplx : Bool} {lr : LRGen R} {dg : Option (DenseGen R)}
    {fuel : ℕ} {t s r : CTree G} (hcov : Covered E t s r) {gen : ℕ → ℕ → R} (hgen : UserGen E cplx dg gen r.iv)
    (hlr : UserLR (· = ·) lr gen) {m m' : Mem R} {B' : Builder} {H : Tree ℕ}
    (h : BuildStep T E lr dg fuel t s gen m Builder.empty m' B' H) {tr : Trans} (hsup : Supported R E.sym.toH tr) (α β : R) (x y z : Buf R)
    (hz : OmpVec T' cplx tr α (H.map m'.heap) x β y z) (i : ℕ) :
    z i = if i < opRows tr r.sz s.sz then
      β * y i + α * ∑ j ∈ Finset.range (opCols tr r.sz s.sz), opE tr (fun a b => gen (r.off + a) (s.off + b)) i j * x j else y i := by
  obtain ⟨M, h1, h2⟩ := C19_built_product hT hcov hgen (close := (· = ·)) ⟨fun _ => rfl, fun _ _ h => congrArg _ h⟩ hlr h
  rw [h2 T' hT' tr hsup α β x y z hz i]
  split_ifs with hi
  · congr 2
    apply Finset.sum_congr rfl
    intro j hj
    have hj := Finset.mem_range.1 hj
    congr 1
    cases tr with
    | N => exact h1 _ (by simpa [opRows] using hi) _ (by simpa [opCols] using hj)
    | T => exact h1 _ (by simpa [opCols] using hj) _ (by simpa [opRows] using hi)
    | C => simp only [opE]; rw [h1 _ (by simpa [opCols] using hj) _ (by simpa [opRows] using hi)]
  · rfl

end

/-- **C18 fails (overwritten).** Two calls of `build` on one builder with two different generators: after the second call the H-matrix
returned by the *first* call represents the *second* operator. -/
theorem C18_second_build_overwrites_first : ∃ (g1 g2 : ℕ → ℕ → ℤ) (H1 H2 : Tree ℕ) (m1 m2 : Mem ℤ) (B1 B2 : Builder),
    BuildStep 2 exPointEnv exLr none 5 exPoint exPoint g1 exMem Builder.empty m1 B1 H1 ∧
    BuildStep 2 exPointEnv exLr none 5 exPoint exPoint g2 m1 B1 m2 B2 H2 ∧
    HTree.entry (H1.map m1.heap) 0 0 = g1 0 0 ∧ HTree.entry (H1.map m2.heap) 0 0 = g2 0 0 ∧ g1 0 0 ≠ g2 0 0 := by
  have hc : Covered exPointEnv exPoint exPoint exPoint :=
    .plain exPoint_wf exPoint_wf (fun x hx => by simp [exPointEnv, exPoint, Tree.pre, Tree.preL] at hx; subst hx; simp [Tree.sz])
      (fun x hx => by simp [exPointEnv, exPoint, Tree.pre, Tree.preL] at hx; subst hx; simp [Tree.sz]) rfl (Tree.mem_pre_self _)
      (Tree.mem_pre_self _) (Or.inl rfl)
  obtain ⟨b, hb⟩ := Option.isSome_iff_exists.1 (show (buildBlocks exPointEnv 5 exPoint exPoint).isSome by decide +kernel)
  have hbe : ∀ g : ℕ → ℕ → ℤ, (assembled exPointEnv exLr none g b).entry 0 0 = g 0 0 := by
    intro g
    obtain ⟨k1, k2, k3⟩ := hc.blocks hb
    refine assembled_close (cplx := false) (close := (· = ·)) k1 ⟨by simp [exPointEnv], by simp [exPointEnv], by simp [exPointEnv], by simp⟩
      ⟨fun _ => rfl, fun _ _ h => congrArg _ h⟩ ?_ (i := 0) (j := 0) ?_ ?_
    · intro c _ _ hf i hi
      have := lrFails_iff.not.1 (by rw [hf]; simp)
      simp [exLr, mkCell] at this
      omega
    · rw [k2]; simp [InIv, exPoint, Tree.iv, Tree.off, Tree.sz]
    · rw [k3]; simp [InIv, exPoint, Tree.iv, Tree.off, Tree.sz]
  have hent : ∀ (m m' : Mem ℤ) (B B' : Builder) (g : ℕ → ℕ → ℤ) (H : Tree ℕ), SysInv m B →
      BuildStep 2 exPointEnv exLr none 5 exPoint exPoint g m B m' B' H →
      HTree.entry (H.map m'.heap) 0 0 = g 0 0 := by
    intro m m' B B' g H hm h
    obtain ⟨b', h1, h2, -⟩ := build_spec (by omega) exPoint_ok hm h
    rw [hb] at h1; injection h1 with h1; subst h1
    rw [h2, hbe]
  obtain ⟨m1, B1, H1, s1⟩ := build_exists (T := 2) (lr := exLr) (dg := none) exPoint_ok (gen := fun _ _ => (0 : ℤ)) (sysInv_empty exMem) hb
  have inv1 := build_spec (by omega) exPoint_ok (sysInv_empty exMem) s1
  obtain ⟨-, -, -, -, -, -, -, -, -, inv1⟩ := inv1
  obtain ⟨m2, B2, H2, s2⟩ := build_exists (T := 2) (lr := exLr) (dg := none) exPoint_ok (gen := fun _ _ => (1 : ℤ)) inv1 hb
  refine ⟨fun _ _ => 0, fun _ _ => 1, H1, H2, m1, m2, B1, B2, s1, s2, hent _ _ _ _ _ _ (sysInv_empty _) s1, ?_, by decide⟩
  obtain ⟨-, hk⟩ := history_kept (T := 2) (by omega) (.build (.build (.new exMem) exPoint_ok s1) exPoint_ok s2)
  obtain ⟨T1, k⟩ := hk _ (List.mem_cons_of_mem _ (List.mem_singleton.2 rfl)) _ rfl
  have e1 := k.blocks
  simp only at e1
  rw [hb] at e1; injection e1 with e1
  have : H1.map m2.heap = assembled exPointEnv exLr none (fun _ _ => (1 : ℤ)) b := by
    rw [e1, ← read_assembled T1 k.heap]
    have := k.addr
    simp only at this
    rw [this]
  rw [this, hbe]

/-- Symmetric coefficients of rank one, and a compressor that is exact for them. -/
def exGen1 : ℕ → ℕ → ℤ := fun i j => (i + 1) * (j + 1)

def exLr1 : LRGen ℤ := fun _ a b => ⟨1, a.2, b.2, fun i _ => (a.1 + i : ℕ) + 1, fun _ j => (b.1 + j : ℕ) + 1⟩

/-- The hypotheses are met, and executions exist, on a 16-point cluster tree with a symmetric matrix (10 leaves, 3 of them compressed, 6
mirrored). -/
example : ∃ t st, exBuild = some (t, st) ∧ ∃ E : BEnv (List ℕ), E = exEnv t st none none .S .L ∧
    ∃ (m' : Mem ℤ) (B' : Builder) (H : Tree ℕ), Covered E t t t ∧ UserGen (R := ℤ) E false none exGen1 t.iv ∧
      UserLR (· = ·) exLr1 exGen1 ∧ BuildStep 3 E exLr1 none 100 t t exGen1 exMem Builder.empty m' B' H ∧ Supported ℤ E.sym.toH .N := by
  obtain ⟨t, st, h, hb⟩ := exBuild_built
  refine ⟨t, st, h, _, rfl, ?_⟩
  have hc : Covered (exEnv t st none none .S .L) t t t :=
    .diag ⟨hb.wf.1, hb.wf.2, rfl, rfl, by simp [exEnv], by simp [exEnv]⟩ rfl (Tree.mem_pre_self t) (Or.inl rfl)
  have hr : (buildBlocks (exEnv t st none none .S .L) 100 t t).isSome := by
    have h2 : ∀ r ∈ exBuild, (buildBlocks (exEnv r.1 r.2 none none .S .L) 100 r.1 r.1).isSome := by decide +kernel
    exact h2 (t, st) h
  obtain ⟨b, hr⟩ := Option.isSome_iff_exists.1 hr
  obtain ⟨m', B', H, hst⟩ := build_exists (T := 3) (lr := exLr1) (dg := none) hc.buildOK (gen := exGen1) (sysInv_empty exMem) hr
  refine ⟨m', B', H, hc, ⟨by simp [exEnv], ?_, by simp [exEnv], by simp⟩, ?_, hst, Or.inl (by simp)⟩
  · intro _ i j _ _
    unfold exGen1; ring
  · intro a b _ _ i _ j _
    simp [exLr1, exGen1]

/-- The hypotheses of the use after free are reachable: build, then destroy the result. -/
example : ∃ (m1 : Mem ℤ) (B1 : Builder) (H1 : Tree ℕ) (a : ℕ),
    BuildStep 2 exPointEnv exLr none 5 exPoint exPoint (fun _ _ => 7) exMem Builder.empty m1 B1 H1 ∧
    a ∈ B1.dense ∧ a < (m1.free (H1.pre.map Tree.label)).next ∧ (m1.free (H1.pre.map Tree.label)).live a = false := by
  obtain ⟨b, hb⟩ := Option.isSome_iff_exists.1 (show (buildBlocks exPointEnv 5 exPoint exPoint).isSome by decide +kernel)
  have hk : b.label.kind = .dense := by
    have : ∀ b ∈ buildBlocks exPointEnv 5 exPoint exPoint, b.label.kind = .dense := by decide +kernel
    exact this b hb
  obtain ⟨m1, B1, H1, s1⟩ := build_exists (T := 2) (lr := exLr) (dg := none) exPoint_ok (gen := fun _ _ => (7 : ℤ)) (sysInv_empty exMem) hb
  obtain ⟨b', h1, -, ⟨T1, e1, e2, -, e4, e5⟩, -⟩ := build_spec (by omega) exPoint_ok (sysInv_empty exMem) s1
  obtain rfl : b = b' := by rw [hb] at h1; injection h1
  have hm := Tree.mem_pre_self T1
  refine ⟨m1, B1, H1, T1.label.1, s1, (e4 T1 hm).2.2 ?_, (e5 T1.label.1 (List.mem_map.2 ⟨T1, hm, rfl⟩)).2.1, ?_⟩
  · rw [e2, Tree.label_map] at hk; exact hk
  · have : T1.label.1 ∈ H1.pre.map Tree.label := by
      rw [e1]
      exact List.mem_map.2 ⟨_, Tree.mem_pre_self _, Tree.label_map _ _⟩
    simp only [Mem.free, this]; simp

end Htool
