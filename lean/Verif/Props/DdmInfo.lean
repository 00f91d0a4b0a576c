import Verif.DdmInfo
import Verif.Props.HOutput
import Verif.Props.ClusterIO

/-! # C69: the information reported by the domain decomposition solver -/

namespace Htool.Info
open ClusterIO (Str intStr natStr getLines)
variable {K : Type*}

/-- The call changes the value of the key on process 0. -/
def Op.writes (k : Str) : Op → Prop
  | .get _ => False
  | .add k' _ => k' = k
  | .set k' _ => k' = k

/-- The text returned by `get_information(k)`. -/
def value (m : Map) (k : Str) : Str := (getInformation m k).1

theorem value_eq (m : Map) (k : Str) : value m k = (m.find k).getD [] := index_fst k m

/-- Effect of a call on the other keys. -/
theorem find_run [Add K] (F : Fmt K) (rank : ℕ) (k v : Str) (ops : List Op) (h : ∀ o ∈ ops, ¬ o.writes k) (m : Map) (hm : m.find k = some v) :
    (run F rank m ops).2.find k = some v := by
  induction ops generalizing m with
  | nil => exact hm
  | cons o ops ih =>
    have h' := fun o ho => h o (List.mem_cons_of_mem _ ho)
    cases o with
    | get k' =>
      refine ih h' _ ?_
      show (m.index k').2.find k = some v
      rw [index_find]
      split_ifs with e
      · rw [← e, hm]; rfl
      · exact hm
    | add k' v' =>
      have hk : k ≠ k' := fun e => h (.add k' v') (by simp) e.symm
      refine ih h' _ ?_
      unfold addInfos
      split
      · split <;> rw [find_set, if_neg hk, hm]
      · exact hm
    | set k' v' =>
      have hk : k ≠ k' := fun e => h (.set k' v') (by simp) e.symm
      refine ih h' _ ?_
      unfold setInfos
      split
      · rw [find_set, if_neg hk, hm]
      · exact hm

/-- **C69.** On process 0, `get_information` returns the last value set, whatever other keys are set, added to or read in between. -/
theorem C69_last_set [Add K] (F : Fmt K) (m : Map) (k v : Str) (ops : List Op) (h : ∀ o ∈ ops, ¬ o.writes k) :
    value (run F 0 m (.set k v :: ops)).2 k = v := by
  rw [value_eq]
  have : (run F 0 m (.set k v :: ops)).2.find k = some v := find_run F 0 k v ops h _ (by simp [setInfos, find_set])
  rw [this]; rfl

/-- The values added to the key. -/
def added (k : Str) : List Op → List Str
  | [] => []
  | .add k' v :: ops => if k' = k then v :: added k ops else added k ops
  | _ :: ops => added k ops

/-- **C69.** On process 0 a value added to a key without an entry is stored as it is, and what is added later is summed as numbers: if numbers survive the conversion to
text and back, the final value is the sum of all values added, whatever happens to other keys and whichever keys are read in between. -/
theorem C69_added_values [AddCommMonoid K] (F : Fmt K) (hF : ∀ x, F.parse (F.fmt x) = x) (m : Map) (k v : Str) (hk : m.find k = none) (ops : List Op)
    (h : ∀ o ∈ ops, ∀ v', o ≠ .set k v') :
    F.parse (value (run F 0 m (.add k v :: ops)).2 k) = F.parse v + ((added k ops).map F.parse).sum ∧
    (added k ops = [] → value (run F 0 m (.add k v :: ops)).2 k = v) := by
  have key : ∀ (ops : List Op), (∀ o ∈ ops, ∀ v', o ≠ .set k v') → ∀ (m : Map) (w : Str), m.find k = some w →
      ∃ w', (run F 0 m ops).2.find k = some w' ∧ F.parse w' = F.parse w + ((added k ops).map F.parse).sum ∧ (added k ops = [] → w' = w) := by
    intro ops
    induction ops with
    | nil => intro _ m w hw; exact ⟨w, hw, by simp [added], fun _ => rfl⟩
    | cons o ops ih =>
      intro h m w hw
      have h' := fun o ho => h o (List.mem_cons_of_mem _ ho)
      cases o with
      | get k' =>
        refine ih h' _ w ?_
        show (m.index k').2.find k = some w
        rw [index_find]
        split_ifs with e
        · rw [← e, hw]; rfl
        · exact hw
      | add k' v' =>
        by_cases e : k' = k
        · subst e
          obtain ⟨w', h1, h2, h3⟩ := ih h' (addInfos F 0 m k' v') (F.fmt (F.parse w + F.parse v')) (by
            unfold addInfos; rw [if_pos rfl, hw]; simp [find_set])
          refine ⟨w', h1, ?_, fun h0 => by simp [added] at h0⟩
          rw [h2, hF]
          simp [added, add_assoc]
        · obtain ⟨w', h1, h2, h3⟩ := ih h' (addInfos F 0 m k' v') w (by
            unfold addInfos; rw [if_pos rfl]
            split <;> rw [find_set, if_neg (Ne.symm e), hw])
          exact ⟨w', h1, by simpa [added, e] using h2, by simpa [added, e] using h3⟩
      | set k' v' =>
        have e : k ≠ k' := fun e => h (.set k' v') (by simp) v' (by rw [e])
        obtain ⟨w', h1, h2, h3⟩ := ih h' (setInfos 0 m k' v') w (by
          unfold setInfos; rw [if_pos rfl, find_set, if_neg e, hw])
        exact ⟨w', h1, by simpa [added] using h2, by simpa [added] using h3⟩
  obtain ⟨w', h1, h2, h3⟩ := key ops h (addInfos F 0 m k v) v (by unfold addInfos; rw [if_pos rfl, hk]; simp [find_set])
  rw [value_eq]
  have h1 : (run F 0 m (.add k v :: ops)).2.find k = some w' := h1
  rw [h1]
  exact ⟨h2, h3⟩

/-- **C69.** On the other processes `set_infos` and `add_infos` have no effect. -/
theorem C69_other_processes [Add K] (F : Fmt K) {rank : ℕ} (hr : rank ≠ 0) (m : Map) (ops : List Op) (k : Str) :
    value (run F rank m ops).2 k = value m k := by
  induction ops generalizing m with
  | nil => rfl
  | cons o ops ih =>
    cases o with
    | get k' =>
      show value (run F rank (m.index k').2 ops).2 k = _
      rw [ih, value_eq, value_eq, index_find]
      split_ifs with e
      · rw [e]; rfl
      · rfl
    | add k' v => show value (run F rank (addInfos F rank m k' v) ops).2 k = _; rw [ih]; unfold addInfos; rw [if_neg hr]
    | set k' v => show value (run F rank (setInfos rank m k' v) ops).2 k = _; rw [ih]; unfold setInfos; rw [if_neg hr]

/-! ## Reading is not pure -/

/-- Full statement: reading a key changes nothing for the calls which follow. -/
def C69_reading_statement (F : Fmt K) [Add K] : Prop :=
  ∀ (m : Map) (k : Str) (ops : List Op) (k' : Str), value (run F 0 m (.get k :: ops)).2 k' = value (run F 0 m ops).2 k'

/-- **C69.** Reading a key which has an entry changes nothing. -/
theorem C69_reading_partial [Add K] (F : Fmt K) (rank : ℕ) (m : Map) (k : Str) (hk : m.find k ≠ none) (ops : List Op) :
    run F rank m (.get k :: ops) = (value m k :: (run F rank m ops).1, (run F rank m ops).2) := by
  have : m.index k = (value m k, m) := by
    unfold value getInformation Map.index
    cases h : m.find k with
    | none => exact absurd h hk
    | some v => rfl
  show ((m.index k).1 :: (run F rank (m.index k).2 ops).1, (run F rank (m.index k).2 ops).2) = _
  rw [this]

/-- **C69 (negation).** Reading a key without entry inserts it with an empty value, and then a value added to the key is no longer stored as it is but summed with the
empty text, read as a number: a text which is not what the conversion of a number would print is lost. -/
theorem C69_reading_fails [Add K] (F : Fmt K) (v : Str) (hv : ∀ x, F.fmt x ≠ v) : ¬ C69_reading_statement F := by
  intro h
  have := h [] ['k'] [.add ['k'] v] ['k']
  rw [value_eq, value_eq] at this
  have h1 : (run F 0 [] [.get ['k'], .add ['k'] v]).2.find ['k'] = some (F.fmt (F.parse [] + F.parse v)) := by
    simp [run, getInformation, Map.index, addInfos, Map.find, Map.set]
  have h2 : (run F 0 [] [.add ['k'] v]).2.find ['k'] = some v := by simp [run, addInfos, Map.find, Map.set]
  rw [h1, h2] at this
  exact hv _ this

/-! ## Saving -/

/-- **C69.** Starting from an empty map, after any calls, `save_infos` on process 0 appends (or writes, if the file is truncated) one line per key, in the order of the
keys, made of the key, the separator and the value which `get_information` returns. The other processes do not touch the file. -/
theorem C69_save [Add K] (F : Fmt K) (rank : ℕ) (ops : List Op) (app : Bool) (sep file : Str)
    (hsep : '\n' ∉ sep) (hfree : ∀ e ∈ (run F 0 [] ops).2, '\n' ∉ e.1 ∧ '\n' ∉ e.2) :
    (∃ (text : Str) (keys : List Str), saveInfos 0 app sep (run F 0 [] ops).2 file = (if app then file else []) ++ text ∧
      keys.Pairwise (· < ·) ∧ (∀ k, k ∈ keys ↔ (run F 0 [] ops).2.find k ≠ none) ∧
      getLines text = keys.map fun k => k ++ sep ++ value (run F 0 [] ops).2 k) ∧
    (rank ≠ 0 → ∀ m, saveInfos rank app sep m file = file) := by
  have hs : Sorted (run F 0 [] ops).2 := Sorted.run (List.Pairwise.nil) ops
  set m := (run F 0 [] ops).2 with hm
  refine ⟨⟨saveText 0 sep m, m.map Prod.fst, by simp [saveInfos], ?_, ?_, ?_⟩, ?_⟩
  · exact List.pairwise_map.2 hs
  · intro k
    rw [List.mem_map]
    constructor
    · rintro ⟨⟨a, b⟩, he, rfl⟩ h0
      rw [(hs.mem_iff _ _).1 he] at h0
      exact absurd h0 (by simp)
    · intro h0
      obtain ⟨v, hv⟩ := Option.ne_none_iff_exists'.1 h0
      exact ⟨(k, v), (hs.mem_iff _ _).2 hv, rfl⟩
  · have e : saveText 0 sep m = ((m.map fun e => e.1 ++ sep ++ e.2).map fun l => l ++ ['\n']).flatten := by
      simp [saveText, List.map_map, Function.comp_def]
    rw [e, ClusterIO.getLines_lines, List.map_map]
    · refine List.map_congr_left fun a ha => ?_
      show _ = a.1 ++ sep ++ value m a.1
      rw [value_eq, (hs.mem_iff a.1 a.2).1 ha]
      rfl
    · intro l hl
      obtain ⟨a, ha, rfl⟩ := List.mem_map.1 hl
      simp only [List.mem_append, not_or]
      exact ⟨⟨(hfree a ha).1, hsep⟩, (hfree a ha).2⟩
  · intro hr m
    unfold saveInfos
    rw [if_neg hr]

/-! ## The report of `solve` -/

/-- Name of a preconditioner. -/
def typeName : PrecType → Str
  | .no => "None".toList
  | .ge => "RAS".toList
  | .sy => "ASM".toList

/-- The keys written by `solve`. -/
def solveKeys : List Str := ["Solve".toList, "Nb_it".toList, "Nb_subdomains".toList, "Precond".toList, "krylov_method".toList,
  "Coarse_correction".toList, "DDM_local_coarse_size_mean".toList, "DDM_local_coarse_size_max".toList, "DDM_local_coarse_size_min".toList,
  "htool_solver".toList]

/-- **C69.** `solve` changes no other information. -/
theorem C69_solve_keeps_other (fmtQ : ℚ → Str) (n : ℕ) (rep : Report) (r : ℕ) (m : Map) (k : Str) (hk : k ∉ solveKeys) :
    (solveInfos fmtQ n rep r m).find k = m.find k := by
  simp only [solveKeys, List.mem_cons, List.not_mem_nil, or_false, not_or] at hk
  obtain ⟨h1, h2, h3, h4, h5, h6, h7, h8, h9, h10⟩ := hk
  unfold solveInfos
  dsimp only
  rw [find_set, if_neg h10]
  cases hp : precName rep.method <;> cases hq : rep.krylov <;> dsimp only <;> split_ifs <;>
    simp only [find_set, index_find, h1, h2, h3, h4, h5, h6, h7, h8, h9, if_false]

/-- **C69.** After `solve`, on every process the information gives the number of iterations and of subdomains of this call; the preconditioner and the Krylov method of
this call if the code knows their names. With a preconditioner, process 0 gives the mean, largest and smallest dimension of the local coarse spaces over all processes. -/
theorem C69_solve_report (fmtQ : ℚ → Str) (n : ℕ) (rep : Report) (r : ℕ) (m : Map) :
    let m' := solveInfos fmtQ n rep r m
    m'.find "Nb_it".toList = some (intStr rep.nbIt) ∧ m'.find "Nb_subdomains".toList = some (natStr (n + 1)) ∧
    m'.find "Solve".toList = some (rep.time r) ∧ m'.find "htool_solver".toList = some "ddm".toList ∧
    (∀ s, rep.krylov = some s → m'.find "krylov_method".toList = some s) ∧
    (∀ s, precName rep.method = some s → m'.find "Precond".toList = some s) ∧
    (rep.method = .none → m'.find "Coarse_correction".toList = some "None".toList) ∧
    (rep.method = .ras ∨ rep.method = .asm → m'.find "Coarse_correction".toList = some (coarseName rep.coarse) ∧
      (r = 0 → ∃ mx mn : ℕ, m'.find "DDM_local_coarse_size_max".toList = some (natStr mx) ∧ m'.find "DDM_local_coarse_size_min".toList = some (natStr mn) ∧
        ((∀ q ≤ n, mn ≤ rep.nevi q ∧ rep.nevi q ≤ mx) ∧ (∃ q ≤ n, mx = rep.nevi q) ∧ ∃ q ≤ n, mn = rep.nevi q) ∧
        m'.find "DDM_local_coarse_size_mean".toList = some (fmtQ ((∑ q ∈ Finset.range (n + 1), (rep.nevi q : ℚ)) / (n + 1))))) := by
  intro m'
  have ne : ∀ a b : Str, (a = b) = (decide (a = b) = true) := fun a b => by simp
  have hm : m' = solveInfos fmtQ n rep r m := rfl
  have pre : ∀ s, precName rep.method = some s → m'.find "Precond".toList = some s := by
    intro s hs
    rw [hm]
    unfold solveInfos
    simp only [hs]
    cases hq : rep.krylov <;> dsimp only <;> split_ifs <;> simp [find_set, index_find]
  refine ⟨?_, ?_, ?_, ?_, ?_, pre, ?_, ?_⟩
  · rw [hm]; unfold solveInfos
    cases hp : precName rep.method <;> cases hq : rep.krylov <;> dsimp only <;> split_ifs <;> simp [find_set, index_find]
  · rw [hm]; unfold solveInfos
    cases hp : precName rep.method <;> cases hq : rep.krylov <;> dsimp only <;> split_ifs <;> simp [find_set, index_find]
  · rw [hm]; unfold solveInfos
    cases hp : precName rep.method <;> cases hq : rep.krylov <;> dsimp only <;> split_ifs <;> simp [find_set, index_find]
  · rw [hm]; unfold solveInfos; dsimp only; rw [find_set, if_pos rfl]
  · intro s hs
    rw [hm]; unfold solveInfos
    simp only [hs]
    cases hp : precName rep.method <;> dsimp only <;> split_ifs <;> simp [find_set, index_find]
  · intro h0
    rw [hm]; unfold solveInfos
    rw [h0]
    cases hq : rep.krylov <;> simp [precName, find_set, index_fst, index_find]
  · intro h0
    have hp : ∃ s, precName rep.method = some s ∧ s ≠ "None".toList := by
      rcases h0 with h0 | h0 <;> rw [h0]
      · exact ⟨"RAS".toList, rfl, by decide⟩
      · exact ⟨"ASM".toList, rfl, by decide⟩
    obtain ⟨s, hs, hne⟩ := hp
    have e : ∃ m0 : Map, m' = (((((m0.set "DDM_local_coarse_size_mean".toList (fmtQ (((if r = 0 then ∑ q ∈ Finset.range (n + 1), rep.nevi q else rep.nevi r : ℕ) : ℚ) / ((n + 1 : ℕ) : ℚ)))).set
        "DDM_local_coarse_size_max".toList (natStr (if r = 0 then redMax rep.nevi n else rep.nevi r))).set
        "DDM_local_coarse_size_min".toList (natStr (if r = 0 then redMin rep.nevi n else rep.nevi r))).set
        "Coarse_correction".toList (coarseName rep.coarse)).set "htool_solver".toList "ddm".toList) := by
      rw [hm]; unfold solveInfos
      simp only [hs]
      rw [if_neg]
      · exact ⟨_, rfl⟩
      · cases hq : rep.krylov <;> simp [index_fst, find_set, hne] <;> exact hne
    obtain ⟨m0, e⟩ := e
    refine ⟨by rw [e]; simp [find_set], fun hr => ?_⟩
    subst hr
    obtain ⟨h1, p, hp, h2⟩ := redMax_spec rep.nevi n
    obtain ⟨h3, q, hq, h4⟩ := redMin_spec rep.nevi n
    refine ⟨redMax rep.nevi n, redMin rep.nevi n, by rw [e]; simp [find_set], by rw [e]; simp [find_set],
      ⟨fun i hi => ⟨h3 i (by omega), h1 i (by omega)⟩, ⟨p, by omega, h2⟩, ⟨q, by omega, h4⟩⟩, ?_⟩
    rw [e]
    simp [find_set]

/-- **C69.** The names reported by `solve`: of the preconditioner set by the options (nothing, RAS, ASM) and of the coarse correction. -/
theorem C69_names (fmtQ : ℚ → Str) (n : ℕ) (rep : Report) (r : ℕ) (m : Map) (b : Bool) (c : String)
    (hm : rep.method = if b then .ras else .asm)
    (hc : (rep.coarse, c) ∈ [(Coarse.balanced, "Balanced"), (.deflated, "Deflated"), (.additive, "Additive"), (.other, "None")]) :
    (solveInfos fmtQ n rep r m).find "Precond".toList = some (if b then "RAS" else "ASM").toList ∧
    (solveInfos fmtQ n rep r m).find "Coarse_correction".toList = some c.toList := by
  obtain ⟨-, -, -, -, -, h6, -, h8⟩ := C69_solve_report fmtQ n rep r m
  refine ⟨h6 _ ?_, ((h8 ?_).1).trans ?_⟩
  · cases b <;> rw [hm] <;> rfl
  · cases b <;> simp at hm <;> simp [hm]
  · cases hcc : rep.coarse <;> rw [hcc] at hc <;> simp at hc <;> rw [hc] <;> rfl

/-- **C69.** `print_infos` on process 0 prints one line per key, in the order of the keys, made of the key, a tabulation and the value which `get_information` returns,
and an empty line; the other processes print nothing. -/
theorem C69_print [Add K] (F : Fmt K) (rank : ℕ) (ops : List Op) (hfree : ∀ e ∈ (run F 0 [] ops).2, '\n' ∉ e.1 ∧ '\n' ∉ e.2) :
    (∃ keys : List Str, keys.Pairwise (· < ·) ∧ (∀ k, k ∈ keys ↔ (run F 0 [] ops).2.find k ≠ none) ∧
      getLines (printText 0 (run F 0 [] ops).2) = keys.map (fun k => k ++ ['\t'] ++ value (run F 0 [] ops).2 k) ++ [[]]) ∧
    (rank ≠ 0 → ∀ m, printText rank m = []) := by
  have hs : Sorted (run F 0 [] ops).2 := Sorted.run (List.Pairwise.nil) ops
  set m := (run F 0 [] ops).2 with hm
  refine ⟨⟨m.map Prod.fst, List.pairwise_map.2 hs, ?_, ?_⟩, ?_⟩
  · intro k
    rw [List.mem_map]
    constructor
    · rintro ⟨⟨a, b⟩, he, rfl⟩ h0
      rw [(hs.mem_iff _ _).1 he] at h0
      exact absurd h0 (by simp)
    · intro h0
      obtain ⟨v, hv⟩ := Option.ne_none_iff_exists'.1 h0
      exact ⟨(k, v), (hs.mem_iff _ _).2 hv, rfl⟩
  · have e : printText 0 m = ((m.map (fun e : Str × Str => e.1 ++ ['\t'] ++ e.2) ++ [[]]).map fun l => l ++ ['\n']).flatten := by
      simp [printText, List.map_map, Function.comp_def]
    rw [e, ClusterIO.getLines_lines, List.map_map]
    · congr 1
      refine List.map_congr_left fun a ha => ?_
      show _ = a.1 ++ ['\t'] ++ value m a.1
      rw [value_eq, (hs.mem_iff a.1 a.2).1 ha]
      rfl
    · intro l hl
      rcases List.mem_append.1 hl with hl | hl
      · obtain ⟨a, ha, rfl⟩ := List.mem_map.1 hl
        simp only [List.mem_append, not_or]
        exact ⟨⟨(hfree a ha).1, by decide⟩, (hfree a ha).2⟩
      · rw [List.mem_singleton.1 hl]; simp
  · intro hr m
    unfold printText
    rw [if_neg hr]

theorem find_ite {c : Prop} [Decidable c] {a b : Map} {k : Str} {x : Option Str} (ha : a.find k = x) (hb : b.find k = x) :
    (if c then a else b).find k = x := by
  split_ifs <;> assumption

/-- **C69.** Through any sequence of calls of `solve` on a process, as soon as one of them used a method the code knows, the preconditioner reported is the one
that is set in the operator, also when later calls use other methods (which leave both as they were). -/
theorem C69_preconditioner (fmtQ : ℚ → Str) (n r : ℕ) (s : PrecType × Map) (reps : List Report) (h : ∃ rep ∈ reps, rep.method ≠ .other) :
    (solves fmtQ n r s reps).2.find "Precond".toList = some (typeName (solves fmtQ n r s reps).1) := by
  have other : ∀ (rep : Report) (m : Map) (v : Str), rep.method = .other → m.find "Precond".toList = some v →
      (solveInfos fmtQ n rep r m).find "Precond".toList = some v := by
    intro rep m v hrep hv
    unfold solveInfos
    rw [hrep]
    have hv' : m.find ['P', 'r', 'e', 'c', 'o', 'n', 'd'] = some v := hv
    cases hq : rep.krylov <;> dsimp only [precName] <;> rw [find_set, if_neg (by decide)] <;> refine find_ite ?_ ?_ <;>
      simp [find_set, index_find, hv']
  have step : ∀ (s : PrecType × Map) (rep : Report), rep.method ≠ .other →
      (solveInfos fmtQ n rep r s.2).find "Precond".toList = some (typeName (setType s.1 rep.method)) := by
    intro s rep hrep
    refine (C69_solve_report fmtQ n rep r s.2).2.2.2.2.2.1 _ ?_
    cases hm : rep.method with
    | other => exact absurd hm hrep
    | none => rfl
    | ras => rfl
    | asm => rfl
  have keep : ∀ (reps : List Report) (s : PrecType × Map), s.2.find "Precond".toList = some (typeName s.1) →
      (solves fmtQ n r s reps).2.find "Precond".toList = some (typeName (solves fmtQ n r s reps).1) := by
    intro reps
    induction reps with
    | nil => intro s hs; exact hs
    | cons rep reps ih =>
      intro s hs
      refine ih _ ?_
      by_cases hrep : rep.method = .other
      · rw [hrep]; exact other rep s.2 _ hrep hs
      · exact step s rep hrep
  induction reps generalizing s with
  | nil => obtain ⟨_, h, _⟩ := h; simp at h
  | cons rep reps ih =>
    by_cases hrep : rep.method = .other
    · refine ih _ ?_
      obtain ⟨rep', h1, h2⟩ := h
      rcases List.mem_cons.1 h1 with rfl | h1
      · exact absurd hrep h2
      · exact ⟨rep', h1, h2⟩
    · exact keep reps _ (step s rep hrep)

/-! ## Non-vacuity -/

/-- Integers printed in decimal; texts which are not integers are read as 0. -/
def exFmt : Fmt ℤ := ⟨intStr, fun s => (ClusterIO.strtol s).getD 0⟩

theorem exFmt_exact (x : ℤ) : exFmt.parse (exFmt.fmt x) = x := by
  show (ClusterIO.strtol (intStr x)).getD 0 = x
  rw [ClusterIO.strtol_intStr]; rfl

/-- Additions with other calls in between. -/
example : (run exFmt 0 [] [.add "a".toList "3".toList, .get "b".toList, .set "c".toList "x".toList, .add "a".toList "4".toList, .get "a".toList]).1 =
    ["".toList, "7".toList] := by decide +kernel

/-- The hypothesis of the negation holds for the format of integers and the text `abc`. -/
example : ¬ C69_reading_statement exFmt := C69_reading_fails exFmt "abc".toList (by
  intro x hx
  have h : 'a' ∈ exFmt.fmt x := by rw [hx]; decide
  exact ClusterIO.intStr_free (by decide) (by decide) h)

/-- A report on two processes. -/
example : (solveInfos (fun _ => "q".toList) 1 ⟨fun _ => "1.5".toList, 12, some "gmres".toList, .ras, .deflated, fun q => q + 3⟩ 0 []).find
    "DDM_local_coarse_size_max".toList = some "4".toList := by decide +kernel

end Htool.Info
