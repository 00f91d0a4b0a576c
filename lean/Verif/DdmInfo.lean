import Verif.HOutput
import Mathlib.Data.List.Lex
import Mathlib.Data.Char

/-! # The information map of the domain decomposition solver

Model of the member `infos` of `DDM` (`include/htool/solvers/ddm.hpp` 46, 119-124, 232-376) and of the conversions it uses
(`include/htool/misc/user.hpp` 13-25). -/

namespace Htool.Info
open ClusterIO (Str intStr natStr)

/-- `std::map<std::string, std::string>`: the entries in the order of iteration. -/
abbrev Map := List (Str × Str)

/-- `infos[key] = value`: the entry is replaced, or inserted at its place in the order of the keys. -/
def Map.set (k v : Str) : Map → Map
  | [] => [(k, v)]
  | (k', v') :: m => if k < k' then (k, v) :: (k', v') :: m else if k = k' then (k, v) :: m else (k', v') :: Map.set k v m

/-- `infos.find(key)`. -/
def Map.find (k : Str) : Map → Option Str
  | [] => none
  | (k', v') :: m => if k = k' then some v' else Map.find k m

/-- `infos[key]` read: an absent key is inserted with an empty value. -/
def Map.index (k : Str) (m : Map) : Str × Map :=
  match m.find k with
  | some v => (v, m)
  | none => ([], m.set k [])

/-- `NbrToStr<double>` and `StrToNbr<double>` (user.hpp 13-25), the latter giving 0 for a text which is not a number. -/
structure Fmt (K : Type*) where
  fmt : K → Str
  parse : Str → K

variable {K : Type*} [Add K]

/-- `add_infos(key, value)` (ddm.hpp 353-362) on the process `rank`. -/
def addInfos (F : Fmt K) (rank : ℕ) (m : Map) (k v : Str) : Map :=
  if rank = 0 then
    match m.find k with
    | none => m.set k v
    | some old => m.set k (F.fmt (F.parse old + F.parse v))
  else m

/-- `set_infos(key, value)` (ddm.hpp 364-368) on the process `rank`. -/
def setInfos (rank : ℕ) (m : Map) (k v : Str) : Map := if rank = 0 then m.set k v else m

/-- `get_information(key)` (ddm.hpp 370-372); `infos` is mutable. -/
def getInformation (m : Map) (k : Str) : Str × Map := m.index k

/-- Text written by `save_infos` (ddm.hpp 338-351) on the process `rank`. -/
def saveText (rank : ℕ) (sep : Str) (m : Map) : Str :=
  if rank = 0 then (m.map fun e => e.1 ++ sep ++ e.2 ++ ['\n']).flatten else []

/-- The file after `save_infos` (ddm.hpp 341-346): `app` says whether the file is opened with `std::ios_base::app`, the default, or truncated. -/
def saveInfos (rank : ℕ) (app : Bool) (sep : Str) (m : Map) (file : Str) : Str :=
  if rank = 0 then (if app then file else []) ++ saveText rank sep m else file

/-- Text written to the standard output by `print_infos` (ddm.hpp 327-336). -/
def printText (rank : ℕ) (m : Map) : Str :=
  if rank = 0 then (m.map fun e => e.1 ++ ['\t'] ++ e.2 ++ ['\n']).flatten ++ ['\n'] else []

/-- Calls of the user on one process. -/
inductive Op where
  | get (k : Str)
  | add (k v : Str)
  | set (k v : Str)

/-- Values returned by the calls to `get_information`, and the final map. -/
def run (F : Fmt K) (rank : ℕ) : Map → List Op → List Str × Map
  | m, [] => ([], m)
  | m, .get k :: ops =>
    let r := getInformation m k
    let q := run F rank r.2 ops
    (r.1 :: q.1, q.2)
  | m, .add k v :: ops => run F rank (addInfos F rank m k v) ops
  | m, .set k v :: ops => run F rank (setInfos rank m k v) ops

/-! ## The report of `solve` -/

/-- Values of the option `schwarz_method` distinguished by the code. -/
inductive Schwarz where
  | none | ras | asm | other
  deriving DecidableEq

/-- Preconditioner of HPDDM chosen by `setType`. -/
inductive PrecType where
  | no | ge | sy
  deriving DecidableEq

/-- The switch at the beginning of `solve` (ddm.hpp 135-153): the other methods leave the type as it was. -/
def setType (old : PrecType) : Schwarz → PrecType
  | .none => .no
  | .ras => .ge
  | .asm => .sy
  | .other => old

/-- Names written in `infos["Precond"]` (ddm.hpp 238-257). -/
def precName : Schwarz → Option Str
  | .none => some "None".toList
  | .ras => some "RAS".toList
  | .asm => some "ASM".toList
  | .other => Option.none

/-- Values of the option `schwarz_coarse_correction` distinguished by the code. -/
inductive Coarse where
  | balanced | deflated | additive | other
  deriving DecidableEq

/-- Names written in `infos["Coarse_correction"]` (ddm.hpp 310-322). -/
def coarseName : Coarse → Str
  | .balanced => "Balanced".toList
  | .deflated => "Deflated".toList
  | .additive => "Additive".toList
  | .other => "None".toList

/-- What one call of `solve` reports. -/
structure Report where
  /-- `NbrToStr(time)` on each process -/
  time : ℕ → Str
  nbIt : ℤ
  /-- name of the Krylov method (ddm.hpp 259-287), `none` for a value without a case -/
  krylov : Option Str
  method : Schwarz
  coarse : Coarse
  /-- size of the local coarse space on each process -/
  nevi : ℕ → ℕ

/-- The end of `solve` (ddm.hpp 231-325) on the process `r` among the processes `0..n`. `fmtQ` is `NbrToStr<double>`. On the other processes the receive buffers of
`MPI_Reduce` keep the value of the process. -/
def solveInfos (fmtQ : ℚ → Str) (n : ℕ) (rep : Report) (r : ℕ) (m : Map) : Map :=
  let m := m.set "Solve".toList (rep.time r)
  let m := m.set "Nb_it".toList (intStr rep.nbIt)
  let m := m.set "Nb_subdomains".toList (natStr (n + 1))
  let m := match precName rep.method with
    | some s => m.set "Precond".toList s
    | none => m
  let m := match rep.krylov with
    | some s => m.set "krylov_method".toList s
    | none => m
  let p := m.index "Precond".toList
  let m := p.2
  let m :=
    if p.1 = "None".toList then m.set "Coarse_correction".toList "None".toList
    else
      let sum : ℕ := if r = 0 then ∑ q ∈ Finset.range (n + 1), rep.nevi q else rep.nevi r
      let mx := if r = 0 then redMax rep.nevi n else rep.nevi r
      let mn := if r = 0 then redMin rep.nevi n else rep.nevi r
      let m := m.set "DDM_local_coarse_size_mean".toList (fmtQ ((sum : ℚ) / ((n + 1 : ℕ) : ℚ)))
      let m := m.set "DDM_local_coarse_size_max".toList (natStr mx)
      let m := m.set "DDM_local_coarse_size_min".toList (natStr mn)
      m.set "Coarse_correction".toList (coarseName rep.coarse)
  m.set "htool_solver".toList "ddm".toList

/-- Type of the preconditioner and information map on one process through several calls of `solve`. -/
def solves (fmtQ : ℚ → Str) (n r : ℕ) : PrecType × Map → List Report → PrecType × Map
  | s, [] => s
  | s, rep :: reps => solves fmtQ n r (setType s.1 rep.method, solveInfos fmtQ n rep r s.2) reps

/-! ## Lemmas -/

theorem find_set (k v k' : Str) (m : Map) : (m.set k v).find k' = if k' = k then some v else m.find k' := by
  induction m with
  | nil => simp [Map.set, Map.find]
  | cons e m ih =>
    obtain ⟨a, b⟩ := e
    unfold Map.set
    by_cases h1 : k < a
    · rw [if_pos h1]
      simp only [Map.find]
    · rw [if_neg h1]
      by_cases h2 : k = a
      · subst h2
        rw [if_pos rfl]
        simp only [Map.find]
        split_ifs <;> rfl
      · rw [if_neg h2]
        simp only [Map.find]
        by_cases h3 : k' = a
        · rw [if_pos h3, if_pos h3, if_neg (fun e => h2 (e.symm.trans h3))]
        · rw [if_neg h3, if_neg h3, ih]

/-- Reading returns the value, or the empty text. -/
theorem index_fst (k : Str) (m : Map) : (m.index k).1 = (m.find k).getD [] := by
  unfold Map.index
  cases m.find k <;> rfl

/-- Reading inserts the key. -/
theorem index_find (k k' : Str) (m : Map) : (m.index k).2.find k' = if k' = k then some ((m.find k).getD []) else m.find k' := by
  unfold Map.index
  cases h : m.find k with
  | none => simp only [find_set, Option.getD_none]
  | some v =>
    simp only [Option.getD_some]
    split_ifs with e
    · rw [e, h]
    · rfl

/-- The entries are in the order of the keys, each key once. -/
def Sorted (m : Map) : Prop := m.Pairwise fun a b => a.1 < b.1

theorem mem_set {k v : Str} {m : Map} {e : Str × Str} (h : e ∈ m.set k v) : e = (k, v) ∨ e ∈ m := by
  induction m with
  | nil => simpa [Map.set] using h
  | cons a m ih =>
    obtain ⟨a, b⟩ := a
    unfold Map.set at h
    split_ifs at h with h1 h2
    · simpa using h
    · rcases List.mem_cons.1 h with h | h
      · exact Or.inl h
      · exact Or.inr (by simp [h])
    · rcases List.mem_cons.1 h with h | h
      · exact Or.inr (by simp [h])
      · rcases ih h with h | h
        · exact Or.inl h
        · exact Or.inr (by simp [h])

theorem Sorted.set {m : Map} (h : Sorted m) (k v : Str) : Sorted (m.set k v) := by
  unfold Sorted at *
  induction m with
  | nil => simp [Map.set]
  | cons a m ih =>
    obtain ⟨a, b⟩ := a
    rw [List.pairwise_cons] at h
    unfold Map.set
    split_ifs with h1 h2
    · rw [List.pairwise_cons]
      refine ⟨?_, List.pairwise_cons.2 h⟩
      intro e he
      rcases List.mem_cons.1 he with rfl | he
      · exact h1
      · exact h1.trans (h.1 e he)
    · subst h2
      exact List.pairwise_cons.2 h
    · rw [List.pairwise_cons]
      refine ⟨?_, ih h.2⟩
      intro e he
      rcases mem_set he with rfl | he
      · exact lt_of_le_of_ne (not_lt.1 h1) (Ne.symm h2)
      · exact h.1 e he

/-- Membership in terms of `find`. -/
theorem Sorted.mem_iff {m : Map} (h : Sorted m) (k v : Str) : (k, v) ∈ m ↔ m.find k = some v := by
  unfold Sorted at h
  induction m with
  | nil => simp [Map.find]
  | cons a m ih =>
    obtain ⟨a, b⟩ := a
    rw [List.pairwise_cons] at h
    simp only [Map.find, List.mem_cons, Prod.mk.injEq]
    by_cases e : k = a
    · subst e
      rw [if_pos rfl]
      constructor
      · rintro (h1 | h1)
        · rw [h1.2]
        · exact absurd (h.1 _ h1) (lt_irrefl _)
      · intro h1
        left
        exact ⟨rfl, (Option.some.inj h1).symm⟩
    · rw [if_neg e, ← ih h.2]
      constructor
      · rintro (h1 | h1)
        · exact absurd h1.1 e
        · exact h1
      · exact Or.inr

theorem Sorted.index {m : Map} (h : Sorted m) (k : Str) : Sorted (m.index k).2 := by
  unfold Map.index
  split
  · exact h
  · exact h.set _ _

theorem Sorted.add {m : Map} (h : Sorted m) (F : Fmt K) (rank : ℕ) (k v : Str) : Sorted (addInfos F rank m k v) := by
  unfold addInfos
  split
  · split <;> exact h.set _ _
  · exact h

theorem Sorted.run {F : Fmt K} {rank : ℕ} {m : Map} (h : Sorted m) (ops : List Op) : Sorted (run F rank m ops).2 := by
  induction ops generalizing m with
  | nil => exact h
  | cons o ops ih =>
    cases o with
    | get k => exact ih (h.index k)
    | add k v => exact ih (h.add F rank k v)
    | set k v =>
      refine ih ?_
      unfold setInfos
      split
      · exact h.set _ _
      · exact h

end Htool.Info
