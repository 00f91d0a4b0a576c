import Verif.TreeParams
import Verif.Props.TreeData
import Verif.Props.Report
import Verif.Props.Cluster

/-! # C80: the parameters reported for a block tree -/

namespace Htool.TreeParams
open ClusterIO (Str natStr)
open Info (Map Sorted)
open Report (setAll padRight printReport readReport GoodKey find_setAll_mem find_setAll_not setAll_sorted C73_print_round_trip)

/-- The names, in the order of the map. -/
def names : List Str := ["Epsilon".toList, "Eta".toList, "MaxClusterDepthSource".toList, "MaxClusterDepthTarget".toList, "MinClusterDepthSource".toList,
  "MinClusterDepthTarget".toList, "MinClusterSizeSource".toList, "MinClusterSizeTarget".toList, "MinSourceDepth".toList, "MinTargetDepth".toList]

theorem treeParameters_eq (fmtQ : ℚ → Str) (p : Params) (t s : ClusterParams) : treeParameters fmtQ p t s =
    [("Epsilon".toList, fmtQ p.epsilon), ("Eta".toList, fmtQ p.eta), ("MaxClusterDepthSource".toList, natStr s.maxDepth),
     ("MaxClusterDepthTarget".toList, natStr t.maxDepth), ("MinClusterDepthSource".toList, natStr s.minDepth), ("MinClusterDepthTarget".toList, natStr t.minDepth),
     ("MinClusterSizeSource".toList, natStr s.minclustersize), ("MinClusterSizeTarget".toList, natStr t.minclustersize), ("MinSourceDepth".toList, natStr p.mins),
     ("MinTargetDepth".toList, natStr p.mint)] := rfl

/-- The ten texts found under the ten names. -/
structure Found (m : Map) (epsilon eta mint mins sizeT maxT minT sizeS maxS minS : Str) : Prop where
  epsilon : m.find "Epsilon".toList = some epsilon
  eta : m.find "Eta".toList = some eta
  mint : m.find "MinTargetDepth".toList = some mint
  mins : m.find "MinSourceDepth".toList = some mins
  sizeT : m.find "MinClusterSizeTarget".toList = some sizeT
  maxT : m.find "MaxClusterDepthTarget".toList = some maxT
  minT : m.find "MinClusterDepthTarget".toList = some minT
  sizeS : m.find "MinClusterSizeSource".toList = some sizeS
  maxS : m.find "MaxClusterDepthSource".toList = some maxS
  minS : m.find "MinClusterDepthSource".toList = some minS
  others : m.map Prod.fst = names

theorem found (fmtQ : ℚ → Str) (p : Params) (t s : ClusterParams) : Found (treeParameters fmtQ p t s) (fmtQ p.epsilon) (fmtQ p.eta) (natStr p.mint) (natStr p.mins)
    (natStr t.minclustersize) (natStr t.maxDepth) (natStr t.minDepth) (natStr s.minclustersize) (natStr s.maxDepth) (natStr s.minDepth) := by
  constructor <;> rfl

theorem toUint_of {z : ℤ} (h0 : 0 ≤ z) (h1 : z < 2 ^ 32) : ClusterIO.intStr z = natStr (toUint z) := by
  obtain ⟨n, rfl⟩ := Int.eq_ofNat_of_zero_le h0
  have : toUint (n : ℤ) = n := by
    have h2 : n < uintMod := by unfold uintMod; exact_mod_cast h1
    unfold toUint
    rw [← Int.natCast_mod, Nat.mod_eq_of_lt h2, Int.toNat_natCast]
  rw [this]; rfl

/-- The depths of the leaves of a cluster tree. -/
def leafDepths {G : Type*} (t : Tree (CNode G)) : Set ℕ := {d | ∃ l ∈ t.leaves, l.label.depth = d}

/-- **C80.** Right after the construction of an H-matrix (whatever was done before in the program), `get_tree_parameters` called on any of its blocks gives: the
tolerance, the parameter of the admissibility condition and the minimal depths given to the builder, and the smallest and largest depths of the leaves of the two
cluster trees; and nothing else. Missing: the minimal leaf sizes are always given as 10 (`C80_minclustersize_false`). -/
theorem C80_parameters_partial {N D G : Type*} {s : TreeData.St N Params} (hs : TreeData.Reached s) (fmtQ : ℚ → Str) (i : ℕ) (T : Tree N) (B : Settings)
    (hT : 0 ≤ B.mint ∧ B.mint < 2 ^ 32) (hS : 0 ≤ B.mins ∧ B.mins < 2 ^ 32)
    {S1 S2 : Strategies D G} {flog : ℕ → ℕ → ℕ} {f1 f2 n1 n2 nc1 nc2 m1 m2 : ℕ} {a1 a2 : PartArg} {t1 t2 : Tree (CNode G)} {c1 c2 : CState G}
    (h1 : createClusterTree S1 flog f1 n1 nc1 a1 = some (t1, c1)) (h2 : createClusterTree S2 flog f2 n2 nc2 a2 = some (t2, c2))
    (r1 : ∀ l ∈ t1.leaves, 0 ≤ l.label.rank ∧ l.label.depth ≤ uintMax) (r2 : ∀ l ∈ t2.leaves, 0 ≤ l.label.rank ∧ l.label.depth ≤ uintMax) :
    ∃ s', TreeData.run s (.build i T Params.initial :: setters i B) = .ok s' ∧ ∀ k < T.pre.length, ∃ p, TreeData.read s' i k = some p ∧
      ∃ x1 y1 x2 y2, IsGreatest (leafDepths t1) x1 ∧ IsLeast (leafDepths t1) y1 ∧ IsGreatest (leafDepths t2) x2 ∧ IsLeast (leafDepths t2) y2 ∧
        Found (treeParameters fmtQ p (clusterParams m1 c1) (clusterParams m2 c2)) (fmtQ B.epsilon) (fmtQ B.eta) (ClusterIO.intStr B.mint) (ClusterIO.intStr B.mins)
          "10".toList (natStr x1) (natStr y1) "10".toList (natStr x2) (natStr y2) := by
  have hT0 : 0 < T.pre.length := by
    cases T; simp [Tree.pre]
  obtain ⟨s', e1, e2⟩ := TreeData.C75_setters hs i T Params.initial [(0, fun p => { p with eta := B.eta }), (0, fun p => { p with epsilon := B.epsilon }),
    (0, fun p => { p with mint := toUint B.mint }), (0, fun p => { p with mins := toUint B.mins })] (by
      intro p hp
      simp only [List.mem_cons, List.not_mem_nil, or_false] at hp
      rcases hp with rfl | rfl | rfl | rfl <;> exact hT0)
  refine ⟨s', e1, fun k hk => ⟨_, e2 k hk, ?_⟩⟩
  obtain ⟨⟨g1, g2⟩, g3, g4⟩ := C07_recorded_depths h1 (fun l hl => (r1 l hl).1) (fun l hl => (r1 l hl).2)
  obtain ⟨⟨k1, k2⟩, k3, k4⟩ := C07_recorded_depths h2 (fun l hl => (r2 l hl).1) (fun l hl => (r2 l hl).2)
  refine ⟨c1.maxDepth, c1.minDepth, c2.maxDepth, c2.minDepth, ⟨g1, ?_⟩, ⟨g3, ?_⟩, ⟨k1, ?_⟩, ⟨k3, ?_⟩, ?_⟩
  · rintro _ ⟨l, hl, rfl⟩; exact g2 l hl
  · rintro _ ⟨l, hl, rfl⟩; exact g4 l hl
  · rintro _ ⟨l, hl, rfl⟩; exact k2 l hl
  · rintro _ ⟨l, hl, rfl⟩; exact k4 l hl
  · rw [toUint_of hT.1 hT.2, toUint_of hS.1 hS.2]
    exact found fmtQ _ _ _

/-- **C80, violated.** The minimal leaf size reported is not the one given to `ClusterTreeBuilder`, except if this is 10. -/
theorem C80_minclustersize_false {G : Type*} (fmtQ : ℚ → Str) (p : Params) (st : CState G) (s : ClusterParams) (setting : ℕ) :
    (treeParameters fmtQ p (clusterParams setting st) s).find "MinClusterSizeTarget".toList = some (natStr setting) ↔ setting = 10 := by
  rw [(found fmtQ p (clusterParams setting st) s).sizeT]
  constructor
  · intro h
    have h1 := congrArg ClusterIO.strtol (Option.some.inj h)
    rw [ClusterIO.strtol_natStr, ClusterIO.strtol_natStr] at h1
    have h2 : ((10 : ℕ) : ℤ) = setting := Option.some.inj h1
    exact_mod_cast h2.symm
  · rintro rfl; rfl

/-- **C80 (printed text).** The names are padded to one width, which is the length of the longest name and two more, and an empty line ends the text; without it the
text can be read back. -/
theorem C80_print_round_trip (fmtQ : ℚ → Str) (hf : ∀ q, '\n' ∉ fmtQ q) (p : Params) (t s : ClusterParams) :
    printTreeParameters (treeParameters fmtQ p t s) = printReport "Block tree parameters".toList (treeParameters fmtQ p t s) ++ ['\n'] ∧
    readReport (printTreeParameters (treeParameters fmtQ p t s)).dropLast = treeParameters fmtQ p t s := by
  have e : printTreeParameters (treeParameters fmtQ p t s) = printReport "Block tree parameters".toList (treeParameters fmtQ p t s) ++ ['\n'] := by
    have hw : Report.outputSize (treeParameters fmtQ p t s) = 23 := rfl
    unfold printTreeParameters printReport
    rw [hw]
    rfl
  refine ⟨e, ?_⟩
  rw [e, List.dropLast_concat]
  have hg : ∀ k ∈ names, GoodKey k ∧ '\n' ∉ k := by decide
  refine C73_print_round_trip _ _ (by decide) (fun x hx => ?_) (fun x hx => ⟨?_, ?_⟩)
  · exact (hg x.1 (by rw [← (found fmtQ p t s).others]; exact List.mem_map_of_mem hx)).1
  · exact (hg x.1 (by rw [← (found fmtQ p t s).others]; exact List.mem_map_of_mem hx)).2
  · rw [treeParameters_eq] at hx
    simp only [List.mem_cons, List.not_mem_nil, or_false] at hx
    rcases hx with rfl | rfl | rfl | rfl | rfl | rfl | rfl | rfl | rfl | rfl <;> first | exact hf _ | exact ClusterIO.natStr_free (by decide)

/-! ### Non-vacuity -/

/-- A build whose leaves all have ranks and small depths, and its recorded depths. -/
def goodBuild (r : Option (Tree (CNode (List ℕ)) × CState (List ℕ))) (mx mn : ℕ) : Bool :=
  match r with
  | none => false
  | some (t, c) => t.leaves.all (fun l => decide (0 ≤ l.label.rank) && decide (l.label.depth ≤ uintMax)) && decide (c.maxDepth = mx) && decide (c.minDepth = mn)

theorem goodBuild_spec {r : Option (Tree (CNode (List ℕ)) × CState (List ℕ))} {mx mn : ℕ} (h : goodBuild r mx mn = true) :
    ∃ t c, r = some (t, c) ∧ (∀ l ∈ t.leaves, 0 ≤ l.label.rank ∧ l.label.depth ≤ uintMax) ∧ c.maxDepth = mx ∧ c.minDepth = mn := by
  cases r with
  | none => exact absurd h (by simp [goodBuild])
  | some r =>
    obtain ⟨t, c⟩ := r
    simp only [goodBuild, Bool.and_eq_true, List.all_eq_true, decide_eq_true_eq] at h
    exact ⟨t, c, rfl, fun l hl => h.1.1 l hl, h.1.2, h.2⟩

/-- The hypotheses are met: a target tree of 10 points whose leaves have depths 1 to 3, a source tree of 23 points, an H-matrix of 4 blocks, negative depths
excluded. -/
example : ∃ s' : TreeData.St ℕ Params, TreeData.run (TreeData.init Params.initial) (.build 0 TreeData.exBlocks Params.initial :: setters 0 ⟨1 / 8, 3, 1, 2⟩) = .ok s' ∧
    ∃ t1 c1 t2 c2, createClusterTree exStrategies Nat.log 20 10 2 (.given [(0, 3), (3, 0), (3, 7)]) = some (t1, c1) ∧
      createClusterTree exStrategies Nat.log 26 23 2 (.auto 5) = some (t2, c2) ∧ ∃ p, TreeData.read s' 0 3 = some p ∧
      Found (treeParameters (fun q => if q = 1 / 8 then "1/8".toList else "3".toList) p (clusterParams 4 c1) (clusterParams 10 c2)) "1/8".toList "3".toList "1".toList "2".toList
        "10".toList "3".toList "1".toList "10".toList "3".toList "3".toList := by
  obtain ⟨t1, c1, h1, r1, d1, e1⟩ := goodBuild_spec (r := createClusterTree exStrategies Nat.log 20 10 2 (.given [(0, 3), (3, 0), (3, 7)])) (mx := 3) (mn := 1)
    (by decide +kernel)
  obtain ⟨t2, c2, h2, r2, d2, e2⟩ := goodBuild_spec (r := createClusterTree exStrategies Nat.log 26 23 2 (.auto 5)) (mx := 3) (mn := 3) (by decide +kernel)
  obtain ⟨s', a1, a2⟩ := C80_parameters_partial (s := TreeData.init (N := ℕ) Params.initial) ⟨Params.initial, [], rfl⟩ (fun q => if q = 1 / 8 then "1/8".toList else "3".toList) 0
    TreeData.exBlocks ⟨1 / 8, 3, 1, 2⟩ (by decide) (by decide) (m1 := 4) (m2 := 10) h1 h2 r1 r2
  refine ⟨s', a1, t1, c1, t2, c2, h1, h2, ?_⟩
  obtain ⟨p, b1, x1, y1, x2, y2, -, -, -, -, b2⟩ := a2 3 (by decide)
  refine ⟨p, b1, ?_⟩
  have q := found (fun q => if q = 1 / 8 then "1/8".toList else "3".toList) p (clusterParams 4 c1) (clusterParams 10 c2)
  have w1 : natStr x1 = natStr c1.maxDepth := Option.some.inj (b2.maxT.symm.trans q.maxT)
  have w2 : natStr y1 = natStr c1.minDepth := Option.some.inj (b2.minT.symm.trans q.minT)
  have w3 : natStr x2 = natStr c2.maxDepth := Option.some.inj (b2.maxS.symm.trans q.maxS)
  have w4 : natStr y2 = natStr c2.minDepth := Option.some.inj (b2.minS.symm.trans q.minS)
  rw [w1, w2, w3, w4, d1, e1, d2, e2] at b2
  have v : (if (1 / 8 : ℚ) = 1 / 8 then "1/8".toList else "3".toList) = "1/8".toList ∧ (if (3 : ℚ) = 1 / 8 then "1/8".toList else "3".toList) = "3".toList ∧
      ClusterIO.intStr 1 = "1".toList ∧ ClusterIO.intStr 2 = "2".toList ∧ natStr 3 = "3".toList ∧ natStr 1 = "1".toList := by decide +kernel
  obtain ⟨v1, v2, v3, v4, v5, v6⟩ := v
  simp only [v1, v2, v3, v4, v5, v6] at b2
  exact b2

/-- The printed text. -/
example : printTreeParameters (treeParameters (fun q => (if q = 1 then "1." else "2.").toList) ⟨1, 10, 0, 2⟩ ⟨10, 3, 2⟩ ⟨10, 4, 2⟩) =
    ("Block tree parameters\nEpsilon________________1.\nEta____________________2.\nMaxClusterDepthSource__4\nMaxClusterDepthTarget__3\n" ++
     "MinClusterDepthSource__2\nMinClusterDepthTarget__2\nMinClusterSizeSource___10\nMinClusterSizeTarget___10\nMinSourceDepth_________2\n" ++
     "MinTargetDepth_________0\n\n").toList := by decide +kernel

end Htool.TreeParams
