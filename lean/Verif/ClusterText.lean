import Verif.HOutput

/-! # Printing a cluster tree and saving the clustered geometry

Model of `print` and `save_clustered_geometry` (`include/htool/clustering/cluster_output.hpp` 19-30, 188-234). -/

namespace Htool
open ClusterIO
variable {G : Type*}

/-- `print(cluster)` (cluster_output.hpp 20-30): the text written to the standard output; `'\x08'` is the character `\b`. -/
def printClusters (perm : List ℕ) (t : CTree G) : Str :=
  (t.preorderTraversal.map fun c =>
    '[' :: ((slice perm c.label.offset c.label.size).map fun i => natStr i ++ [',']).flatten ++ ['\x08', ']', '\n']).flatten

/-- `outputs` and `counters` (cluster_output.hpp 193-197). -/
structure GeomAcc where
  outputs : ℕ → ℕ → ℕ
  counters : ℕ → ℕ

/-- The visitor (cluster_output.hpp 213-221). The depths are `int`; negative ones, which no cluster has, are not considered. -/
def geomStep (depths : List ℕ) (acc : GeomAcc) (c : CTree G) : GeomAcc :=
  let k := findDepth depths c.label.depth
  if k < depths.length then
    { outputs := Function.update acc.outputs k fun i =>
        if c.label.offset ≤ i ∧ i < c.label.offset + c.label.size then acc.counters k else acc.outputs k i
      counters := Function.update acc.counters k (acc.counters k + 1) }
  else acc

/-- `outputs` after the traversal (cluster_output.hpp 193-221); `resize` fills with 0 (196). -/
def geomLabels (t : CTree G) (depths : List ℕ) : ℕ → ℕ → ℕ :=
  (t.preorderTraversal.foldl (geomStep depths) ⟨fun _ _ => 0, fun _ => 0⟩).outputs

/-- `save_clustered_geometry` (cluster_output.hpp 188-234): the contents of the file. `fmt` is `operator<<` of a coordinate, `x` the array of coordinates. -/
def geomFile {K : Type*} (fmt : K → Str) (perm : List ℕ) (dim : ℕ) (x : ℕ → K) (t : CTree G) (depths : List ℕ) : Str :=
  ((List.range dim).map fun d =>
    "x_".toList ++ natStr d ++ [','] ++ commas (perm.map fun i => fmt (x (dim * i + d))) ++ ['\n']).flatten ++
  ((List.range depths.length).map fun p =>
    natStr (depths.getD p 0) ++ [','] ++ commas ((List.range perm.length).map fun i => natStr (geomLabels t depths p i)) ++ ['\n']).flatten

/-! ## Lemmas -/

/-- In the order of the traversal, clusters of equal depth come from left to right. -/
theorem pre_pairwise {t : CTree G} (h : HierTiles t) (hd : DepthOK t) :
    t.pre.Pairwise (fun a b => a.label.depth = b.label.depth → a.label.offset + a.label.size ≤ b.label.offset) := by
  induction t using Tree.ind with
  | h a cs ih =>
    rw [Tree.pre_node, List.pairwise_cons]
    refine ⟨?_, ?_⟩
    · intro b hb e
      exfalso
      obtain ⟨u, hu, hb⟩ := List.mem_flatMap.1 hb
      have h1 : u.label.depth = a.depth + 1 := hd _ (Tree.mem_pre_self _) u hu
      have e : a.depth = b.label.depth := e
      rcases (hd.child hu).le b hb with rfl | h2 <;> omega
    · cases hcs : cs with
      | nil => simp
      | cons c0 cs0 =>
        rw [← hcs]
        have hch : ∀ u ∈ cs, HierTiles u ∧ DepthOK u := fun u hu => ⟨h.child hu, hd.child hu⟩
        have ht : (cs.map fun u => u.label.iv).Pairwise (fun x y => x.1 + x.2 ≤ y.1) :=
          (h _ (Tree.mem_pre_self _) (by simp [hcs])).pairwise
        clear hcs h hd
        induction cs with
        | nil => simp
        | cons u cs ihc =>
          rw [List.map_cons, List.pairwise_cons] at ht
          rw [List.flatMap_cons, List.pairwise_append]
          refine ⟨ih u (by simp) (hch u (by simp)).1 (hch u (by simp)).2,
            ihc (fun v hv => ih v (by simp [hv])) (fun v hv => hch v (by simp [hv])) ht.2, ?_⟩
          intro x hx y hy _
          obtain ⟨v, hv, hy⟩ := List.mem_flatMap.1 hy
          have h1 := (hch u (by simp)).1.contained x hx
          have h2 := (hch v (by simp [hv])).1.contained y hy
          have h3 : u.label.offset + u.label.size ≤ v.label.offset := ht.1 _ (List.mem_map_of_mem (f := fun u : CTree G => u.label.iv) hv)
          omega

/-- Effect of the traversal on one row, for any list of clusters. -/
theorem geom_fold {depths : List ℕ} {p : ℕ} (hp : p < depths.length) (l : List (CTree G)) (acc : GeomAcc) :
    (l.foldl (geomStep depths) acc).counters p =
      acc.counters p + (l.filter fun s => decide (findDepth depths s.label.depth = p)).length ∧
    ∀ i, (l.foldl (geomStep depths) acc).outputs p i =
      ((l.filter fun s => decide (findDepth depths s.label.depth = p)).foldl
        (fun (q : ℕ × ℕ) s => (if s.label.offset ≤ i ∧ i < s.label.offset + s.label.size then q.2 else q.1, q.2 + 1))
        (acc.outputs p i, acc.counters p)).1 := by
  induction l generalizing acc with
  | nil => simp
  | cons s l ih =>
    rw [List.foldl_cons]
    obtain ⟨h1, h2⟩ := ih (geomStep depths acc s)
    by_cases e : findDepth depths s.label.depth = p
    · have c : (geomStep depths acc s).counters p = acc.counters p + 1 := by
        unfold geomStep; simp only [e, if_pos hp, Function.update_self]
      have o : ∀ i, (geomStep depths acc s).outputs p i =
          if s.label.offset ≤ i ∧ i < s.label.offset + s.label.size then acc.counters p else acc.outputs p i := by
        intro i; unfold geomStep; simp only [e, if_pos hp, Function.update_self]
      refine ⟨?_, fun i => ?_⟩
      · rw [h1, c, List.filter_cons_of_pos (by simpa using e), List.length_cons]; omega
      · rw [h2, c, o, List.filter_cons_of_pos (by simpa using e), List.foldl_cons]
    · have c : (geomStep depths acc s).counters p = acc.counters p := by
        unfold geomStep
        dsimp only
        split_ifs
        · exact Function.update_of_ne (Ne.symm e) _ _
        · rfl
      have o : ∀ i, (geomStep depths acc s).outputs p i = acc.outputs p i := by
        intro i
        unfold geomStep
        dsimp only
        split_ifs
        · simp only [Function.update_of_ne (Ne.symm e)]
        · rfl
      refine ⟨?_, fun i => ?_⟩
      · rw [h1, c, List.filter_cons_of_neg (by simpa using e)]
      · rw [h2, c, o, List.filter_cons_of_neg (by simpa using e)]

/-- The label loop on clusters which do not contain the position. -/
theorem label_fold_out (i : ℕ) (l : List (CTree G)) (q : ℕ × ℕ)
    (h : ∀ s ∈ l, ¬ (s.label.offset ≤ i ∧ i < s.label.offset + s.label.size)) :
    l.foldl (fun (q : ℕ × ℕ) s => (if s.label.offset ≤ i ∧ i < s.label.offset + s.label.size then q.2 else q.1, q.2 + 1)) q = (q.1, q.2 + l.length) := by
  induction l generalizing q with
  | nil => rfl
  | cons s l ih =>
    rw [List.foldl_cons, ih _ (fun s hs => h s (by simp [hs])), if_neg (h s (by simp))]
    simp only [List.length_cons]
    congr 1; omega

/-- The label loop on disjoint clusters from left to right: the number of clusters before the position. -/
theorem label_fold_in (i : ℕ) (l : List (CTree G)) (q : ℕ × ℕ)
    (hl : l.Pairwise fun a b => a.label.offset + a.label.size ≤ b.label.offset) {s : CTree G} (hs : s ∈ l)
    (h : s.label.offset ≤ i ∧ i < s.label.offset + s.label.size) :
    (l.foldl (fun (q : ℕ × ℕ) s => (if s.label.offset ≤ i ∧ i < s.label.offset + s.label.size then q.2 else q.1, q.2 + 1)) q).1 =
      q.2 + (l.filter fun a => decide (a.label.offset + a.label.size ≤ i)).length := by
  induction l generalizing q with
  | nil => simp at hs
  | cons a l ih =>
    rw [List.pairwise_cons] at hl
    rw [List.foldl_cons]
    rcases List.mem_cons.1 hs with rfl | hs
    · have hout : ∀ b ∈ l, ¬ (b.label.offset ≤ i ∧ i < b.label.offset + b.label.size) := by
        intro b hb hc
        have := hl.1 b hb
        omega
      rw [label_fold_out i l _ hout, if_pos h, List.filter_cons_of_neg (by simpa using h.2)]
      rw [List.filter_eq_nil_iff.2]
      · rfl
      · intro b hb
        have := hl.1 b hb
        simp
        omega
    · have h1 := hl.1 s hs
      rw [ih _ hl.2 hs, List.filter_cons_of_pos (by simp; omega)]
      simp only [List.length_cons]
      omega

end Htool
