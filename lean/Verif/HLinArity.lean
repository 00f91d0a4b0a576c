import Verif.HLinChol3
import Verif.Props.HLinProd

/-! # How many clusters the loops of the factorizations run on -/

namespace Htool
variable {D G : Type*}

/-- Below the partition every cluster which is divided has `number_of_children` children. -/
theorem create_arity {S : Strategies D G} (hS : S.OK) {flog} (hf : FlogOK flog) {fuel n nc : ℕ} (hnc : 2 ≤ nc) {arg : PartArg} (ha : arg.ok n)
    {t : CTree G} {st : CState G} (h : createClusterTree S flog fuel n nc arg = some (t, st)) :
    ∀ x ∈ t.pre, 0 ≤ x.rk → x.children ≠ [] → x.children.length = nc := by
  intro x hx hr hne
  cases arg with
  | auto sp =>
    have hE := simpleEnv_ok hS hf hnc ha
    obtain ⟨hl, hN⟩ := build_nodes hE h
    have hdep := (create_shape hS hf hnc ha h).2.2.1
    have h1 := (hN x hx hne).1
    have hpos := hE.dp
    have h2 := hN.ranks rfl (Or.inl ⟨by rw [hdep]; omega, by rw [hl]; rfl⟩) x hx
    rw [h1]
    unfold CEnv.kids
    rw [if_neg]
    · rfl
    · unfold CEnv.lvl
      rw [Bool.and_eq_true, decide_eq_true_eq]
      rintro ⟨-, h3⟩
      unfold Tree.rk at hr
      omega
  | given partition =>
    obtain ⟨ts, rfl, hb⟩ := createGiven_inv h
    rcases Tree.mem_pre.1 hx with rfl | ⟨u, hu, hx⟩
    · exact absurd hr (by simp [Tree.rk, rootNode, Tree.label])
    · have := (createGiven_nodes hS hnc hb u hu x hx hne).1
      rw [this]
      rfl

/-- The partition asked for has at most two clusters. -/
def PartArg.atMostTwo : PartArg → Prop
  | .auto sp => sp ≤ 2
  | .given partition => partition.length ≤ 2

/-- Number of clusters of the partition. -/
theorem Built.parts_length {S : Strategies D G} {flog : ℕ → ℕ → ℕ} {fuel n nc : ℕ} {arg : PartArg} {t : CTree G} {st : CState G}
    (h : Built S flog fuel n nc arg t st) : (clusterTreeOf t st).parts.length = match arg with | .auto sp => sp | .given partition => partition.length := by
  have hdist := create_distinct h.strategies h.hflog h.hnc h.harg h.build
  cases arg with
  | auto sp =>
    obtain ⟨j, hj, hfull, hparts, hlen, hrk, -, -⟩ := create_parts_auto h.strategies h.hflog h.hnc h.harg h.build h.ranks
    unfold clusterTreeOf
    simp only
    rw [hparts, ← levelTrees_label, deref_all hdist _ (fun u hu => mem_levelTrees hu), ← List.length_map (f := Tree.label), levelTrees_label]
    exact hlen
  | given partition =>
    obtain ⟨parts, hparts, hpe, hrk, -⟩ := C05_given_partition_clusters h.strategies h.hnc h.build
    unfold clusterTreeOf
    simp only
    rw [hparts, hpe, deref_all hdist _ (fun u hu => child_mem_pre hu)]
    obtain ⟨ts, e, hb⟩ := createGiven_inv h.build
    rw [e]
    have := congrArg List.length (buildList_shape (givenEnv_ok h.strategies h.hnc) hb).1
    simp only [List.length_map, givenChildren, List.length_mapIdx] at this
    exact this

/-- Two children per cluster and at most two clusters in the partition: every list of clusters has at most two elements. -/
theorem Built.bin {S : Strategies D G} {flog : ℕ → ℕ → ℕ} {fuel n : ℕ} {arg : PartArg} {t : CTree G} {st : CState G}
    (h : Built S flog fuel n 2 arg t st) (hp : arg.atMostTwo) : (clusterTreeOf t st).Bin := by
  have hlen : (clusterTreeOf t st).parts.length ≤ 2 := by
    rw [h.parts_length]
    cases arg <;> exact hp
  intro d hd
  unfold clList
  split_ifs with h1 h2
  · simp
  · unfold ClusterTree.onPart
    rw [List.length_map, hd.2]
    exact hlen
  · have hr : 0 ≤ d.root.rk := by
      have : 0 ≤ d.rk := by simpa using h2
      exact this
    have hne : d.root.children ≠ [] := by
      intro hc
      apply h1
      rw [Bool.or_eq_true]
      left
      exact isLeaf_iff.2 hc
    unfold ClusterTree.kids
    rw [List.length_map, create_arity h.strategies h.hflog h.hnc h.harg h.build d.root hd.1 hr hne]

/-- The partition is at most one level below the root: it was given, or there are fewer clusters than `number_of_children ^ 2`. -/
def PartArg.oneLevel (flog : ℕ → ℕ → ℕ) (nc : ℕ) : PartArg → Prop
  | .auto sp => sp < nc ∨ flog nc sp = 1
  | .given _ => True

theorem Built.flat {S : Strategies D G} {flog : ℕ → ℕ → ℕ} {fuel n nc : ℕ} {arg : PartArg} {t : CTree G} {st : CState G}
    (h : Built S flog fuel n nc arg t st) (hp : arg.oneLevel flog nc) : (clusterTreeOf t st).Flat := by
  refine flat_of_top h.clOK.2 fun u hu => ?_
  have hu : u ∈ t.children := hu
  cases arg with
  | auto sp =>
    have hE := simpleEnv_ok h.strategies h.hflog h.hnc h.harg
    have hdep := (create_shape h.strategies h.hflog h.hnc h.harg h.build).2.2.1
    obtain ⟨hl, hN⟩ := build_nodes hE h.build
    have hdp : (simpleEnv S flog nc sp).dp = 1 := by
      unfold simpleEnv
      simp only
      rcases hp with hp | hp
      · rw [if_neg (by omega)]
      · rw [hp, ite_self]
    obtain ⟨p, hp, e⟩ := List.getElem_of_mem hu
    have := ((hN t (Tree.mem_pre_self _) (List.ne_nil_of_mem hu)).2 p u (List.getElem?_eq_some_iff.2 ⟨hp, e⟩)).2.2.1 (by
      unfold CEnv.lvl
      rw [hdp, hdep]
      rfl)
    unfold Tree.rk
    rw [this.2]
    omega
  | given partition =>
    obtain ⟨ts, rfl, hb⟩ := createGiven_inv h.build
    have h2 := (buildList_shape (givenEnv_ok h.strategies h.hnc) hb).1
    have : u.label ∈ givenChildren S n partition := by
      rw [← h2]; exact List.mem_map_of_mem hu
    unfold givenChildren at this
    rw [List.mem_mapIdx] at this
    obtain ⟨i, hi, e⟩ := this
    unfold Tree.rk
    rw [← e]
    simp

end Htool
