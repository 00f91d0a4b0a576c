import Verif.Props.Cluster
import Mathlib.Logic.Function.Basic

/-! # Conversions between user numbering and cluster numbering

Model of the permutation functions of `include/htool/clustering/cluster_node.hpp` (98-175). A buffer is a function `ℕ → R`
(`in[i]` is `inp i`); a call returns the new content of the output buffer. -/

namespace Htool
variable {R : Type*}

/-- `permutation[off + i] - off`, the user index (relative to the cluster) of the `i`-th index of a cluster. The subtraction is
exact and in range for root clusters and local partition clusters, see `C10_indices_in_range`. -/
def userIdx (perm : List ℕ) (off i : ℕ) : ℕ := perm.getD (off + i) 0 - off

/-- Loop of `cluster_to_user` (cluster_node.hpp 157-160); the loops of `root_cluster_to_global` (104-107) and `local_cluster_to_local`
(127-132) are the same with the offset and size of the root or of the partition cluster. -/
def clusterToUser (perm : List ℕ) (off size : ℕ) (inp out : ℕ → R) : ℕ → R :=
  (List.range size).foldl (fun o i => Function.update o (userIdx perm off i) (inp i)) out

/-- Loop of `user_to_cluster` (cluster_node.hpp 171-174); same for `global_to_root_cluster` (115-118) and `local_to_local_cluster`
(140-145). -/
def userToCluster (perm : List ℕ) (off size : ℕ) (inp out : ℕ → R) : ℕ → R :=
  (List.range size).foldl (fun o i => Function.update o i (inp (userIdx perm off i))) out

/-- `root_cluster_to_global` (cluster_node.hpp 100-108). -/
def rootClusterToGlobal {G : Type*} (t : Tree (CNode G)) (st : CState G) (inp out : ℕ → R) : ℕ → R :=
  clusterToUser st.perm t.label.offset t.label.size inp out

/-- `global_to_root_cluster` (cluster_node.hpp 111-119). -/
def globalToRootCluster {G : Type*} (t : Tree (CNode G)) (st : CState G) (inp out : ℕ → R) : ℕ → R :=
  userToCluster st.perm t.label.offset t.label.size inp out

/-- `local_cluster_to_local` (cluster_node.hpp 123-133). A missing partition cluster is undefined behaviour in the code; here
nothing is written. -/
def localClusterToLocal {G : Type*} (st : CState G) (index : ℕ) (inp out : ℕ → R) : ℕ → R :=
  match st.parts[index]? with
  | some (some c) => clusterToUser st.perm c.offset c.size inp out
  | _ => out

/-- `local_to_local_cluster` (cluster_node.hpp 135-146). -/
def localToLocalCluster {G : Type*} (st : CState G) (index : ℕ) (inp out : ℕ → R) : ℕ → R :=
  match st.parts[index]? with
  | some (some c) => userToCluster st.perm c.offset c.size inp out
  | _ => out

/-- The permutation maps the cluster onto its own user indices. -/
def LocalPerm (perm : List ℕ) (off size : ℕ) : Prop := (slice perm off size).Perm (List.range' off size)

theorem userIdx_eq {perm : List ℕ} {off size i : ℕ} (h : LocalPerm perm off size) (hi : i < size) :
    ∃ hlt : i < (slice perm off size).length, (slice perm off size)[i] = userIdx perm off i + off ∧
      off ≤ (slice perm off size)[i] ∧ userIdx perm off i < size := by
  have hlen : (slice perm off size).length = size := by simpa using h.length_eq
  refine ⟨by omega, ?_⟩
  have hm : (slice perm off size)[i]'(by omega) ∈ List.range' off size := h.mem_iff.1 (List.getElem_mem _)
  rw [List.mem_range'_1] at hm
  have e : perm.getD (off + i) 0 = (slice perm off size)[i]'(by omega) := by
    have h1 := slice_getElem? perm off size i
    rw [if_pos hi, List.getElem?_eq_getElem (by omega)] at h1
    rw [List.getD_eq_getElem?_getD, ← h1]; rfl
  unfold userIdx
  rw [e]
  omega

theorem userIdx_inj {perm : List ℕ} {off size i j : ℕ} (h : LocalPerm perm off size) (hi : i < size) (hj : j < size)
    (he : userIdx perm off i = userIdx perm off j) : i = j := by
  obtain ⟨a1, a2, -⟩ := userIdx_eq h hi
  obtain ⟨b1, b2, -⟩ := userIdx_eq h hj
  have hnd : (slice perm off size).Nodup := h.nodup_iff.2 (List.nodup_range')
  exact (List.Nodup.getElem_inj_iff hnd).1 (by rw [a2, b2, he])

theorem userIdx_surj {perm : List ℕ} {off size k : ℕ} (h : LocalPerm perm off size) (hk : k < size) :
    ∃ i < size, userIdx perm off i = k := by
  have hm : off + k ∈ slice perm off size := h.mem_iff.2 (by rw [List.mem_range'_1]; omega)
  obtain ⟨i, hi, hik⟩ := List.getElem_of_mem hm
  have hlen : (slice perm off size).length = size := by simpa using h.length_eq
  have his : i < size := by omega
  refine ⟨i, his, ?_⟩
  obtain ⟨a1, a2, -⟩ := userIdx_eq h his
  omega

/-- A loop of independent writes. -/
theorem foldl_update_get (f : ℕ → ℕ) (v : ℕ → R) (out : ℕ → R) (n : ℕ) (hinj : ∀ i < n, ∀ j < n, f i = f j → i = j) :
    (∀ i < n, (List.range n).foldl (fun o i => Function.update o (f i) (v i)) out (f i) = v i) ∧
    (∀ k, (∀ i < n, f i ≠ k) → (List.range n).foldl (fun o i => Function.update o (f i) (v i)) out k = out k) := by
  induction n with
  | zero => simp
  | succ n ih =>
    obtain ⟨h1, h2⟩ := ih (fun i hi j hj => hinj i (by omega) j (by omega))
    rw [List.range_succ, List.foldl_append]
    simp only [List.foldl_cons, List.foldl_nil]
    constructor
    · intro i hi
      by_cases he : i = n
      · subst he; simp
      · rw [Function.update_of_ne (fun hf => he (hinj i hi n (by omega) hf)), h1 i (by omega)]
    · intro k hk
      rw [Function.update_of_ne (fun hf => hk n (by omega) hf.symm), h2 k (fun i hi => hk i (by omega))]

theorem clusterToUser_spec {perm : List ℕ} {off size : ℕ} (h : LocalPerm perm off size) (inp out : ℕ → R) :
    (∀ i < size, clusterToUser perm off size inp out (userIdx perm off i) = inp i) ∧
    (∀ k, size ≤ k → clusterToUser perm off size inp out k = out k) := by
  obtain ⟨h1, h2⟩ := foldl_update_get (userIdx perm off) inp out size (fun i hi j hj => userIdx_inj h hi hj)
  refine ⟨h1, fun k hk => h2 k (fun i hi he => ?_)⟩
  obtain ⟨-, -, -, h4⟩ := userIdx_eq h hi
  omega

theorem userToCluster_spec (perm : List ℕ) (off size : ℕ) (inp out : ℕ → R) :
    (∀ i < size, userToCluster perm off size inp out i = inp (userIdx perm off i)) ∧
    (∀ k, size ≤ k → userToCluster perm off size inp out k = out k) := by
  obtain ⟨h1, h2⟩ := foldl_update_get id (fun i => inp (userIdx perm off i)) out size (fun i _ j _ h => h)
  exact ⟨h1, fun k hk => h2 k (fun i hi he => by simp at he; omega)⟩

end Htool
