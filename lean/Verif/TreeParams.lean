import Verif.Report
import Verif.TreeData

/-! # The parameters of a block tree

`get_tree_parameters` and `print_tree_parameters` (include/htool/hmatrix/hmatrix_output.hpp 84-117), and the places the ten values come from: the setters called by
`HMatrixTreeBuilder::build`, and the data of the two cluster trees. -/

namespace Htool.TreeParams
open ClusterIO (Str natStr)
open Info (Map Sorted)
open Report (setAll padRight)

/-- `UINT_MAX + 1`. -/
def uintMod : ℕ := 2 ^ 32

/-- Parameters of an H-matrix (include/htool/hmatrix/hmatrix_tree_data.hpp 19-23), shared by all its blocks. -/
structure Params where
  epsilon : ℚ
  eta : ℚ
  mint : ℕ
  mins : ℕ
deriving DecidableEq

/-- Their initial values (hmatrix_tree_data.hpp 19-22). -/
def Params.initial : Params := ⟨1 / 1000000, 10, 0, 0⟩

/-- What the three getters of a cluster read in its tree (include/htool/clustering/cluster_node.hpp 63-65; cluster_tree_data.hpp 15-19). -/
structure ClusterParams where
  minclustersize : ℕ
  maxDepth : ℕ
  minDepth : ℕ
deriving DecidableEq

/-- The data of the tree made by `ClusterTreeBuilder`, from the state at the end of `create_cluster_tree`. `m_minclustersize` of the tree data keeps its initial
value 10 (cluster_tree_data.hpp 15): the setter of the builder (include/htool/clustering/tree_builder/recursive_build.hpp 45) changes a member of the builder (26),
which is only given to the splitting strategy (133). `setting` is the member of the builder. -/
def clusterParams {G : Type*} (_setting : ℕ) (st : CState G) : ClusterParams := ⟨10, st.maxDepth, st.minDepth⟩

/-- Settings of `HMatrixTreeBuilder` (include/htool/hmatrix/tree_builder/tree_builder.hpp 38-41, 129, 163-164); the depths are `int`. -/
structure Settings where
  epsilon : ℚ
  eta : ℚ
  mint : ℤ
  mins : ℤ

/-- Conversion `int` to `unsigned int` (parameters of hmatrix.hpp 209-210). -/
def toUint (z : ℤ) : ℕ := (z % (uintMod : ℤ)).toNat

/-- The setters of tree_builder.hpp 186-189 (hmatrix.hpp 206-210), in this order, called on the root (block 0) of the H-matrix of variable `i`. -/
def setters {N : Type*} (i : ℕ) (B : Settings) : List (TreeData.Op N Params) :=
  [.set i 0 fun p => { p with eta := B.eta }, .set i 0 fun p => { p with epsilon := B.epsilon },
   .set i 0 fun p => { p with mint := toUint B.mint }, .set i 0 fun p => { p with mins := toUint B.mins }]

/-- The assignments of `get_tree_parameters` (hmatrix_output.hpp 88-97); `t`, `s` are the data of the target and source cluster trees of the block. -/
def entries (fmtQ : ℚ → Str) (p : Params) (t s : ClusterParams) : List (Str × Str) :=
  [("Eta".toList, fmtQ p.eta), ("Epsilon".toList, fmtQ p.epsilon),
   ("MinTargetDepth".toList, natStr p.mint), ("MinClusterSizeTarget".toList, natStr t.minclustersize),
   ("MaxClusterDepthTarget".toList, natStr t.maxDepth), ("MinClusterDepthTarget".toList, natStr t.minDepth),
   ("MinSourceDepth".toList, natStr p.mins), ("MinClusterSizeSource".toList, natStr s.minclustersize),
   ("MaxClusterDepthSource".toList, natStr s.maxDepth), ("MinClusterDepthSource".toList, natStr s.minDepth)]

/-- `get_tree_parameters` (hmatrix_output.hpp 84-99). -/
def treeParameters (fmtQ : ℚ → Str) (p : Params) (t s : ClusterParams) : Map := setAll (entries fmtQ p t s) []

/-- `print_tree_parameters` (hmatrix_output.hpp 101-119); the width is the constant 23 (104). -/
def printTreeParameters (m : Map) : Str :=
  "Block tree parameters\n".toList ++ (m.map fun e => padRight 23 e.1 ++ e.2 ++ ['\n']).flatten ++ ['\n']

end Htool.TreeParams
