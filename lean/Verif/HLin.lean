import Verif.LowRank
import Verif.HOps
import Verif.HProdRM

/-! # Products, triangular solves and factorizations of hierarchical matrices

Model of `include/htool/hmatrix/linalg/`: `add_hmatrix_matrix_product.hpp`, `add_matrix_hmatrix_product.hpp`, `add_hmatrix_lrmat_product.hpp`,
`add_lrmat_hmatrix_product.hpp`, `add_lrmat_hmatrix.hpp`, `add_hmatrix_hmatrix_product.hpp`, `triangular_hmatrix_matrix_solve.hpp`,
`triangular_hmatrix_lrmat_solve.hpp`, `triangular_hmatrix_hmatrix_solve.hpp`, `factorization.hpp`, and of
`include/htool/matrix/linalg/factorization.hpp`.

A block holds pointers to its two clusters; here a block holds the clusters themselves (`ClusterTree`: the cluster with its descendants and the list
`get_clusters_on_partition` shared by the whole tree). LAPACK routines (`getrf`, `potrf`), BLAS `trsm`, the truncated singular value decomposition
and the recompression are arguments (`LinOps`); their contracts are hypotheses of the theorems. All low-rank data is supposed to have the same
epsilon. A result `none` means that a null pointer was dereferenced, or that the recursion did not end within the given fuel. -/

namespace Htool
variable {G R : Type*}

/-! ## Clusters -/

namespace ClusterTree
/-- `get_offset`. -/
def off (c : ClusterTree G) : ℕ := c.root.off
/-- `get_size`. -/
def sz (c : ClusterTree G) : ℕ := c.root.sz
/-- `get_rank`. -/
def rk (c : ClusterTree G) : ℤ := c.root.rk
/-- One past the last index. -/
def fin (c : ClusterTree G) : ℕ := c.off + c.sz
/-- Offset and size. -/
def iv (c : ClusterTree G) : ℕ × ℕ := (c.off, c.sz)
/-- `is_leaf`. -/
def leaf (c : ClusterTree G) : Bool := c.root.isLeaf
/-- `get_children`. -/
def kids (c : ClusterTree G) : List (ClusterTree G) := c.root.children.map (fun u => ⟨u, c.parts⟩)
/-- `get_clusters_on_partition`: the list of the whole tree. -/
def onPart (c : ClusterTree G) : List (ClusterTree G) := c.parts.map (fun u => ⟨u, c.parts⟩)
/-- `Cluster::operator==` (cluster_node.hpp 81). The comparison of `m_tree_data` is left out: the clusters compared below belong to the same tree. -/
def ceq (a b : ClusterTree G) : Bool :=
  decide (a.off = b.off) && decide (a.sz = b.sz) && decide (a.root.label.depth = b.root.label.depth) &&
    decide (a.root.label.counter = b.root.label.counter)
end ClusterTree

/-- The clusters a loop runs on (the same lines everywhere, e.g. factorization.hpp 27-37): `bad` is `block_tree_not_consistent`. -/
def clList (bad : Bool) (c : ClusterTree G) : List (ClusterTree G) :=
  if c.leaf || (bad && decide (0 ≤ c.rk)) then [c] else if bad then c.onPart else c.kids

/-! ## Blocks -/

/-- Data of a block (hmatrix.hpp 34-42); the pivots live inside the dense matrix (matrix.hpp 27). -/
inductive FData (R : Type*) where
  | dense (D : Mat R) (piv : List ℕ)
  | lowRank (L : LR R)
  | hier

/-- One node of an `HMatrix` (hmatrix.hpp 30-50). -/
structure FNode (G R : Type*) where
  t : ClusterTree G
  s : ClusterTree G
  sym : HSym
  uplo : UploType
  symL : HSym
  uploL : UploType
  data : FData R

/-- An `HMatrix` with its descendants. -/
abbrev FTree (G R : Type*) := Tree (FNode G R)

/-- The data as the products of `Verif/HMat.lean` see it. -/
def FData.toH : FData R → HData R
  | .dense D _ => .dense D.get
  | .lowRank L => .lowRank L.rank L.U.get L.V.get
  | .hier => .hier

/-- The node as the products of `Verif/HMat.lean` see it. -/
def FNode.toH (n : FNode G R) : HNode R :=
  ⟨n.t.off, n.t.sz, n.s.off, n.s.sz, n.sym, n.uplo, n.symL, n.uploL, n.data.toH⟩

/-- The H-matrix as the products of `Verif/HMat.lean` see it. -/
def FTree.toH (A : FTree G R) : HTree R := A.map FNode.toH

/-- `is_hierarchical` (hmatrix.hpp 203). -/
def FTree.isHier (A : FTree G R) : Bool :=
  match A.label.data with
  | .hier => true
  | _ => false

/-- A block with other data. -/
def FTree.setData (A : FTree G R) (d : FData R) : FTree G R := .node { A.label with data := d } A.children

/-- The test of `get_sub_hmatrix` and `get_child_or_this` (hmatrix.hpp 119, 157). -/
def FNode.isBlock (p q : ClusterTree G) (n : FNode G R) : Bool := p.ceq n.t && q.ceq n.s

/-! ## Lookup and modification of a sub-block -/

/-- The search of `get_sub_hmatrix` (hmatrix.hpp 149-184), keeping the path from the root instead of the pointer. -/
def bfsPathLoop {α : Type*} (p : α → Bool) (q : List (List ℕ × Tree α)) : Option (List ℕ) :=
  match q with
  | [] => none
  | b :: q => if p b.2.label then some b.1 else bfsPathLoop p (q ++ b.2.children.zipIdx.map (fun x => (b.1 ++ [x.2], x.1)))
  termination_by Tree.countL (q.map Prod.snd)
  decreasing_by
    have e : (b.2.children.zipIdx.map (fun x => (b.1 ++ [x.2], x.1))).map Prod.snd = b.2.children := by
      rw [List.map_map]
      exact List.zipIdx_map_fst 0 b.2.children
    rw [List.map_append, e, Tree.countL_append, List.map_cons, Tree.countL_cons]
    cases b with
    | mk π b =>
      cases b with
      | node a cs => simp only [Tree.children_node]; rw [Tree.count_node]; omega

/-- Path to the block found by `get_sub_hmatrix`. -/
def bfsPath {α : Type*} (p : α → Bool) (b : Tree α) : Option (List ℕ) := bfsPathLoop p [([], b)]

/-- Running `f` on the object at the end of a path. -/
def Tree.updAt {α : Type*} (f : Tree α → Option (Tree α)) : List ℕ → Tree α → Option (Tree α)
  | [], b => f b
  | k :: π, b =>
    match b.children[k]? with
    | none => none
    | some c => (Tree.updAt f π c).map (fun c' => .node b.label (b.children.set k c'))

/-- `f(*A.get_sub_hmatrix(p, q))`: the block found is modified in place. -/
def updSub (p q : ClusterTree G) (f : FTree G R → Option (FTree G R)) (A : FTree G R) : Option (FTree G R) :=
  match bfsPath (FNode.isBlock p q) A with
  | none => none
  | some π => Tree.updAt f π A

/-- `A.get_sub_hmatrix(p, q)` for reading. -/
def getBlock (p q : ClusterTree G) (A : FTree G R) : Option (FTree G R) := getSub (FNode.isBlock p q) A

/-- `A.get_child_or_this(p, q)` for reading. -/
def getChild (p q : ClusterTree G) (A : FTree G R) : Option (FTree G R) := getChildOrThis (FNode.isBlock p q) A

/-- `f(*A.get_child_or_this(p, q))`: the block found is modified in place. -/
def updChild (p q : ClusterTree G) (f : FTree G R → Option (FTree G R)) (A : FTree G R) : Option (FTree G R) :=
  if A.label.isBlock p q then f A
  else
    match A.children.findIdx? (fun c => c.label.isBlock p q) with
    | none => none
    | some k => Tree.updAt f [k] A

/-! ## External routines -/

/-- Routines which are not modelled. `cplx`: complex coefficients; `rc`: `recompression`; `cmp AB C`: singular value decomposition of `AB`, truncation,
and factors `u sqrt(S)`, `sqrt(S) vt` written over the factors of `C`; `getrf`: factors and pivots (one-based); `potrf`; `trsm` (`unit`: unit
diagonal). -/
structure LinOps (R : Type*) where
  cplx : Bool
  rc : LR R → LR R
  cmp : Mat R → LR R → LR R
  getrf : Mat R → Mat R × List ℕ
  potrf : UploType → Mat R → Mat R
  trsm : Side → UploType → Trans → Bool → R → Mat R → Mat R → Mat R

/-- `is_complex<T>() ? 'C' : 'T'` (e.g. factorization.hpp 130). -/
def LinOps.tr (E : LinOps R) : Trans := if E.cplx then .C else .T

section ops
variable [CommRing R] [StarRing R] [DecidableEq R] (E : LinOps R)

/-! ## Products with a hierarchical matrix and a dense or low-rank one -/

/-- `internal_add_hmatrix_matrix_product` with a dense result (add_hmatrix_matrix_product.hpp 20-44). -/
def hmMat (ta tb : Trans) (α : R) (A : FTree G R) (B : Mat R) (β : R) (C : Mat R) : Mat R :=
  let tC := Mat.transpose C (Mat.mk' C.nc C.nr 0)
  let x := if tb = .N then (Mat.transpose B (Mat.mk' B.nc B.nr 0)).data
    else if tb = .C then conjBuf (B.nc * B.nr) B.data else B.data
  Mat.transpose { tC with data := seqRM E.cplx ta α A.toH x β tC.data tC.nr } C

/-- `new_transa` (add_matrix_hmatrix_product.hpp 23-25). -/
def matHmTrans (tb : Trans) (s : HSym) : Trans := if tb = .N then (if s = .H ∨ s = .S then .N else .T) else .N

/-- `internal_add_matrix_hmatrix_product` with a dense result (add_matrix_hmatrix_product.hpp 20-56). -/
def matHm (ta tb : Trans) (α : R) (A : Mat R) (B : FTree G R) (β : R) (C : Mat R) : Mat R :=
  let nt := matHmTrans tb B.label.symL
  if ta = .N then
    if tb = .C ∨ (B.label.symL = .H ∧ tb = .N) then
      let x := conjBuf (A.nc * A.nr) A.data
      let y := seqRM E.cplx nt (star α) B.toH x (star β) (conjBuf (C.nr * C.nc) C.data) C.nr
      { C with data := conjBuf (C.nr * C.nc) y }
    else { C with data := seqRM E.cplx nt α B.toH A.data β C.data C.nr }
  else
    let tA := Mat.transpose A (Mat.mk' A.nc A.nr 0)
    let x := if (ta = .T ∧ tb = .C) ∨ (ta = .C ∧ tb ≠ .C) then conjBuf (tA.nr * tA.nc) tA.data else tA.data
    if tb = .C then
      let y := seqRM E.cplx nt (star α) B.toH x (star β) (conjBuf (C.nr * C.nc) C.data) C.nr
      { C with data := conjBuf (C.nr * C.nc) y }
    else { C with data := seqRM E.cplx nt α B.toH x β C.data C.nr }

/-- End of the products into a low-rank matrix, once the dense product `AB` is known (add_hmatrix_matrix_product.hpp 58-123,
add_matrix_hmatrix_product.hpp 72-137, lrmat/linalg/add_matrix_matrix_product.hpp 27-97). -/
def denseIntoLR (AB : Mat R) (β : R) (C : LR R) : LR R :=
  if β = 0 ∨ C.rank = 0 then E.cmp AB C
  else
    let W := E.cmp AB ⟨Mat.mk' 0 0 0, Mat.mk' 0 0 0⟩
    E.rc ⟨W.U.hcat C.U, W.V.vcat (Mat.scale β C.V)⟩

/-- `add_matrix_matrix_product` into a low-rank matrix (lrmat/linalg/add_matrix_matrix_product.hpp 15-99). -/
def matMatIntoLR (ta tb : Trans) (α : R) (A B : Mat R) (β : R) (C : LR R) : LR R :=
  denseIntoLR E (Mat.addMM ta tb α A B β (Mat.mk' (if ta = .N then A.nr else A.nc) (if tb = .N then B.nc else B.nr) 0)) β C

/-- `internal_add_hmatrix_matrix_product` into a low-rank matrix (add_hmatrix_matrix_product.hpp 46-124). -/
def hmMatLR (ta tb : Trans) (α : R) (A : FTree G R) (B : Mat R) (β : R) (C : LR R) : LR R :=
  denseIntoLR E (hmMat E ta tb α A B 0
    (Mat.mk' (if ta = .N then A.label.t.sz else A.label.s.sz) (if tb = .N then B.nc else B.nr) 0)) β C

/-- `internal_add_matrix_hmatrix_product` into a low-rank matrix (add_matrix_hmatrix_product.hpp 58-138). -/
def matHmLR (ta tb : Trans) (α : R) (A : Mat R) (B : FTree G R) (β : R) (C : LR R) : LR R :=
  denseIntoLR E (matHm E ta tb α A B 0
    (Mat.mk' (if ta = .N then A.nr else A.nc) (if tb = .N then B.label.s.sz else B.label.t.sz) 0)) β C

/-- `internal_add_hmatrix_lrmat_product` with a dense result (add_hmatrix_lrmat_product.hpp 17-38). -/
def hmLr (ta tb : Trans) (α : R) (A : FTree G R) (B : LR R) (β : R) (C : Mat R) : Mat R :=
  if B.rank ≠ 0 then
    let AU : Mat R := Mat.mk' (if ta = .N then A.label.t.sz else A.label.s.sz) (if tb = .N then B.U.nc else B.V.nr) 0
    if tb = .N then Mat.addMM .N .N α (hmMat E ta .N 1 A B.U 0 AU) B.V β C
    else Mat.addMM .N tb α (hmMat E ta tb 1 A B.V 0 AU) B.U β C
  else C

/-- `internal_add_hmatrix_lrmat_product` into a low-rank matrix (add_hmatrix_lrmat_product.hpp 40-113). -/
def hmLrLR (ta tb : Trans) (α : R) (A : FTree G R) (B : LR R) (β : R) (C : LR R) : LR R :=
  if B.rank ≠ 0 then
    let m := if ta = .N then A.label.t.sz else A.label.s.sz
    let k := if tb = .N then B.U.nc else B.V.nr
    if β = 0 ∨ C.rank = 0 then
      if tb = .N then ⟨hmMat E ta .N α A B.U 0 (C.U.resize m k 0), B.V⟩
      else ⟨hmMat E ta tb α A B.V 0 (C.U.resize m k 0), Mat.opT tb B.U⟩
    else
      let V1 := if tb = .N then B.V else Mat.opT tb B.U
      let AU := if tb = .N then hmMat E ta .N α A B.U 0 (Mat.mk' m k 0) else hmMat E ta tb α A B.V 0 (Mat.mk' m k 0)
      E.rc ⟨AU.hcat C.U, V1.vcat (Mat.scale β C.V)⟩
  else C

/-- `internal_add_lrmat_hmatrix_product` with a dense result (add_lrmat_hmatrix_product.hpp 17-34). -/
def lrHm (ta tb : Trans) (α : R) (A : LR R) (B : FTree G R) (β : R) (C : Mat R) : Mat R :=
  if A.rank ≠ 0 then
    let VB : Mat R := Mat.mk' A.V.nr (if tb = .N then B.label.s.sz else B.label.t.sz) 0
    if ta = .N then Mat.addMM ta .N α A.U (matHm E ta tb 1 A.V B 0 VB) β C
    else Mat.addMM ta .N α A.V (matHm E ta tb 1 A.U B 0 VB) β C
  else C

/-- `internal_add_lrmat_hmatrix_product` into a low-rank matrix (add_lrmat_hmatrix_product.hpp 36-106). -/
def lrHmLR (ta tb : Trans) (α : R) (A : LR R) (B : FTree G R) (β : R) (C : LR R) : LR R :=
  if A.rank ≠ 0 then
    let n := if tb = .N then B.label.s.sz else B.label.t.sz
    if β = 0 ∨ C.rank = 0 then
      if ta = .N then ⟨A.U, matHm E ta tb α A.V B 0 (C.V.resize A.V.nr n 0)⟩
      else ⟨Mat.opT ta A.V, matHm E ta tb α A.U B 0 (C.V.resize A.U.nc n 0)⟩
    else
      let newU := if ta = .N then A.U.hcat C.U else (Mat.opT ta A.V).hcat C.U
      let VB := if ta = .N then matHm E ta tb α A.V B 0 (Mat.mk' A.V.nr n 0) else matHm E ta tb α A.U B 0 (Mat.mk' A.V.nr n 0)
      E.rc ⟨newU, VB.vcat (Mat.scale β C.V)⟩
  else C

/-- The dense update of a leaf (add_lrmat_hmatrix.hpp 29-54): `ro`, `co` offsets of the leaf, `m × n` its size. -/
def addLRDense (L : LR R) (ro co m n : ℕ) (D : Mat R) : Mat R :=
  let W : Mat R := Mat.mk' m L.rank 0
  let rU := (List.range L.rank).foldl (fun d i => copyTo m L.U.data (L.U.nr * i + ro) d (m * i)) W.data
  { D with data := gemm .N .N m n L.rank 1 rU m (L.V.data.from' (co * L.V.nr)) L.rank 1 D.data m }

/-- `internal_add_lrmat_hmatrix` (add_lrmat_hmatrix.hpp 13-59): every non-hierarchical block, in preorder; blocks are distinct objects, so the loop is
a map. -/
def addLRH (L : LR R) (C : FTree G R) : FTree G R :=
  C.map (fun n => match n.data with
    | .dense D piv => { n with data := .dense (addLRDense L (n.t.off - C.label.t.off) (n.s.off - C.label.s.off) n.t.sz n.s.sz D) piv }
    | .lowRank X => { n with data := .lowRank (LR.addLR E.rc L C.label.t.iv C.label.s.iv X n.t.iv n.s.iv) }
    | .hier => n)

omit [StarRing R] [DecidableEq R] in
/-- `scale(da, H-matrix)` (hmatrix/linalg/scale.hpp 36-58). -/
def fscale (a : R) (C : FTree G R) : FTree G R :=
  C.map (fun n => match n.data with
    | .dense D piv => { n with data := .dense (Mat.scale a D) piv }
    | .lowRank X => { n with data := .lowRank (X.scale a) }
    | .hier => n)

/-! ## Products of two hierarchical matrices -/

omit [CommRing R] [StarRing R] [DecidableEq R] in
/-- `block_tree_not_consistent` for one block. -/
def FTree.bad (A : FTree G R) : Bool := decide (A.label.t.rk < 0) || decide (A.label.s.rk < 0)

omit [CommRing R] [StarRing R] [DecidableEq R] in
/-- Rows of `op(A)`: `get_output_cluster_A`. -/
def FTree.outC (A : FTree G R) (tr : Trans) : ClusterTree G := if tr = .N then A.label.t else A.label.s

omit [CommRing R] [StarRing R] [DecidableEq R] in
/-- Columns of `op(A)`: `get_input_cluster_A`. -/
def FTree.inC (A : FTree G R) (tr : Trans) : ClusterTree G := if tr = .N then A.label.s else A.label.t

omit [CommRing R] [StarRing R] [DecidableEq R] in
/-- The block of `A` whose `op` has rows `p` and columns `q`, `get_sub_hmatrix` (e.g. add_hmatrix_hmatrix_product.hpp 85-86). -/
def getOp (tr : Trans) (p q : ClusterTree G) (A : FTree G R) : Option (FTree G R) := if tr = .N then getBlock p q A else getBlock q p A

omit [CommRing R] [StarRing R] [DecidableEq R] in
/-- Same with `get_child_or_this` (add_hmatrix_hmatrix_product.hpp 261-262). -/
def getChildOp (tr : Trans) (p q : ClusterTree G) (A : FTree G R) : Option (FTree G R) := if tr = .N then getChild p q A else getChild q p A

/-- Product of two H-matrices into a low-rank matrix (add_hmatrix_hmatrix_product.hpp 24-123). -/
def hhLR : ℕ → Trans → Trans → R → FTree G R → FTree G R → R → LR R → Option (LR R)
  | 0, _, _, _, _, _, _, _ => none
  | f + 1, ta, tb, α, A, B, β, C0 =>
    let C := if β = 1 then C0 else C0.scale β
    match A.label.data, B.label.data with
    | .hier, .hier =>
      let bad := A.bad || B.bad
      let acc := mapOpt (fun x : ClusterTree G × ClusterTree G =>
        ((clList bad (A.inC ta)).foldlM (fun (L : LR R) m =>
          match getOp ta x.1 m A, getOp tb m x.2 B with
          | some Ac, some Bc => hhLR f ta tb α Ac Bc 1 L
          | _, _ => none) ⟨Mat.mk' x.1.sz 0 0, Mat.mk' 0 x.2.sz 0⟩).map (fun L => (x, L)))
        (pairs (clList bad (A.outC ta)) (clList bad (B.inC tb)))
      acc.map (fun l => l.foldl (fun C x => LR.addLR E.rc x.2 x.1.1.iv x.1.2.iv C (A.outC ta).iv (B.inC tb).iv) C)
    | .dense D _, .lowRank L => some (LR.matMulLR E.rc ta tb α D L 1 C)
    | .dense D _, .dense D' _ => some (matMatIntoLR E ta tb α D D' 1 C)
    | .dense D _, .hier => some (matHmLR E ta tb α D B 1 C)
    | .lowRank L, .dense D _ => some (LR.mulMatLR E.rc ta tb α L D 1 C)
    | .lowRank L, .lowRank L' => some (LR.mulLRLR E.rc ta tb α L L' 1 C)
    | .lowRank L, .hier => some (lrHmLR E ta tb α L B 1 C)
    | .hier, .lowRank L => some (hmLrLR E ta tb α A L 1 C)
    | .hier, .dense D _ => some (hmMatLR E ta tb α A D 1 C)

omit [DecidableEq R] in
/-- `copy_to_dense(B, B_dense.data())` on a new matrix. -/
def FTree.dense (B : FTree G R) : Mat R :=
  ⟨B.label.t.sz, B.label.s.sz, copyToDense B.toH (Mat.mk' B.label.t.sz B.label.s.sz (0 : R)).data⟩

/-- Product of two H-matrices into a dense matrix (add_hmatrix_hmatrix_product.hpp 125-205). -/
def hhMat (ta tb : Trans) (α : R) (A B : FTree G R) (β : R) (C0 : Mat R) : Mat R :=
  let C := if β = 1 then C0 else Mat.scale β C0
  if A.bad || B.bad then hmMat E ta tb α A B.dense 1 C
  else
    match A.label.data, B.label.data with
    | .dense D _, .lowRank L => LR.matMul ta tb α D L 1 C
    | .dense D _, .dense D' _ => Mat.addMM ta tb α D D' 1 C
    | .dense D _, .hier => matHm E ta tb α D B 1 C
    | .lowRank L, .dense D _ => LR.mulMat ta tb α L D 1 C
    | .lowRank L, .lowRank L' => LR.mulLR ta tb α L L' 1 C
    | .lowRank L, .hier => lrHm E ta tb α L B 1 C
    | .hier, .lowRank L => hmLr E ta tb α A L 1 C
    | .hier, .dense D _ => hmMat E ta tb α A D 1 C
    | .hier, .hier => hmMat E ta tb α A B.dense 1 C

/-- The temporary low-rank matrix of add_hmatrix_hmatrix_product.hpp 271-297, for `A` or `B` not hierarchical; its factors are empty at first. -/
def hhTemp (ta tb : Trans) (α : R) (A B : FTree G R) (β : R) : LR R :=
  let Z : LR R := ⟨Mat.mk' 0 0 0, Mat.mk' 0 0 0⟩
  match A.label.data, B.label.data with
  | .dense D _, .lowRank L => LR.matMulLR E.rc ta tb α D L β Z
  | .hier, .lowRank L => hmLrLR E ta tb α A L β Z
  | .lowRank L, .lowRank L' => LR.mulLRLR E.rc ta tb α L L' β Z
  | .lowRank L, .dense D _ => LR.mulMatLR E.rc ta tb α L D β Z
  | .lowRank L, .hier => lrHmLR E ta tb α L B β Z
  | .dense D _, .dense D' _ => matMatIntoLR E ta tb α D D' β Z
  | .dense D _, .hier => matHmLR E ta tb α D B β Z
  | .hier, .dense D _ => hmMatLR E ta tb α A D β Z
  | .hier, .hier => Z

omit [CommRing R] [StarRing R] [DecidableEq R] in
/-- Three nested loops. -/
def triples (os is ms : List (ClusterTree G)) : List (ClusterTree G × ClusterTree G × ClusterTree G) :=
  os.flatMap (fun o => is.flatMap (fun i => ms.map (fun m => (o, i, m))))

/-- Product of two H-matrices into an H-matrix (add_hmatrix_hmatrix_product.hpp 207-301). -/
def hhH : ℕ → Trans → Trans → R → FTree G R → FTree G R → R → FTree G R → Option (FTree G R)
  | 0, _, _, _, _, _, _, _ => none
  | f + 1, ta, tb, α, A, B, β, C =>
    match C.label.data with
    | .dense D piv => some (C.setData (.dense (hhMat E ta tb α A B β D) piv))
    | .lowRank L => (hhLR E (f + 1) ta tb α A B β L).map (fun L' => C.setData (.lowRank L'))
    | .hier =>
      if A.isHier && B.isHier then
        let bad := A.bad || B.bad
        (triples (clList bad (A.outC ta)) (clList bad (B.inC tb)) (clList bad (A.inC ta))).foldlM (fun C x =>
          match getChildOp ta x.1 x.2.2 A, getChildOp tb x.2.2 x.2.1 B, getChild x.1 x.2.1 C with
          | some Ac, some Bc, some _ => updChild x.1 x.2.1 (hhH f ta tb α Ac Bc 1) C
          | _, _, _ => some C) (if β = 1 then C else fscale β C)
      else some (addLRH E (hhTemp E ta tb α A B β) C)

/-! ## Dense triangular solves -/

omit [CommRing R] [StarRing R] [DecidableEq R] in
/-- `is_pivoted` (matrix/linalg/factorization.hpp 30-38): stops at the first index with `ipiv[index] == index + 1`. -/
def isPivoted (piv : List ℕ) : Bool := (List.range piv.length).any (fun k => decide (piv.getD k 0 = k + 1))

omit [CommRing R] [StarRing R] [DecidableEq R] in
/-- Exchange of two rows. -/
def Mat.swapRows (B : Mat R) (a b : ℕ) : Mat R :=
  { B with data := fun p => if p < B.nr * B.nc then
      (if p % B.nr = a then B.get b (p / B.nr) else if p % B.nr = b then B.get a (p / B.nr) else B.data p) else B.data p }

omit [CommRing R] [StarRing R] [DecidableEq R] in
/-- LAPACK `laswp` from row 1 to row `m`: row interchanges in the order of the list of indices. -/
def laswp (order : List ℕ) (piv : List ℕ) (B : Mat R) : Mat R := order.foldl (fun B k => B.swapRows k (piv.getD k 0 - 1)) B

omit [CommRing R] [StarRing R] [DecidableEq R] in
/-- `std::swap(B(i, a), B(i, b))`. -/
def Mat.swapEntry (B : Mat R) (i a b : ℕ) : Mat R := (B.set i a (B.get i b)).set i b (B.get i a)

omit [CommRing R] [StarRing R] [DecidableEq R] in
/-- The loops of matrix/linalg/factorization.hpp 48-52 and 67-71. -/
def colSwaps (order : List ℕ) (piv : List ℕ) (B : Mat R) : Mat R :=
  (List.range B.nr).foldl (fun B i => order.foldl (fun B j => B.swapEntry i (piv.getD j 0 - 1) j) B) B

omit [CommRing R] [StarRing R] [DecidableEq R] in
/-- `triangular_matrix_matrix_solve` (matrix/linalg/factorization.hpp 21-75). -/
def triDense (side : Side) (u : UploType) (tr : Trans) (unit : Bool) (α : R) (A : Mat R) (piv : List ℕ) (B : Mat R) : Mat R :=
  let pv := isPivoted piv && decide (u = .L)
  let B1 := if pv && decide (side = .L) && decide (tr = .N) then laswp (List.range B.nr) piv B
    else if pv && decide (side = .R) && decide (tr ≠ .N) then colSwaps (List.range B.nc) piv B else B
  let B2 := E.trsm side u tr unit α A B1
  if pv && decide (side = .L) && decide (tr ≠ .N) then laswp (List.range B.nr).reverse piv B2
  else if pv && decide (side = .R) && decide (tr = .N) then colSwaps (List.range B.nc).reverse piv B2 else B2

/-! ## Triangular solves with a hierarchical matrix -/

omit [CommRing R] [StarRing R] [DecidableEq R] in
/-- Tests of the branches "forward" (triangular_hmatrix_matrix_solve.hpp 63, triangular_hmatrix_hmatrix_solve.hpp 81). -/
def fwd (u : UploType) (tr : Trans) : Bool := (decide (u = .L) && decide (tr = .N)) || (decide (u = .U) && decide (tr ≠ .N))

omit [CommRing R] [StarRing R] [DecidableEq R] in
/-- The order of a loop: `begin()` to `end()`, or `rbegin()` to `rend()`. -/
def ordered {α : Type*} (forward : Bool) (l : List α) : List α := if forward then l else l.reverse

omit [CommRing R] [StarRing R] [DecidableEq R] in
/-- The test for an off-diagonal update: `a > b` when going forward, `a < b` when going backward. -/
def after (forward : Bool) (a b : ClusterTree G) : Bool := if forward then decide (b.off < a.off) else decide (a.off < b.off)

/-- `internal_triangular_hmatrix_matrix_solve_row_major` (triangular_hmatrix_matrix_solve.hpp 17-116). `u` is 'L' or 'U'. The view
`current_Bt_to_modify` is the part of the storage of `Bt` starting at `nb_rows * (offset - output offset)`. The product is the parallel one; it ends
with the same result (`C20_parallel_row_major_product_is_sequential`). -/
def triRM : ℕ → Side → UploType → Trans → Bool → R → FTree G R → Mat R → Option (Mat R)
  | 0, _, _, _, _, _, _, _ => none
  | f + 1, side, u, tr, unit, α, A, B0 =>
    let Bt := if α = 1 then B0 else Mat.scale α B0
    if A.isLeaf then
      match A.label.data with
      | .dense D piv =>
        let B := Mat.transpose Bt (Mat.mk' Bt.nc Bt.nr 0)
        some (Mat.transpose (triDense E side u tr unit 1 D piv B) Bt)
      | _ => none
    else
      let fw := fwd u tr
      let pos := fun c : ClusterTree G => Bt.nr * (c.off - (A.outC tr).off)
      (pairs (ordered fw (clList A.bad (A.outC tr))) (ordered fw (clList A.bad (A.inC tr)))).foldlM (fun Bt x =>
        if x.1.ceq x.2 then
          match getOp tr x.1 x.2 A with
          | none => none
          | some Ac => (triRM f side u tr unit 1 Ac ⟨Bt.nr, x.1.sz, Bt.data.from' (pos x.1)⟩).map
              (fun V => { Bt with data := Buf.at' (pos x.1) (fun _ => V.data) Bt.data })
        else if after fw x.1 x.2 then
          match getOp tr x.1 x.2 A with
          | none => none
          | some Ac => some { Bt with data := Buf.at' (pos x.1) (fun o =>
              seqRM E.cplx tr (-1) Ac.toH (Bt.data.from' (Bt.nr * (x.2.off - (A.inC tr).off))) 1 o Bt.nr) Bt.data }
        else some Bt) Bt

/-- `internal_triangular_hmatrix_matrix_solve` (triangular_hmatrix_matrix_solve.hpp 118-138). -/
def triHM (f : ℕ) (side : Side) (u : UploType) (tr : Trans) (unit : Bool) (α : R) (A : FTree G R) (B : Mat R) : Option (Mat R) :=
  if side = .L then
    (triRM E f side u tr unit α A (Mat.transpose B (Mat.mk' B.nc B.nr 0))).map (fun tB => Mat.transpose tB B)
  else
    let tt : Trans := if tr = .N then .T else .N
    if tr = .C then
      (triRM E f .L u tt unit (star α) A { B with data := conjBuf (B.nr * B.nc) B.data }).map
        (fun X => { X with data := conjBuf (B.nr * B.nc) X.data })
    else triRM E f .L u tt unit α A B

/-- `internal_triangular_hmatrix_lrmat_solve` (triangular_hmatrix_lrmat_solve.hpp 10-20). -/
def triHLr (f : ℕ) (side : Side) (u : UploType) (tr : Trans) (unit : Bool) (α : R) (A : FTree G R) (B0 : LR R) : Option (LR R) :=
  let B := if α = 1 then B0 else B0.scale α
  if side = .L then (triHM E f .L u tr unit 1 A B.U).map (fun U => ⟨U, B.V⟩)
  else (triHM E f .R u tr unit 1 A B.V).map (fun V => ⟨B.U, V⟩)

/-- One pass of the inner loop of a "row" branch (triangular_hmatrix_hmatrix_solve.hpp 82-99, 101-123): `x = (out, in, mid)`; `rec` is the recursive
call. -/
def triRowStep (rec : FTree G R → FTree G R → Option (FTree G R)) (f : ℕ) (fw : Bool) (tr : Trans) (A : FTree G R)
    (B : FTree G R) (x : ClusterTree G × ClusterTree G × ClusterTree G) : Option (FTree G R) :=
  if x.1.ceq x.2.2 then
    match getOp tr x.1 x.2.2 A with
    | none => none
    | some Ac => updSub x.1 x.2.1 (rec Ac) B
  else if after fw x.1 x.2.2 then
    match getOp tr x.1 x.2.2 A, getBlock x.2.2 x.2.1 B with
    | some Ac, some Bc => updSub x.1 x.2.1 (hhH E f tr .N (-1) Ac Bc 1) B
    | _, _ => none
  else some B

/-- One pass of the inner loop of a "column" branch (triangular_hmatrix_hmatrix_solve.hpp 125-149, 151-175): `x = (in, out, mid)`. -/
def triColStep (rec : FTree G R → FTree G R → Option (FTree G R)) (f : ℕ) (fw : Bool) (tr : Trans) (A : FTree G R)
    (B : FTree G R) (x : ClusterTree G × ClusterTree G × ClusterTree G) : Option (FTree G R) :=
  if x.1.ceq x.2.2 then
    match getOp tr x.2.2 x.1 A with
    | none => none
    | some Ac => updSub x.2.1 x.1 (rec Ac) B
  else if after fw x.1 x.2.2 then
    match getOp tr x.2.2 x.1 A, getBlock x.2.1 x.2.2 B with
    | some Ac, some Bc => updSub x.2.1 x.1 (hhH E f .N tr (-1) Bc Ac 1) B
    | _, _ => none
  else some B

/-- `internal_triangular_hmatrix_hmatrix_solve` (triangular_hmatrix_hmatrix_solve.hpp 17-215). A low-rank `A` only logs an error. For a hierarchical
`B` and a dense `A`, the block becomes dense (hmatrix.hpp 234-238). -/
def triHH : ℕ → Side → UploType → Trans → Bool → R → FTree G R → FTree G R → Option (FTree G R)
  | 0, _, _, _, _, _, _, _ => none
  | f + 1, side, u, tr, unit, α, A, B0 =>
    let B := if α = 1 then B0 else fscale α B0
    match A.label.data, B.label.data with
    | .hier, .hier =>
      let bad := A.bad || B.bad
      if side = .L then
        let fw := fwd u tr
        (triples (ordered fw (clList bad (A.outC tr))) (ordered fw (clList bad B.label.s)) (ordered fw (clList bad (A.inC tr)))).foldlM
          (triRowStep E (triHH f side u tr unit 1) f fw tr A) B
      else
        let fw := !fwd u tr
        (triples (ordered fw (clList bad (A.inC tr))) (ordered fw (clList bad B.label.t)) (ordered fw (clList bad (A.outC tr)))).foldlM
          (triColStep E (triHH f side u tr unit 1) f fw tr A) B
    | .dense D piv, .dense D' piv' => some (B.setData (.dense (triDense E side u tr unit 1 D piv D') piv'))
    | .dense D piv, .lowRank L =>
      if side = .L then some (B.setData (.lowRank ⟨triDense E .L u tr unit 1 D piv L.U, L.V⟩))
      else some (B.setData (.lowRank ⟨L.U, triDense E .R u tr unit 1 D piv L.V⟩))
    | .dense D piv, .hier => some (.node { B.label with data := .dense (triDense E side u tr unit 1 D piv B.dense) [] } [])
    | .lowRank _, _ => some B
    | .hier, .lowRank L => (triHLr E (f + 1) side u tr unit 1 A L).map (fun L' => B.setData (.lowRank L'))
    | .hier, .dense D piv => (triHM E (f + 1) side u tr unit 1 A D).map (fun D' => B.setData (.dense D' piv))

/-! ## Factorizations -/

/-- "Apply pivot block to row and column" (factorization.hpp 44-52). -/
def luApply (f : ℕ) (c : ClusterTree G) (A : FTree G R) (o : ClusterTree G) : Option (FTree G R) :=
  if c.off < o.off then
    match getBlock c c A with
    | none => none
    | some P => (updSub c o (triHH E f .L .L .N true 1 P) A).bind (updSub o c (triHH E f .R .U .N false 1 P))
  else some A

/-- "Update Schur complement" (factorization.hpp 55-66). -/
def luUpdate (f : ℕ) (c : ClusterTree G) (A : FTree G R) (x : ClusterTree G × ClusterTree G) : Option (FTree G R) :=
  if c.off < x.1.off ∧ c.off < x.2.off then
    match getBlock c x.2 A, getBlock x.1 c A with
    | some U, some L => updSub x.1 x.2 (hhH E f .N .N (-1) L U 1) A
    | _, _ => none
  else some A

/-- `lu_factorization` of an H-matrix (factorization.hpp 17-75). A low-rank block only logs an error. -/
def luH : ℕ → FTree G R → Option (FTree G R)
  | 0, _ => none
  | f + 1, A =>
    match A.label.data with
    | .hier =>
      let cl := clList A.bad A.label.t
      cl.foldlM (fun A c =>
        ((updSub c c (luH f) A).bind (fun A1 => cl.foldlM (luApply E f c) A1)).bind
          (fun A2 => (pairs cl cl).foldlM (luUpdate E f c) A2)) A
    | .dense D _ => some (A.setData (.dense (E.getrf D).1 (E.getrf D).2))
    | .lowRank _ => some A

/-- `internal_lu_solve` (factorization.hpp 77-88). -/
def luSolveH (f : ℕ) (tr : Trans) (A : FTree G R) (X : Mat R) : Option (Mat R) :=
  if tr = .N then (triHM E f .L .L .N true 1 A X).bind (triHM E f .L .U .N false 1 A)
  else (triHM E f .L .U tr false 1 A X).bind (triHM E f .L .L tr true 1 A)

/-- "Apply pivot block" (factorization.hpp 122-134). -/
def cholApply (f : ℕ) (u : UploType) (c : ClusterTree G) (A : FTree G R) (o : ClusterTree G) : Option (FTree G R) :=
  if c.off < o.off then
    match getBlock c c A with
    | none => none
    | some P => if u = .L then updSub o c (triHH E f .R u E.tr false 1 P) A else updSub c o (triHH E f .L u E.tr false 1 P) A
  else some A

/-- "Update Schur complement" (factorization.hpp 137-158): the same block is used on both sides. -/
def cholUpdate (f : ℕ) (u : UploType) (c : ClusterTree G) (A : FTree G R) (x : ClusterTree G × ClusterTree G) : Option (FTree G R) :=
  if u = .L ∧ c.off < x.1.off ∧ c.off < x.2.off ∧ x.2.off ≤ x.1.off then
    match getBlock x.1 c A with
    | some L => updSub x.1 x.2 (hhH E f .N E.tr (-1) L L 1) A
    | none => none
  else if u = .U ∧ c.off < x.1.off ∧ c.off < x.2.off ∧ x.1.off ≤ x.2.off then
    match getBlock c x.2 A with
    | some U => updSub x.1 x.2 (hhH E f E.tr .N (-1) U U 1) A
    | none => none
  else some A

/-- `cholesky_factorization` of an H-matrix (factorization.hpp 90-163). -/
def cholH (u : UploType) : ℕ → FTree G R → Option (FTree G R)
  | 0, _ => none
  | f + 1, A =>
    match A.label.data with
    | .hier =>
      let cl := clList A.bad A.label.t
      cl.foldlM (fun A c =>
        ((updSub c c (cholH u f) A).bind (fun A1 => cl.foldlM (cholApply E f u c) A1)).bind
          (fun A2 => (pairs cl cl).foldlM (cholUpdate E f u c) A2)) A
    | .dense D piv => some (A.setData (.dense (E.potrf u D) piv))
    | .lowRank _ => some A

/-- `internal_cholesky_solve` (factorization.hpp 165-174). -/
def cholSolveH (f : ℕ) (u : UploType) (A : FTree G R) (X : Mat R) : Option (Mat R) :=
  if u = .L then (triHM E f .L .L .N false 1 A X).bind (triHM E f .L .L E.tr false 1 A)
  else (triHM E f .L .U E.tr false 1 A X).bind (triHM E f .L .U .N false 1 A)

omit [StarRing R] [DecidableEq R] in
/-- Copy of the columns into cluster numbering (factorization.hpp 179-183). -/
def permIn (perm : List ℕ) (off size : ℕ) (X : Mat R) : Mat R :=
  let P : Mat R := Mat.mk' X.nr X.nc 0
  { P with data := (List.range X.nc).foldl (fun d i => Buf.at' (size * i) (userToCluster perm off size (X.data.from' (size * i))) d) P.data }

omit [CommRing R] [StarRing R] [DecidableEq R] in
/-- Copy of the columns back into user numbering (factorization.hpp 187-190). -/
def permOut (perm : List ℕ) (off size : ℕ) (P X : Mat R) : Mat R :=
  { X with data := (List.range X.nc).foldl (fun d i => Buf.at' (size * i) (clusterToUser perm off size (P.data.from' (size * i))) d) X.data }

/-- `lu_solve` (factorization.hpp 176-191); `pt`, `ps`: permutations of the target and of the source cluster tree. -/
def luSolveUser (f : ℕ) (tr : Trans) (pt ps : List ℕ) (A : FTree G R) (X : Mat R) : Option (Mat R) :=
  (luSolveH E f tr A (permIn ps A.label.s.off A.label.s.sz X)).map (fun P => permOut pt A.label.t.off A.label.t.sz P X)

/-- `cholesky_solve` (factorization.hpp 193-208). -/
def cholSolveUser (f : ℕ) (u : UploType) (pt ps : List ℕ) (A : FTree G R) (X : Mat R) : Option (Mat R) :=
  (cholSolveH E f u A (permIn ps A.label.s.off A.label.s.sz X)).map (fun P => permOut pt A.label.t.off A.label.t.sz P X)

end ops
end Htool
