# Formal model of htool — design

Source: `/repo` (htool-ddm/htool, header-only C++). The code is only read, never run.
Model and proofs: Lean 4.33.0 + Mathlib, in `lean/Verif/`. Build with `lake build` in `lean/`.

## Conventions of the model

* **Trees.** `TreeNode<>` is modelled by rose trees `Tree α` (`Verif/Tree.lean`); clusters and H-matrix
  nodes are labels. Pointers are replaced by values; where aliasing matters (C18, C26) an explicit heap is modelled.
* **Intervals.** A cluster is seen by the matrix code through `(offset,size,depth,rank,counter,isLeaf)`.
* **Numbers.** `int` is `ℕ`/`ℤ` (no overflow). Coefficients are an arbitrary commutative (star) ring or field:
  *exact arithmetic*. Coordinates are an arbitrary linear ordered field or `ℝ`. Floating point is not modelled.
* **Buffers.** A raw pointer to coefficients is a function `ℕ → R`; a routine that writes returns the new function,
  so "touches nothing else" is part of the theorems. Where bounds are the point (C35, C43, C50) lengths are explicit and
  an out-of-range access is a distinct outcome.
* **BLAS/LAPACK/MPI/HPDDM/std::sort** are parameters or specified functions (their documented contract). They are part of
  the trusted base. `std::sort` is *any* function returning a permutation of its slice. Eigen-decompositions
  are arbitrary functions. MPI collectives are functions of the tuple of all ranks' arguments.
* **OpenMP.** A parallel region is an arbitrary interleaving/assignment of its iterations (C17, C20).
* **Storage.** `Matrix` storage (C54) is a heap of blocks with explicit ownership and undefined behaviour as an outcome.
* **Recursion.** Functions whose termination is not structural take a fuel argument; a theorem gives the fuel which suffices.
* `Logger::log(ERROR, …)` does not abort: the model goes on as the code does.

## Layout

`Verif/<Area>.lean` holds definitions (each citing file and lines) and helper lemmas,
`Verif/Props/<Area>.lean` holds the property theorems, each followed by an `example` meeting its hypotheses.
`MANIFEST.json` maps properties to theorem names.

## Plan per property

| id | modules | what is modelled | how it is proved |
|----|---------|------------------|------------------|
| C01 | Splitting | RegularSplitting, GeometricSplitting loops | arithmetic; loop invariant on count/sizes |
| C02–C07, C53 | ClusterBuild, ClusterLemmas, ClusterSep, ClusterWF | create_cluster_tree as recursion in stack order over (permutation, node) with arbitrary sort/direction/splitting oracle | induction on fuel/size: slice-permutation, tiling and frozen-slice invariants |
| C08, C52 | Geometry | center, radius, bounding box over ℝ or an ordered field | fold-max invariant; C52 false for negative coordinates: witness + partial |
| C09 | ClusterCounter | counters | induction on depth, mixed radix injectivity |
| C10 | Numbering | numbering loops as buffer updates | permutation inverse |
| C11 | ClusterIO | both files character by character: split, join, getline, stoi, printing of integers; level-wise writer, reader with its counters | BFS/preorder invariant; parse-of-print lemmas |
| C12 | Tree | explicit-stack preorder, recursive postorder | stack invariant |
| C13–C16 | BlockTree, BlockLemmas, BlockSym | build_block_tree with fuel, reset_root, get_leaves_from | induction on fuel; counting of covering leaves |
| C17, C18 | HBuild | compute_blocks on a heap of H-matrix nodes under arbitrary schedules; builder with persistent task lists | interleaving semantics; C18 false of the code: witness + partial |
| C19–C25 | HMat, HProd, HProdRM, HOps, LocalOp, Props/DenseBuilt (C23, C24 from the generator) | leaf kernels, leaf lists, products, conversions | sums over leaves |
| C26 | HOps | copy constructor field by field | false for complex symmetric: witness + partial |
| C27 | HOps | BFS lookup | queue invariant |
| C28, C32 | LowRank | lrmat products and sums | sums; C28 false at rank 0 with beta≠1: witness + partial |
| C29, C30 | Aca | full, partial and symmetric partial ACA over a field with arbitrary pivot oracle | loop invariant |
| C31, C55, C56 | Svd, Compressors, Props/Lapack, Props/Accuracy | truncation loop, recompression, Frobenius norms over RCLike | loop invariant; orthogonality; end-to-end error bound |
| C33, C35 | Dense | container, gemm wrappers | index arithmetic |
| C34 | ByteFiles | byte files | parse-of-print; witnesses for malformed input |
| C36 | HLin, HLinTri*, HLinBuilt, HLinTriAcc*, HLinTriBuilt | hierarchical triangular solves, dense, low-rank and hierarchical right-hand sides; then with compressions of tolerance eps | induction on fuel and on the list of clusters, block algebra; for the accuracy, invariant on the blocks not solved yet for a family of majorants, counting the compressions |
| C37 | HLin, HLinNum, HLinLU*, HLinPivots, HLinBuilt, Props/HLinLUAcc | hierarchical LU and lu_solve; accuracy when the compressions are not exact | same; Schur complements; residuals with respect to any majorant of the operands, without any a priori bound on the factors |
| C38 | HLin, HLinChol*, HLinArity, HLinBuilt, Props/HLinCholAcc | hierarchical Cholesky and cholesky_solve; accuracy when the compressions are not exact | same; false with three clusters: witness + partial; residuals as for C37, in the triangle used, for full or half storage: closeness to a matrix is only demanded of the stored half, and off-diagonal blocks of a half-stored matrix are full ones |
| C39–C43 | LocalOp, Distributed | collectives as functions on all ranks | index arithmetic; witnesses where the code is wrong |
| C44–C47 | Ddm | LocalNumberingBuilder, weights, GMV, DDM::solve | closed form of the loops; permutation arguments |
| C48 | Overlap | LocalHMatrixPlusOverlapSolver and the blocks of DDMSolverBuilder | block elimination on top of C37/C38; witnesses where the code is wrong |
| C49, C50 | Geneo, Props/TwoLevelBuilt | coarse space assembly and selection of eigenvectors | index arithmetic; witnesses where the code is wrong |
| C51 | Logger | logger history | induction on history |
| C54 | MatrixMemory | special member functions of Matrix on a heap | invariant over all histories |
| C57 | HLin, HLinProd*, HLinArity, HLinBuilt, HLinMask, HLinAcc*, HLinTriBuilt | hierarchical product H×H→H, with exact compressions, then with recompression and truncated SVD of tolerance eps | induction on fuel, sums over clusters; counting the truncations that reach a leaf, every one multiplying the error by 1+eps (Frobenius norm, Cauchy–Schwarz for the size of the intermediate results); witnesses where the code is wrong |
| C58 | Overlap, LocalSolvers | LocalHMatrixSolver | from C37/C38 and C10 |
| C59 | LocalSolvers | dense local matrices, LocalGeneratorInUserNumbering, LocalDenseSolver | index arithmetic |
| C60 | HLin, HLinProd, HLinProd2, Props/MixedProd, Props/MixedAcc, Props/MixedBuilt | products H-matrix × dense / low-rank, both sides, dense or low-rank result, symmetric storage | generic row-major operator lemma + gemm contract; two disagreements proved; Frobenius bounds with inexact compressions; the hypotheses hold for every built H-matrix |
| C61 | Direction, Props/Direction | covariance matrix, `solve_EVP_2`, `solve_EVP_3`, `ComputeLargestExtent`, in exact real arithmetic | spectral theorem for the bound, trigonometric root of the characteristic polynomial, adjugate columns as eigenvectors |
| C62 | HOutput, Props/HOutput | `get_hmatrix_information` (`size_t` as ℕ, `double` as ℚ, `unsigned int` products modulo 2³²) | loops as folds over the leaves; entries counted once by the covering of built H-matrices (C13/C14, HBuild) |
| C63 | HOutput, Props/HOutput | local statistics and MPI reductions | maximum, minimum and sum over the concatenation of all processes' leaves |
| C64 | HOutput, Props/HOutput | text written by `save_leaves_with_rank`, `save_levels` | round trip with a reader written from the format (as in C11) |
| C65 | Admissibility, Props/Admissibility | `RjasanowSteinbach::ComputeAdmissibility` on radius and center | triangle inequality from the bounding balls (C08), only admissible blocks are compressed (C15), final memory of the build (C17) |
| C66 | Vectors, Props/Vectors | operators of vector.hpp on lists, out of bounds explicit | induction on the lists; norm in `EuclideanSpace` |
| C67 | Vectors, Props/Text | `Matrix::print`, `split`, `join`, `operator<<` of a vector on texts | round trips with `split`; negations for the failing cases |
| C68 | ClusterText, Props/ClusterText | `save_clustered_geometry`, `print` of a cluster tree as texts | reading back; number of clusters of that depth before the point; negation for leaves above the depth |
| C69 | DdmInfo, Props/DdmInfo | information map of `DDM` (sorted association list), histories of calls, report of `solve` | induction over histories; negation for `get_information` |
| C70 | GeneoBuilder, Props/GeneoBuilder | class `GeneoCoarseSpaceDenseBuilder`; LAPACK `gv`/`ggev` outputs are arguments with their documentation as hypothesis (`GvSolves`, `GgevSolves`; `gv_exists`: satisfiable) | span of the selected eigenvectors of a Hermitian pencil (dense inputs and H-matrix inputs); negations for the failing cases |
| C71 | LrStats, Props/LrStats | `compression_ratio`, `space_saving`, the two Frobenius errors of lrmat.hpp 137-186, in exact arithmetic; outcome type `Num`: undefined behaviour, not finite, number | loop invariants; composition with C29 and C31; negations for `int` overflow, rank zero, zero block |
| C72 | SolverBuffer, Props/SolverBuffer | both versions of `LocalHMatrixSolver::solve` with the mutable `buffer` as operations on the heap of MatrixMemory, interleaved with allocations, writes and deallocations by the user | invariant of the buffer over all histories; refinement of `hmSolve` (C58) |
| C73 | Report, Props/Report | the maps of texts of both reports, `m_information`/`m_timings` as left by `build`, the position-wise MPI reductions, the padded text | sorted association lists; equal key lists from equal key sets; composition with C17 for the count; explicit reader for the text |
| C74 | TreeMoves, Props/TreeMoves | nodes as memory cells (own members, addresses of children, shared tree data), events create/move/assign/destroy/set as a relation | invariant: the live nodes are the moved-from variables and the nodes of disjoint owned trees; induction over histories; `follow` is the specification of ownership |
| C75 | TreeData, Props/TreeData | block trees labelled with the number of the parameter object each block points to; copy constructor by recursion; undefined behaviour an outcome | refinement to a specification on values (list of values per block, shared or not) for all histories |
| C76 | ClusterIO, Props/ClusterCrash | prefixes of the two files; `std::getline` at the end of a file leaves the line unchanged (sticky), `split`, `stoi`, `strtol` as in C11 | every line and cell of a cut file is a prefix of the one of the whole file and equal unless last; induction over the reader; explicit result for a cut permutation |
| C77 | IntRange, Props/IntRange | `Matrix` constructor, access, rows, columns, fill with 32-bit `int` index arithmetic (`none` = overflow or access outside) | invariant: storage holds the mathematical matrix; equivalence with `nr * nc < 2^31` |
| C78 | TwoLevel, Props/TwoLevel, Props/TwoLevelBuilt | the state of a `DDM` object on all processes and what HPDDM has received (vectors, coarse matrix), under any list of calls | invariant by induction over the history, composed with C49 and with C70 for GenEO; definedness as an equivalence; the unchecked number of rows as a witness |
| C79 | Assembled, Props/SymBuilt | entries of the H-matrix left in memory by `build` with a symmetry, any compressor | every entry lies in one leaf or one mirrored leaf (C14); a leaf on the diagonal is dense and flagged since childless clusters with the same first point are equal; an off-diagonal leaf is mirrored |
| C80 | TreeParams, Props/TreeParams | the ten assignments of `get_tree_parameters` on an ordered map, the shared parameters of C75 with the four setters called by `build`, recorded depths of C07, printed text with its constant width | values found in the map after any earlier history, greatest and least leaf depths from C07; round trip of the text from C73 |
| C81 | BuilderArgs, Props/BuilderArgs, Logger | the conditions of the constructor on characters and on `int`s converted to `size_t`, the logged messages, the kept setter value, the parameters seen by `build` | case analysis on the flags, linear arithmetic for the conversion, induction over the setter calls and over the log; witness for the source partition |

## Trusted base

* Lean's kernel; the axioms `propext`, `Classical.choice`, `Quot.sound` (those of Mathlib). No axiom is added; no compiled evaluation is used.
* The reading of the C++ code expressed by the definitions (each cites its file and lines).
* The contracts of external routines. They enter as hypotheses (or as definitions) of the theorems, and are shown satisfiable:
  * LAPACK gesvd/geqrf/…: `exists_lapack`; trsm: `exact_solve_ops_exist`; getrf: `exact_lu_ops_exist`; potrf: `exact_chol_ops_exist`, `posDef_chol`; getrs: `denseLU_exists`;
    compressions of low-rank sums and products in C36–C38, C57: exact (`exact_ops_exist`).
  * gemm/gemv/symm/hemm: definitions (hemv/hemm: real diagonal).
  * HPDDM is not in the repository: `exchange` is modelled from its contract (neighbour lists), the Krylov method is an arbitrary function, the
    eigenvalue solvers of GenEO return arbitrary results.
  * Printing and parsing of coordinates in cluster files: arbitrary functions (`NumFmt`).
* Exact arithmetic: floating-point rounding is outside the model, as are integer overflow, exceptions of `new`, and MPI failures.

**Not modelled**: the values of timers (arbitrary texts in C69, C73), VTK output, command line input, PETSc/HPDDM internals,
`proto_ddm.hpp` (not compiled), the `testing` helpers.

## Where the code does not do what the properties say

Each item is a theorem (a negation with a witness, or a general statement of what the code does instead) unless marked *note*.

* Block trees: with a partition on the target and a symmetric one differently set, parts are covered twice or not at all (C14 requires matching settings).
* Builder reuse overwrites earlier H-matrices, and accesses freed memory if one was destroyed (`C18_…`).
* Local operators: matrix product lost with target permutation; transposed vector product ignores it and is wrong for Hermitian operators; transposed matrix
  product ignores beta (`C21_…`, `C42_…`); sub-matrix product out of bounds for a source offset > 0 (`C43_…`), overwrites with several operators.
* Scaling a Hermitian H-matrix by a complex scalar (`C25_…`); copy constructor on complex symmetric matrices (`C26_…`).
* Low-rank products ignore beta at rank 0 (`C28_rank_zero_defect`); recompression of rank 0 reads out of bounds (excluded in C55).
* partialACA accepts an inaccurate approximation when it meets a zero row (`C30_accuracy_not_guaranteed`).
* Matrix: `resize` on borrowed storage takes ownership; moved-from matrices; `assign` on an empty matrix leaks (`C54_…_defect`).
* Byte files: empty and truncated files accepted, negative size leaves a dangling pointer (`C34_…_defect`).
* Bounding box with negative coordinates only (`C52_…_fails`).
* GMV applies the conjugate operator for a Hermitian operator and several right-hand sides (`C47_…`).
* `solve_EVP_3` works for a repeated largest eigenvalue only because its literal for `π/3` is slightly too large (`C61_exact_third_degenerate`).
* Mixed products: a rank 0 low-rank operand leaves `C` unscaled by `beta`; a complex hermitian H-matrix on the right with `transb = 'N'` and a transposed left operand is conjugated (`C60_…`).
* Statistics: minima started from the larger dimension, 32-bit number of entries (`C62_min_false`, `C62_compression_overflows`, `C63_min_false`); a repeated depth in
  `save_levels` gives an empty file (`C64_repeated_depth_empty`).
* C67: `join` loses empty texts at the beginning; `operator<<` of a vector prints the entries to `std::cout`, not to the given stream; `split` with an
  empty delimiter does not terminate. Also `csv_save` returns 0 when the file cannot be created.
* C68: `save_clustered_geometry` gives points of leaves above the requested depth the number 0, which is also the number of the first cluster of that depth;
  a depth that occurs twice in the list gets a row of zeros the second time.
* C69: `DDM::get_information` inserts an empty entry for an absent key (`operator[]`); a later `add_infos` then stores a number instead of the given text.
* C70: `build_coarse_space` calls the Hermitian routine `hegv` for complex matrices flagged symmetric; overwrites the members of the builder, so a second call
  solves another problem; ignores `alphai` for real non-symmetric matrices; the factories convert the diagonal block to user numbering when there is no overlap; a
  matrix with another number of columns is silently replaced by zero.
* C71: `compression_ratio` computes `m * n` with `int` (overflow for a 65536 × 65536 block) and divides by zero at rank zero; `Frobenius_relative_error` returns NaN for a block of zeros; a requested rank above the rank reads after the end of the factors.
* C72: without permutation, `solve(b, x, 0)` loses the empty block the buffer was resized to (`assign` only deletes when there are entries).
* C73: `get_distributed_hmatrix_information` adds the numbers of the ranks by position, under the names of rank 0, and calls `MPI_Reduce` with different counts if ranks store different names; `m_false_positive` is never reset, so a builder used twice reports accumulated counts.
* C74: `m_root_cluster` (cluster_node.hpp 31, 70) keeps the address where the root was constructed: after a move (`std::make_shared<Cluster>(builder.create_cluster_tree(…))`, the pattern of the tests) `get_root_cluster()` dangles. Likewise a block whose cluster is the root itself.
* C75: the copy constructor of `HMatrix` makes new tree data for every block (hmatrix.hpp 66, called recursively 69), so on a copy `set_epsilon` changes the tolerance of the root block only; `A = *A.get_children()[0]` clears the children of `A` before reading those of its (destroyed) child.
* C76: `read_cluster_tree` does not check the number of entries of the permutation nor the success of `std::getline` (cluster_output.hpp 129-147): a properties file cut in the permutation is read without error, the missing entries being `m, m+1, …`; the line of the locality flag is then the cut line again.
* C77: `new T[nbr * nbc]` and `j + k * m_number_of_rows` are `int` products (matrix.hpp 31-34, 91-104): undefined behaviour from 2^31 entries on.
* C78: `build_coarse_space` takes the vectors `m_size_w_overlap` entries apart whatever the number of rows of the matrix it receives: another number of rows gives wrong vectors or reads outside of the matrix (`C78_rows_unchecked`). `solve` without factorisation and without coarse space logs nothing.
* C80: `ClusterTreeBuilder::set_minclustersize` changes a member of the builder only (recursive_build.hpp 26, 45); `get_minclustersize` of the tree, printed and saved with it, is always 10 (cluster_tree_data.hpp 15).
* C81: the constructor compares the partition number for symmetry with the partition of the target only (tree_builder.hpp 143), but `is_removed_by_symmetry` indexes the partition of the source with it too (lines 76, 83): out of bounds, without a message, if the source has fewer clusters on its partition.
* GenEO: coarse operator transposed for unsymmetric operators and conjugate for Hermitian ones (`C49_…`); threshold loop out of bounds when all eigenvalues are above
  the threshold (`C50_out_of_bounds`).
* H×H product: beta ignored for a divided C with an undivided operand (`C57_beta_ignored`); product lost with a partition two or more levels deep (`C57_deep_partition`).
* Cholesky with three clusters in a list (`C38_three_clusters`); *note*: with complex symmetric matrices it uses the adjoint; with pivots left by an earlier LU it permutes.
* Overlap solver: Cholesky with overlap wrong for both UPLO (`C48_cholesky_overlap_wrong`); unsymmetric blocks of the builder leave C empty, so the overlap is ignored
  (`C48_builder_unsymmetric_wrong`).
* *Notes*: cluster files with 0 points lack a line end; radius and center lose digits; saving a non-root cluster gives an unreadable file; with float coordinates
  counters above 2^24 are parsed inexactly. `is_pivoted` is inverted but harmless (the last LAPACK pivot is always n). LowRankMatrix member products do not compile if used.

## Tests of the theorems against wrong programs

`seeded/LOG.jsonl`: each line is an edit of a definition of the model, the claim it breaks, and the theorems which failed to build.
Edits after which everything still builds are either equivalent programs (said so in the line) or led to a stronger theorem (`theorems_tightened`). In the last round (90 edits)
`printText`, `coarseName` and `distEntries` could be changed because the statements used the same tables as the model: `C69_print`, `C69_names` and `DistFields` now spell them out.
