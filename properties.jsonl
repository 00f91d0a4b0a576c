{"id": "C01", "title": "Splitting a cluster tiles it", "statement": "Whenever a splitting strategy (RegularSplitting or GeometricSplitting) decides to split a cluster into k children, the k child intervals (offset,size) are consecutive, disjoint and cover exactly [offset, offset+size) of the parent, each child being larger than the minimal cluster size.", "quantifier": "every parent interval, every number of children k>=1, every minimal cluster size, every point cloud / direction / permutation", "why_tests_cant": "tests try a few sizes; integer-division remainders and geometric corner cases form an unbounded input space", "anchors": ["include/htool/clustering/tree_builder/splitting.hpp: RegularSplitting::splitting, GeometricSplitting::splitting"]}
{"id": "C02", "title": "The cluster tree permutation is a permutation", "statement": "The permutation returned by create_cluster_tree is a bijection of 0..n-1: every user index appears exactly once.", "quantifier": "every number of points, geometry, direction strategy, splitting strategy, number of children, partition", "why_tests_cant": "depends on an unbounded sequence of in-place slice sorts on data-dependent slices", "anchors": ["include/htool/clustering/tree_builder/recursive_build.hpp: ClusterTreeBuilder::create_cluster_tree"]}
{"id": "C03", "title": "Cluster tree is a hierarchical partition", "statement": "In the tree returned by create_cluster_tree every non-leaf cluster's children tile it in order, and the leaves read from left to right tile [0,n).", "quantifier": "every input of create_cluster_tree (including user given partitions that tile [0,n)) and every node", "why_tests_cant": "a structural invariant over trees of unbounded depth", "anchors": ["include/htool/clustering/tree_builder/recursive_build.hpp: create_cluster_tree", "include/htool/clustering/cluster_node.hpp: Cluster"]}
{"id": "C04", "title": "A cluster's index set is frozen once it is created", "statement": "The set of user indices held by a cluster when it is created is the set it holds in the final permutation: later sorting only reorders inside it. In particular with a user-given partition the final permutation maps each part onto itself (is_permutation_local is truthful).", "quantifier": "every cluster of every tree, every sequence of later splits", "why_tests_cant": "requires reasoning about all later mutations of a shared permutation array", "anchors": ["include/htool/clustering/tree_builder/recursive_build.hpp: create_cluster_tree", "include/htool/clustering/cluster_node.hpp: is_permutation_local"]}
{"id": "C05", "title": "Partition clusters are exactly one per rank and tile the index range", "statement": "When no node above the partition level fails to split, get_clusters_on_partition() has exactly size_of_partition entries, entry r has rank r, and taken in rank order they tile [0,n).", "quantifier": "every number of children k>=2, every size_of_partition >=1 (power of k or not), every n", "why_tests_cant": "the number of levels and the placement of the extra children on the last node depend on unbounded parameters", "anchors": ["include/htool/clustering/tree_builder/recursive_build.hpp: create_cluster_tree", "include/htool/clustering/cluster_node.hpp: Cluster child constructor"]}
{"id": "C06", "title": "Building a cluster tree terminates", "statement": "create_cluster_tree terminates for every number of children >= 2: each split strictly decreases size below the partition level.", "quantifier": "every n, every minimal cluster size, every partition size", "why_tests_cant": "non-termination cannot be observed by a finite test", "anchors": ["include/htool/clustering/tree_builder/recursive_build.hpp: create_cluster_tree"]}
{"id": "C07", "title": "Reported minimal and maximal depth", "statement": "get_maximal_depth / get_minimal_depth of a built tree are the maximum / minimum depth over the leaves of the tree.", "quantifier": "every tree built with success (all leaves have a rank)", "why_tests_cant": "tests compare only on a few balanced trees", "anchors": ["include/htool/clustering/tree_builder/recursive_build.hpp: create_cluster_tree", "include/htool/clustering/cluster_node.hpp: get_maximal_depth,get_minimal_depth"]}
{"id": "C08", "title": "Clusters are bounding balls", "statement": "For every cluster, every point x of the cluster with radius r satisfies |x-center|+r <= get_radius().", "quantifier": "every point cloud, radii, weights, every cluster", "why_tests_cant": "real geometry is unbounded; admissibility and hence accuracy depends on it for all clusters", "anchors": ["include/htool/clustering/tree_builder/recursive_build.hpp: compute_radius, compute_center"]}
{"id": "C09", "title": "Cluster equality identifies a node", "statement": "Within one tree, operator== on clusters holds only between a node and itself: no two distinct nodes share depth and counter.", "quantifier": "every built tree, every pair of nodes", "why_tests_cant": "get_sub_hmatrix and the block algebra select blocks by this equality, for trees of any shape", "anchors": ["include/htool/clustering/cluster_node.hpp: operator==", "include/htool/clustering/tree_builder/recursive_build.hpp: counter_of_child"]}
{"id": "C10", "title": "Numbering round trips", "statement": "global_to_root_cluster and root_cluster_to_global are mutually inverse; so are local_to_local_cluster/local_cluster_to_local on every partition cluster when the permutation is local, and user_to_cluster/cluster_to_user on root and (local) partition clusters; each writes exactly the entries of its output range.", "quantifier": "every permutation produced by the builder, every vector, every subdomain", "why_tests_cant": "quantifies over all permutations and vectors", "anchors": ["include/htool/clustering/cluster_node.hpp: root_cluster_to_global, global_to_root_cluster, local_cluster_to_local, local_to_local_cluster, cluster_to_user, user_to_cluster"]}
{"id": "C11", "title": "Saved cluster trees are read back unchanged", "statement": "read_cluster_tree applied to the files written by save_cluster_tree rebuilds a tree with the same shape and the same rank, offset, size, counter, partition flags, permutation and permutation locality at every node.", "quantifier": "every cluster tree", "why_tests_cant": "level-wise files with implicit child positions: correctness depends on traversal order for all tree shapes", "anchors": ["include/htool/clustering/cluster_output.hpp: save_cluster_tree, read_cluster_tree", "include/htool/misc/user.hpp: split, join"]}
{"id": "C12", "title": "Tree traversals visit every node exactly once", "statement": "preorder_tree_traversal visits each node exactly once, a parent before its children and children left to right; postorder_tree_traversal visits each node exactly once, children before their parent.", "quantifier": "every tree", "why_tests_cant": "explicit-stack traversal correctness ranges over all tree shapes", "anchors": ["include/htool/basic_types/tree.hpp: preorder_tree_traversal, postorder_tree_traversal"]}
{"id": "C13", "title": "Block tree leaves tile the matrix (no symmetry)", "statement": "For a builder with symmetry 'N', every entry (i,j) of target x source belongs to exactly one leaf block; with a target partition number p, every entry whose row is in partition p belongs to exactly one leaf and rows outside p to none.", "quantifier": "every pair of well-formed cluster trees, every admissibility condition, depth constraints, consistency mode, partition number", "why_tests_cant": "the case analysis of build_block_tree over pairs of trees of any shape", "anchors": ["include/htool/hmatrix/tree_builder/tree_builder.hpp: build_block_tree, is_target_cluster_in_target_partition, reset_root_of_block_tree", "include/htool/hmatrix/hmatrix.hpp: get_leaves_from"]}
{"id": "C14", "title": "Block tree leaves and their mirror tile the matrix (symmetry)", "statement": "For symmetry 'S' or 'H' with UPLO 'L' or 'U', every entry is covered exactly once by either a leaf block or the transpose of a leaf block reported for symmetry.", "quantifier": "every well-formed cluster tree, every admissibility condition, both UPLO, no partition number or the same partition number for target and symmetry (for mixed settings the claim fails, shown by a witness)", "why_tests_cant": "same as above, with removed blocks", "anchors": ["include/htool/hmatrix/tree_builder/tree_builder.hpp: is_removed_by_symmetry, set_hmatrix_symmetry", "include/htool/hmatrix/hmatrix.hpp: get_leaves_from"]}
{"id": "C15", "title": "Only admissible blocks are compressed", "statement": "A block proposed for low-rank compression satisfies the admissibility condition, the minimal target and source depths, and lies inside one partition cluster; every other leaf is a pair of leaf clusters and is stored dense.", "quantifier": "every block of every block tree", "why_tests_cant": "universal over leaves of all trees", "anchors": ["include/htool/hmatrix/tree_builder/tree_builder.hpp: build_block_tree", "include/htool/hmatrix/interfaces/virtual_admissibility_condition.hpp: RjasanowSteinbach"]}
{"id": "C16", "title": "Building a block tree terminates and leaves no empty hierarchical block", "statement": "build terminates for all pairs of well-formed cluster trees, and every block without children is dense or low-rank (the product would recurse for ever on a childless hierarchical block).", "quantifier": "every pair of cluster trees and builder settings", "why_tests_cant": "termination and absence of stuck nodes for all shapes", "anchors": ["include/htool/hmatrix/tree_builder/tree_builder.hpp: build_block_tree, reset_root_of_block_tree"]}
{"id": "C17", "title": "Failed compressions fall back to exact dense blocks", "statement": "After compute_blocks every admissible block holds either a low-rank approximation with matching dimensions or the exact dense block, and the number of false positives equals the number of fallbacks, for every thread schedule.", "quantifier": "every set of tasks, every low-rank generator outcome, every OpenMP schedule", "why_tests_cant": "data-dependent and schedule-dependent", "anchors": ["include/htool/hmatrix/tree_builder/tree_builder.hpp: compute_blocks", "include/htool/hmatrix/lrmat/lrmat.hpp: LowRankMatrix constructors"]}
{"id": "C18", "title": "A builder can be reused", "statement": "Calling build twice on the same HMatrixTreeBuilder gives two independent HMatrices: the second call does not modify the HMatrix returned by the first.", "quantifier": "every pair of generators and every history of build calls", "why_tests_cant": "a history property", "anchors": ["include/htool/hmatrix/tree_builder/tree_builder.hpp: m_admissible_tasks, m_dense_tasks, build, compute_blocks"]}
{"id": "C19", "title": "HMatrix-vector product equals the dense product", "statement": "add_hmatrix_vector_product computes out = alpha*op(A)*in + beta*out, where A is the dense matrix assembled from the leaves (and mirrored leaves), for op = N, T, C without symmetry, N/T with 'S', N/C with 'H', and it touches no other entry of out.", "quantifier": "every H-matrix, alpha, beta, in, out", "why_tests_cant": "universal over trees and vectors", "anchors": ["include/htool/hmatrix/linalg/add_hmatrix_vector_product.hpp: internal_add_hmatrix_vector_product, sequential_internal_add_hmatrix_vector_product"]}
{"id": "C20", "title": "Parallel product is schedule independent", "statement": "openmp_internal_add_hmatrix_vector_product gives, in exact arithmetic, the result of the sequential product for every assignment of leaves to threads, every number of threads and every order in which threads enter the critical section.", "quantifier": "every schedule", "why_tests_cant": "schedules cannot be enumerated by tests", "anchors": ["include/htool/hmatrix/linalg/add_hmatrix_vector_product.hpp: openmp_internal_add_hmatrix_vector_product"]}
{"id": "C21", "title": "Local products in user numbering", "statement": "For a LocalOperator (LocalHMatrix, LocalDenseMatrix) with any combination of its two permutation flags, add_vector_product_global_to_local, add_matrix_product_global_to_local and the transposed local_to_global versions compute beta*out + alpha*op(A)*in, with A in the numbering the flags select, and write nothing else.", "quantifier": "every permutation pair local to the clusters, flag combination, symmetry, H-matrix or dense matrix, schedule, alpha, beta and vector", "why_tests_cant": "universal over permutations", "anchors": ["include/htool/local_operators/local_operator.hpp: add_vector_product_global_to_local, add_matrix_product_global_to_local, add_vector_product_transp_local_to_global, add_matrix_product_transp_local_to_global", "include/htool/local_operators/local_hmatrix.hpp", "include/htool/local_operators/local_dense_matrix.hpp"]}
{"id": "C22", "title": "Row-major multi-vector product agrees column by column with the vector product", "statement": "internal_add_hmatrix_matrix_product_row_major with mu right-hand sides stored row-major computes, for each column, the same as the vector product.", "quantifier": "every H-matrix, mu, alpha, beta", "why_tests_cant": "index arithmetic over all sizes", "anchors": ["include/htool/hmatrix/linalg/add_hmatrix_matrix_product_row_major.hpp", "include/htool/matrix/linalg/add_matrix_matrix_product_row_major.hpp"]}
{"id": "C23", "title": "Dense conversion", "statement": "copy_to_dense writes the leaf values at their place (all entries without symmetry); copy_to_dense_in_user_numbering gives the full matrix, including the mirrored half, in user numbering.", "quantifier": "every H-matrix from the builder", "why_tests_cant": "universal over trees and permutations", "anchors": ["include/htool/hmatrix/hmatrix.hpp: copy_to_dense, copy_to_dense_in_user_numbering"]}
{"id": "C24", "title": "Diagonal extraction", "statement": "copy_diagonal (and its user numbering version) writes A(i,i) for every i.", "quantifier": "every square H-matrix from the builder whose diagonal is met by square diagonal leaves", "why_tests_cant": "universal over trees", "anchors": ["include/htool/hmatrix/hmatrix.hpp: copy_diagonal, copy_diagonal_in_user_numbering"]}
{"id": "C25", "title": "Scaling an HMatrix", "statement": "scale(alpha, H) multiplies the represented matrix by alpha.", "quantifier": "every H-matrix and scalar", "why_tests_cant": "universal over trees", "anchors": ["include/htool/hmatrix/linalg/scale.hpp", "include/htool/hmatrix/lrmat/linalg/scale.hpp"]}
{"id": "C26", "title": "Copying an HMatrix preserves the operator", "statement": "The deep copy of an HMatrix represents the same operator: products with the copy give the same result as products with the original, for every symmetry type.", "quantifier": "every H-matrix", "why_tests_cant": "history/aliasing property over all symmetric types", "anchors": ["include/htool/hmatrix/hmatrix.hpp: copy constructor, operator="]}
{"id": "C27", "title": "Sub-block lookup", "statement": "get_sub_hmatrix(t,s) returns a node whose clusters equal (t,s) if and only if such a node exists in the tree; get_child_or_this likewise for the node and its children.", "quantifier": "every tree and pair of clusters", "why_tests_cant": "BFS over arbitrary trees", "anchors": ["include/htool/hmatrix/hmatrix.hpp: get_sub_hmatrix, get_child_or_this"]}
{"id": "C28", "title": "Low-rank products obey the BLAS contract", "statement": "Products with a low-rank matrix compute alpha*op(UV)*X + beta*Y for every rank, including rank 0.", "quantifier": "every low-rank matrix, op, alpha, beta", "why_tests_cant": "includes the degenerate rank-0 case", "anchors": ["include/htool/hmatrix/lrmat/linalg/add_lrmat_vector_product.hpp", "include/htool/hmatrix/lrmat/linalg/add_lrmat_matrix_product.hpp"]}
{"id": "C29", "title": "Full-pivot ACA residual identity", "statement": "At each step of fullACA the generator block equals the sum of the crosses found so far plus the residual; the returned U,V have the rank reported, at most min(M,N) meaningful crosses, and are never more expensive than the dense block.", "quantifier": "every block, every epsilon and required rank", "why_tests_cant": "loop invariant over unbounded iterations", "anchors": ["include/htool/hmatrix/lrmat/fullACA.hpp: copy_low_rank_approximation"]}
{"id": "C30", "title": "Partial-pivot ACA interpolates the block", "statement": "After each successful iteration of partialACA/sympartialACA the approximation UV coincides exactly with the block on every selected row and column, and a returned positive rank always comes with factors of matching size and storage smaller than the dense block.", "quantifier": "every block, every epsilon and required rank", "why_tests_cant": "loop invariant over unbounded iterations", "anchors": ["include/htool/hmatrix/lrmat/partialACA.hpp", "include/htool/hmatrix/lrmat/sympartialACA.hpp"]}
{"id": "C31", "title": "Truncation rank of an SVD", "statement": "The rank kept by SVD_truncation is the smallest r>=1 such that the discarded tail satisfies sqrt(sum_{j>=r} s_j^2) < eps*||s||, unless even discarding nothing is needed.", "quantifier": "every singular value sequence and epsilon", "why_tests_cant": "real-valued inputs", "anchors": ["include/htool/matrix/utils/SVD_truncation.hpp"]}
{"id": "C32", "title": "Sum of low-rank matrices", "statement": "add_lrmat_lrmat (before recompression) represents exactly the sum X+Y on Y's block, whatever the inclusion relation between the blocks of X and Y.", "quantifier": "every pair of low-rank blocks with nested clusters", "why_tests_cant": "index shifts for all nested offsets", "anchors": ["include/htool/hmatrix/lrmat/linalg/add_lrmat_lrmat.hpp"]}
{"id": "C33", "title": "Column-major container laws", "statement": "Matrix element access, get_row/get_col, set_row/set_col, transpose, resize and argmax refer to the same logical matrix: storing then reading returns the stored value, other entries are unchanged, and transpose(transpose(A))=A.", "quantifier": "every size and index", "why_tests_cant": "index arithmetic for all sizes", "anchors": ["include/htool/matrix/matrix.hpp: Matrix", "include/htool/matrix/linalg/transpose.hpp"]}
{"id": "C34", "title": "Binary serialisation round trip", "statement": "bytes_to_matrix(matrix_to_bytes(A)) = A and bytes_to_vector(vector_to_bytes(v)) = v, and malformed input is rejected or leaves the object unchanged.", "quantifier": "every matrix and vector of representable size", "why_tests_cant": "all byte strings", "anchors": ["include/htool/matrix/matrix.hpp: matrix_to_bytes, bytes_to_matrix", "include/htool/basic_types/vector.hpp: vector_to_bytes, bytes_to_vector"]}
{"id": "C35", "title": "Dense matrix-matrix product wrappers", "statement": "add_matrix_matrix_product and its row-major version pass dimensions and leading dimensions such that the BLAS call computes alpha*op(A)*op(B)+beta*C for all combinations of op, with all accesses in bounds.", "quantifier": "every size and op", "why_tests_cant": "index arithmetic for all sizes and flags", "anchors": ["include/htool/matrix/linalg/add_matrix_matrix_product.hpp", "include/htool/matrix/linalg/add_matrix_matrix_product_row_major.hpp"]}
{"id": "C36", "title": "Hierarchical triangular solves", "statement": "In exact arithmetic the hierarchical lower/upper triangular solves return X with op(T) X = alpha B for the block matrix represented by the H-matrix.", "quantifier": "every block structure (any number of children, any depth), every right-hand side", "why_tests_cant": "recursion over arbitrary trees", "anchors": ["include/htool/hmatrix/linalg/triangular_hmatrix_matrix_solve.hpp", "include/htool/hmatrix/linalg/triangular_hmatrix_hmatrix_solve.hpp"]}
{"id": "C37", "title": "Hierarchical LU factorisation", "statement": "In exact arithmetic without truncation, if lu_factorization succeeds then L*U = A and lu_solve returns the solution of A x = b in user numbering. With truncations of relative accuracy eps, as long as no dense pivot block is singular, the product of the stored factors differs from A, and the solution leaves a residual, by at most a constant of order eps (depending only on the height of the block tree and the number of children of clusters) times the Frobenius norms of A, L and U.", "quantifier": "every block structure and right-hand side", "why_tests_cant": "recursion over arbitrary trees", "anchors": ["include/htool/hmatrix/linalg/factorization.hpp: lu_factorization, lu_solve"]}
{"id": "C38", "title": "Hierarchical Cholesky factorisation", "statement": "In exact arithmetic without truncation, if cholesky_factorization succeeds then L*L^* = A (UPLO='L') or U^* U = A (UPLO='U') and cholesky_solve returns the solution of A x = b. With truncations of relative accuracy eps, as long as no pivot block fails to have a Cholesky factor, the product of the stored factor and its adjoint differs from A in the triangle used, and the solution leaves a residual, by at most a constant of order eps (depending only on the height of the block tree and the number of children of clusters) times ||A|| + ||L||^2 in Frobenius norm.", "quantifier": "every block structure and right-hand side", "why_tests_cant": "recursion over arbitrary trees", "anchors": ["include/htool/hmatrix/linalg/factorization.hpp: cholesky_factorization, cholesky_solve"]}
{"id": "C39", "title": "Distributed global-to-global product", "statement": "vector_product_global_to_global and matrix_product_global_to_global return on every rank the full product A*x (columns of X) in user numbering.", "quantifier": "every number of ranks, partition (sizes may differ or be zero), mu", "why_tests_cant": "all communicator sizes and partitions", "anchors": ["include/htool/distributed_operator/distributed_operator.hpp: vector_product_global_to_global, matrix_product_global_to_global"]}
{"id": "C40", "title": "Distributed transposed product", "statement": "vector_product_transp_global_to_global, matrix_product_transp_global_to_global and the transposed local-to-local products return A^T*x (A^T*X) for every symmetry type.", "quantifier": "every number of ranks, partition, symmetry", "why_tests_cant": "all communicator sizes; Hermitian conjugation logic", "anchors": ["include/htool/distributed_operator/distributed_operator.hpp: *_transp_*"]}
{"id": "C41", "title": "Distributed local-to-local product", "statement": "vector_product_local_to_local and matrix_product_local_to_local return on rank r the r-th block of A*x when the permutation is local.", "quantifier": "every number of ranks and partition", "why_tests_cant": "all communicator sizes", "anchors": ["include/htool/distributed_operator/distributed_operator.hpp: vector_product_local_to_local, matrix_product_local_to_local, local_to_global_source"]}
{"id": "C42", "title": "Several local operators accumulate", "statement": "With several local operators added to a distributed operator, every product (vector, matrix, transposed, sub-matrix) is the sum of their contributions.", "quantifier": "every list of local operators", "why_tests_cant": "histories of add_local_operator", "anchors": ["include/htool/distributed_operator/distributed_operator.hpp: add_local_operator", "include/htool/local_operators/local_operator.hpp"]}
{"id": "C43", "title": "Sub-matrix product used for coarse spaces", "statement": "internal_sub_matrix_product_to_local(in,out,mu,offset,size) computes the local rows of A restricted to columns [offset,offset+size) times in.", "quantifier": "every local operator column range, offset, size and mu", "why_tests_cant": "all relative positions of two intervals", "anchors": ["include/htool/local_operators/local_operator.hpp: sub_matrix_product_to_local, local_sub_matrix_vector_product"]}
{"id": "C44", "title": "Overlapping local numbering", "statement": "LocalNumberingBuilder lists each overlapping-subdomain index exactly once, the cluster's own unknowns first in cluster order, and the renumbered intersections designate the same global unknowns.", "quantifier": "every overlapping subdomain and injective cluster_to_ovr_subdomain", "why_tests_cant": "all numberings", "anchors": ["include/htool/solvers/utility.hpp: LocalNumberingBuilder"]}
{"id": "C45", "title": "Partition of unity", "statement": "The local weights used by the DDM solver form a partition of unity: summing the weighted restrictions over all subdomains gives back every global vector.", "quantifier": "every number of subdomains, every overlap", "why_tests_cant": "all decompositions", "anchors": ["include/htool/solvers/ddm.hpp: DDM constructor"]}
{"id": "C46", "title": "DDM solve gathers the solution in user numbering", "statement": "Given the local iterates returned by the Krylov method, DDM::solve writes to x, on each rank, the global solution in user numbering for every right-hand side, and feeds the Krylov method with the restriction of the permuted right-hand sides.", "quantifier": "every number of ranks, mu and overlap", "why_tests_cant": "index arithmetic for all sizes", "anchors": ["include/htool/solvers/ddm.hpp: DDM::solve"]}
{"id": "C47", "title": "Krylov operator application", "statement": "The operator handed to the Krylov solver applies the same matrix whatever the number mu of simultaneous right-hand sides, for every symmetry type.", "quantifier": "every operator, mu and symmetry type", "why_tests_cant": "Hermitian multi-RHS combination over all inputs", "anchors": ["include/htool/wrappers/wrapper_hpddm.hpp: HPDDMOperator::GMV"]}
{"id": "C48", "title": "Local solver with overlap", "statement": "LocalHMatrixPlusOverlapSolver solves the 2x2 block system [A B; C D] for every right-hand side, for LU, and for Cholesky with both UPLO.", "quantifier": "every block system for which the factorisations exist", "why_tests_cant": "all matrices", "anchors": ["include/htool/solvers/local_solvers/local_hmatrix_plus_overlap_solvers.hpp", "include/htool/solvers/utility.hpp: initialize_blocks_in_overlap"]}
{"id": "C49", "title": "GenEO coarse operator", "statement": "build_geneo_coarse_operator assembles the Galerkin matrix Z^* A Z of the coarse space, with each rank contributing its columns.", "quantifier": "every number of ranks, numbers of coarse vectors (possibly 0) and symmetry type", "why_tests_cant": "all communicator sizes", "anchors": ["include/htool/solvers/geneo/coarse_operator_builder.hpp: build_geneo_coarse_operator"]}
{"id": "C50", "title": "GenEO threshold selection is in bounds", "statement": "Selecting coarse vectors by threshold keeps exactly the eigenpairs above the threshold and never reads outside the eigenvalue array.", "quantifier": "every spectrum and threshold", "why_tests_cant": "all spectra", "anchors": ["include/htool/solvers/geneo/coarse_space_builder.hpp: build_coarse_space"]}
{"id": "C51", "title": "Log filtering", "statement": "A message is emitted by the default writer iff its level is at most the configured level; changing the level takes effect for later messages only.", "quantifier": "every history of log / set_current_log_level calls", "why_tests_cant": "histories", "anchors": ["include/htool/misc/logger.hpp: Logger, StandartOutputWriter"]}
{"id": "C52", "title": "Bounding-box direction is an axis of largest extent", "statement": "ComputeBoundingBox returns a unit vector along an axis in which the points of the cluster have the largest extent.", "quantifier": "every cluster, every point cloud (any signs), every dimension", "why_tests_cant": "depends on the sign and magnitude of every coordinate in the cluster", "anchors": ["include/htool/clustering/tree_builder/direction_computation.hpp: ComputeBoundingBox"]}
{"id": "C53", "title": "Children of a cluster are separated along one direction", "statement": "For every non-leaf cluster of the tree returned by create_cluster_tree there is one direction along which every point of a child comes before or level with every point of the next children, in the final permutation.", "quantifier": "every geometry, direction strategy, splitting strategy, number of children and automatic partition", "why_tests_cant": "later recursive sorts rewrite slices of the permutation; one must know for all histories that they never move a point across a sibling boundary", "anchors": ["include/htool/clustering/tree_builder/recursive_build.hpp: create_cluster_tree"]}
{"id": "C54", "title": "Storage of dense matrices over any history", "statement": "Whatever the sequence of constructions, copies, moves, assignments, assign/release/resize and destructions of Matrix objects, no storage is deleted twice or lost, buffers of the user are never deleted, a copy has the entries of the original, and later changes to a matrix never show in another matrix owning its storage.", "quantifier": "every finite history of operations on any number of matrices and user buffers, of any sizes", "why_tests_cant": "aliasing, double deletion and leaks depend on the whole history; a test runs a few of them", "anchors": ["include/htool/matrix/matrix.hpp: Matrix, operator=, ~Matrix, assign, release, resize"]}
{"id": "C55", "title": "Recompression and low-rank arithmetic reach the tolerance", "statement": "Recompressing a low-rank matrix keeps its sizes, never increases its rank, and changes the matrix by less than the tolerance relative to its Frobenius norm (or not at all). As a consequence the products into a low-rank matrix and the sum of low-rank blocks are the exact result up to that tolerance (for the product of two dense matrices added to a low-rank matrix: up to the tolerance on the result plus the tolerance on the product).", "quantifier": "every low-rank matrix of positive rank, all sizes, real and complex coefficients, all tolerances, operands, transpositions and scalars", "why_tests_cant": "the error bound involves all matrices and every way the rank compares with the sizes", "anchors": ["include/htool/hmatrix/lrmat/utils/recompression.hpp: recompression", "include/htool/hmatrix/lrmat/linalg/add_matrix_matrix_product.hpp: add_matrix_matrix_product", "include/htool/hmatrix/lrmat/linalg/add_lrmat_lrmat.hpp: add_lrmat_lrmat"]}
{"id": "C56", "title": "End-to-end accuracy of an H-matrix", "statement": "An H-matrix built with the SVD compressor (no required rank) differs from the matrix of the generator by at most epsilon times its Frobenius norm; with fullACA, the same up to 1e-15 per coefficient; for any compressor, a bound on each compressed block is a bound on the whole operator, and the output of a product differs from the exact one by at most |alpha| times that bound times the norm of the input.", "quantifier": "every geometry, cluster trees, symmetry, admissibility, epsilon, generator, number of threads and schedule of the build and of the product", "why_tests_cant": "the bound must hold for all matrices and block structures; tests check a few geometries and kernels", "anchors": ["include/htool/hmatrix/tree_builder/tree_builder.hpp: HMatrixTreeBuilder::build", "include/htool/hmatrix/lrmat/SVD.hpp: SVD", "include/htool/hmatrix/lrmat/fullACA.hpp: fullACA", "include/htool/hmatrix/lrmat/lrmat.hpp: LowRankMatrix"]}
{"id": "C57", "title": "Product of hierarchical matrices", "statement": "add_hmatrix_hmatrix_product computes C := alpha op(A) op(B) + beta C up to the accuracy of the low-rank compressions: with exact compressions the entries of C afterwards are exactly those of the dense formula, whatever the block structures of A, B and C, the transpositions and the scalars.", "quantifier": "all H-matrices A, B, C with matching clusters, all block structures (dense, low-rank, divided, in any combination), all transpositions, all alpha and beta, all partitions", "why_tests_cant": "The recursion meets 27 combinations of kinds of blocks at every level, with three transposition modes for each operand and blocks that do not match; tests use one geometry and one partition.", "anchors": ["include/htool/hmatrix/linalg/add_hmatrix_hmatrix_product.hpp:internal_add_hmatrix_hmatrix_product", "include/htool/hmatrix/linalg/add_lrmat_hmatrix.hpp:internal_add_lrmat_hmatrix"]}
{"id": "C58", "title": "Local solver of an H-matrix", "statement": "LocalHMatrixSolver::numfact followed by solve (in place or not) solves the linear system with the matrix of the local H-matrix for every number of right-hand sides, in user numbering when the solver was created with is_using_permutation and in cluster numbering otherwise, for LU ('N') and for Cholesky ('S', 'H', both UPLO), and writes nothing after the mu columns of the solution.", "quantifier": "all H-matrices whose factorization exists, all right-hand sides, all numbers of right-hand sides", "why_tests_cant": "all matrices, cluster trees and right-hand sides", "anchors": ["include/htool/solvers/local_solvers/local_hmatrix_solvers.hpp: LocalHMatrixSolver::numfact, solve", "include/htool/hmatrix/linalg/factorization.hpp"]}
{"id": "C59", "title": "Dense local matrices of the subdomains", "statement": "The dense local matrix built from the diagonal block and the generator contains K(l2g(i), l2g(j)) for all unknowns of the subdomain with overlap (for symmetric operators stored in the lower triangle: its lower triangle does, which is what HPDDM reads); the one converted from a local H-matrix with overlap too; and LocalDenseSolver solves the system with the local matrix.", "quantifier": "all generators, subdomains, overlaps and numberings", "why_tests_cant": "all numberings and sizes of the overlap", "anchors": ["include/htool/solvers/utility.hpp: initialize_diagonal_block_adding_overlap, initialize_diagonal_block_with_overlap, LocalGeneratorInUserNumbering", "include/htool/solvers/local_solvers/local_dense_solvers.hpp"]}
{"id": "C60", "title": "Mixed products of an H-matrix with dense and low-rank matrices follow the BLAS contract", "statement": "add_hmatrix_matrix_product, add_hmatrix_lrmat_product, add_matrix_hmatrix_product and add_lrmat_hmatrix_product compute C := alpha op(A) op(B) + beta C, with C dense or low-rank, also when the H-matrix operand stores only one half because of a symmetry flag: operand order, conjugation and the scaling by beta are those of gemm applied to the represented matrix.", "quantifier": "all coefficient rings, block trees and leaf data, symmetry flags N/S/H, transposition flags on both operands, alpha, beta, sizes and ranks", "why_tests_cant": "A test covers a few sizes and flag combinations; the claim is about every combination of storage, operation and rank.", "anchors": ["include/htool/hmatrix/linalg/add_hmatrix_matrix_product.hpp", "include/htool/hmatrix/linalg/add_matrix_hmatrix_product.hpp", "include/htool/hmatrix/linalg/add_hmatrix_lrmat_product.hpp", "include/htool/hmatrix/linalg/add_lrmat_hmatrix_product.hpp"]}
{"id": "C61", "title": "The principal-axis direction strategy returns a direction of largest extent", "statement": "ComputeLargestExtent::compute_direction returns, in dimensions 2 and 3, a unit vector along which the weighted spread of the cluster's points around its center is maximal among all unit vectors, up to a tolerance given by the machine epsilon and the literal used for pi/3; it returns the zero vector only if the points do not spread (up to that tolerance) in any direction.", "quantifier": "all dimensions 2 and 3, point sets, permutations, centers, weights (nonnegative in dimension 3)", "why_tests_cant": "It is an optimality claim over all unit vectors for every covariance matrix, including repeated eigenvalues, which random tests never produce.", "anchors": ["include/htool/clustering/tree_builder/direction_computation.hpp:ComputeLargestExtent", "include/htool/misc/evp.hpp:solve_EVP_2", "include/htool/misc/evp.hpp:solve_EVP_3"]}
{"id": "C62", "title": "Reported statistics of an H-matrix describe the matrix", "statement": "get_hmatrix_information (and print_hmatrix_information) report the sizes of the H-matrix, the number, largest, smallest and mean size of its dense and of its low-rank blocks, the largest, smallest and mean rank, the compression ratio (number of entries over number of stored coefficients, half storage for symmetric dense blocks) and the space saving 1 - 1/ratio; for an H-matrix built by the tree builder the dense and low-rank blocks counted are all its leaves, the low-rank ones are exactly the admissible blocks whose compression did not fail, and the space saving lies in [0,1] when no low-rank block stores more than the dense one.", "quantifier": "all H-matrices (all trees, sizes, ranks, symmetries, storage halves), in particular all outputs of the builder", "why_tests_cant": "The statistics must be right for every tree shape and size, including sizes beyond 2^32 entries and single-block matrices no test builds.", "anchors": ["include/htool/hmatrix/hmatrix_output.hpp:get_hmatrix_information", "include/htool/hmatrix/hmatrix_output.hpp:get_leaves_from"]}
{"id": "C63", "title": "Statistics of a distributed H-matrix aggregate all processes", "statement": "get_distributed_hmatrix_information reports, on the root process, the counts, maxima, minima and means over the blocks of all processes' local H-matrices and the compression ratio and space saving of the whole distributed operator.", "quantifier": "all numbers of processes and all local H-matrices, including processes without blocks of some kind", "why_tests_cant": "The aggregate must be right for every number of processes and every distribution of block kinds over them.", "anchors": ["include/htool/hmatrix/hmatrix_distributed_output.hpp:get_distributed_hmatrix_information"]}
{"id": "C64", "title": "Display files list exactly the blocks", "statement": "The file written by save_leaves_with_rank contains, after a line with the sizes, one line per leaf with its offsets relative to the H-matrix, its sizes and its rank (-1 for dense), so that reading it back recovers the leaves and the rectangles cover the matrix once; the i-th file written by save_levels lists exactly the blocks at the i-th requested depth.", "quantifier": "all H-matrices and all lists of depths", "why_tests_cant": "The text round trip and exact covering must hold for every tree, offset and list of depths.", "anchors": ["include/htool/hmatrix/hmatrix_output.hpp:save_leaves_with_rank", "include/htool/hmatrix/hmatrix_output.hpp:save_levels"]}
{"id": "C65", "title": "Compressed blocks are geometrically well separated", "statement": "With the default admissibility condition (Rjasanow-Steinbach), for every pair of cluster trees built from two clouds of points (with radii), every block of the built H-matrix which is stored in low-rank form couples two sets of balls for which the smaller diameter is less than eta times their distance; so a cluster is never compressed against itself or against a cluster sharing a point, nothing is compressed when eta <= 0, the condition does not depend on the order of the two clusters, and enlarging eta only adds admissible pairs", "quantifier": "all clouds of points, radii, weights, dimensions, cluster tree settings, partitions, eta, compressors, and schedules of the parallel assembly", "why_tests_cant": "the condition is evaluated on centers and radii computed during the recursive construction, before later sorts, for infinitely many clouds; a test only looks at a few geometries", "anchors": ["include/htool/hmatrix/interfaces/virtual_admissibility_condition.hpp:RjasanowSteinbach::ComputeAdmissibility", "include/htool/hmatrix/tree_builder/tree_builder.hpp:build_block_tree", "include/htool/clustering/tree_builder/recursive_build.hpp:compute_radius", "include/htool/basic_types/vector.hpp:norm2"]}
{"id": "C66", "title": "Vector operators", "statement": "The operators on std::vector (sum, difference, scaling, dprod, norm2, max, min, argmax, mean, SubVec) compute the mathematical operation: entry by entry, a Hermitian scalar product (conjugating the second argument for complex types), the Euclidean norm, the first entry of largest or smallest modulus, the average, and reads and writes through the index list only", "quantifier": "all vectors of any length and coefficients, all index lists", "why_tests_cant": "laws such as the triangle inequality, Hermitian symmetry or first extremum quantify over all vectors; floating-point tests compare a few values with a tolerance", "anchors": ["include/htool/basic_types/vector.hpp:dprod", "include/htool/basic_types/vector.hpp:norm2", "include/htool/basic_types/vector.hpp:argmax", "include/htool/basic_types/vector.hpp:SubVec"]}
{"id": "C67", "title": "Text exports can be read back", "statement": "Matrix::print and csv_save write one line per row whose fields, split at the delimiter, are the printed entries in order; split and join of text are inverse of each other; printing a vector to a stream writes its entries to that stream", "quantifier": "all matrices, number formats, delimiters, texts and streams", "why_tests_cant": "the separators and empty fields at the borders matter for all texts; tests write one file and look at it", "anchors": ["include/htool/matrix/matrix.hpp:print", "include/htool/matrix/matrix.hpp:csv_save", "include/htool/misc/user.hpp:split", "include/htool/misc/user.hpp:join", "include/htool/basic_types/vector.hpp:operator<<"]}
{"id": "C68", "title": "Clustered geometry file and printed cluster tree", "statement": "save_clustered_geometry writes, for every depth of the list, a row that gives every point a number such that two points get the same number exactly when they lie in the same cluster of that depth; the coordinate rows list the points in cluster order; print writes one line per cluster with the user indices of its points", "quantifier": "all built cluster trees, points, dimensions, lists of depths, number formats", "why_tests_cant": "depends on the shape of every tree: uneven trees with leaves above the requested depth and repeated depths are the failing cases", "anchors": ["include/htool/clustering/cluster_output.hpp:save_clustered_geometry", "include/htool/clustering/cluster_output.hpp:print"]}
{"id": "C69", "title": "Information reported by the DDM solver", "statement": "set_infos and add_infos record what was last set and the sum of what was added since; get_information reads without changing what later calls report; save_infos and print_infos write one line per key in key order on process 0 only; solve reports the iterations, subdomains, methods and coarse-space sizes of that call and leaves other keys alone", "quantifier": "all histories of information calls and solves, all keys, values, processes and reports of the iterative solver", "why_tests_cant": "holds over all histories of calls; a test runs one solve and prints the map", "anchors": ["include/htool/solvers/ddm.hpp:solve", "include/htool/solvers/ddm.hpp:get_information", "include/htool/solvers/ddm.hpp:add_infos", "include/htool/solvers/ddm.hpp:set_infos", "include/htool/solvers/ddm.hpp:save_infos", "include/htool/solvers/ddm.hpp:print_infos"]}
{"id": "C70", "title": "GenEO coarse space", "statement": "GeneoCoarseSpaceDenseBuilder::build_coarse_space returns the images by the partition of unity D of the eigenvectors of D A D v = l B v selected by the number or the threshold: the columns span the image of all eigenvectors with |l| above the threshold, for dense matrices or H-matrices, with or without overlap, symmetric or not, on every call", "quantifier": "all subdomain sizes, matrices A and B, thresholds and numbers, outputs of LAPACK meeting its documentation, orders of std::sort on ties, repeated calls", "why_tests_cant": "a statement about the span of all eigenvectors of every matrix; tests only count iterations of one problem", "anchors": ["include/htool/solvers/geneo/coarse_space_builder.hpp:GeneoCoarseSpaceDenseBuilder", "include/htool/solvers/geneo/coarse_space_builder.hpp:GeneoWithNu", "include/htool/solvers/geneo/coarse_space_builder.hpp:GeneoWithThreshold", "include/htool/solvers/geneo/coarse_space_builder.hpp:build_coarse_space"]}
{"id": "C71", "title": "Statistics and errors of a low-rank matrix", "statement": "For a low-rank matrix, compression_ratio is the number of coefficients of the block divided by the number stored, space_saving is one minus the inverse quotient, and Frobenius_absolute_error / Frobenius_relative_error are the Frobenius norm of the difference with the block of the generator (restricted to the first reqrank terms when a rank is requested), absolute or divided by the norm of the block; after compression with a tolerance the relative error is at most the tolerance.", "quantifier": "all sizes, ranks, requested ranks, generators, compressors SVD and fullACA", "why_tests_cant": "the sizes at which int overflows, rank zero and zero blocks are not tried; the bound on the error after compression has to hold for every block", "anchors": ["include/htool/hmatrix/lrmat/lrmat.hpp: compression_ratio, space_saving, Frobenius_relative_error, Frobenius_absolute_error"]}
{"id": "C72", "title": "Histories of calls of the local H-matrix solver", "statement": "A LocalHMatrixSolver can be called any number of times, with both versions of solve, any numbers of right-hand sides (at least one), and arrays which the user allocates, writes and frees between the calls: no access outside live arrays, no array of the user deleted, nothing left allocated after its destruction, other arrays untouched, and the result of a call depends only on the content of its arguments (it solves the system with the factorized matrix).", "quantifier": "all histories of allocations, writes, deallocations and calls, all numbers of right-hand sides, with and without permutation, every factorized H-matrix", "why_tests_cant": "the internal buffer is reused, resized or aliased with the arrays of the caller depending on the previous calls; tests make one or two calls with arrays which stay alive", "anchors": ["include/htool/solvers/local_solvers/local_hmatrix_solvers.hpp: solve", "include/htool/matrix/matrix.hpp: resize, assign"]}
{"id": "C73", "title": "Reports carry the builder's information", "statement": "get_hmatrix_information returns every statistic under its own name, together with the information and the timings stored by the builder. On rank 0, get_distributed_hmatrix_information returns under each name with a decimal number the sum over the ranks, and for each timing the largest, mean and smallest value; the other ranks get an empty map. In particular Number_of_false_positive is the number of blocks, over all ranks, whose compression failed. The printed text can be read back.", "quantifier": "all H-matrices, all builder outcomes and schedules, all numbers of ranks, all stored names and values", "why_tests_cant": "The keys, ranks and values are unbounded; the reductions are position-wise, so the result depends on the agreement of all ranks; the count depends on every thread schedule", "anchors": ["include/htool/hmatrix/hmatrix_output.hpp: get_hmatrix_information, print_hmatrix_information", "include/htool/hmatrix/hmatrix_distributed_output.hpp: get_distributed_hmatrix_information, print_distributed_hmatrix_information, is_positive_integer", "include/htool/hmatrix/tree_builder/tree_builder.hpp: build"]}
{"id": "C74", "title": "Moving a tree keeps its nodes, its shared data and the references to its inner nodes valid", "statement": "After any history of constructions, move constructions, move assignments, destructions and calls of tree-wide setters on cluster trees (and other trees), a tree that was not destroyed is owned by the variable it was last moved to; all nodes keep their members and, below the root, their addresses, so the clusters returned by get_clusters_on_partition and the clusters referred to by blocks below the root stay valid; tree-wide parameters are shared by all its nodes and only changed through them; get_root_cluster() refers to the root; destruction frees the whole tree and nothing else, and no node leaks.", "quantifier": "all trees, all numbers of live variables, all histories, all placements in memory", "why_tests_cant": "tests build a few trees and mostly rely on copy elision; dangling references usually still read old values", "anchors": ["include/htool/basic_types/tree.hpp: TreeNode", "include/htool/clustering/cluster_node.hpp: Cluster, get_root_cluster, get_clusters_on_partition", "include/htool/clustering/cluster_tree_data.hpp: ClusterTreeData"]}
{"id": "C75", "title": "Parameters of an H-matrix are seen by all its blocks; copies are independent", "statement": "For every history of constructions, copy constructions, copy assignments (of whole H-matrices or of blocks) and calls of the tree-wide setters (set_epsilon, set_eta, set_minimal_*_depth, set_block_tree_consistency, ...): a setter called on an H-matrix is seen by all its blocks (the block algebra reads the tolerance of the block); a copy starts with the parameters of its origin; an H-matrix and its copies never influence each other.", "quantifier": "all block structures, all numbers of H-matrices, all histories", "why_tests_cant": "a test looks at one H-matrix and at the root block only; sharing shows after particular histories", "anchors": ["include/htool/basic_types/tree.hpp: TreeNode", "include/htool/hmatrix/hmatrix.hpp: HMatrix copy constructor, operator=, set_epsilon, get_epsilon, get_hmatrix_tree_data"]}
{"id": "C76", "title": "An interrupted save is not read as another cluster tree", "statement": "If save_cluster_tree is interrupted at any point, so that only a prefix of the properties file or of the tree file reached the disk, read_cluster_tree either reports an error or returns the saved cluster tree; it never returns a different tree or an invalid permutation.", "quantifier": "every saved cluster tree and every prefix of each of its two files (every crash point)", "why_tests_cant": "there is one crash point per character of the two files, for every cluster tree; tests only read complete files", "anchors": ["include/htool/clustering/cluster_output.hpp: save_cluster_tree, read_cluster_tree", "include/htool/misc/user.hpp: split"]}
{"id": "C77", "title": "Matrix works for every pair of dimensions", "statement": "For every number of rows and columns that the Matrix constructor accepts as int, the matrix can be created and, after any sequence of assignments to entries, rows, columns or the whole matrix, every entry, row and column read back is the one last assigned; no index computation overflows.", "quantifier": "All pairs of nonnegative int dimensions, all histories of in-range assignments", "why_tests_cant": "The failing sizes need at least 2^31 entries (16 GB of doubles), which no unit test allocates, and the claim ranges over all dimensions and histories.", "anchors": ["include/htool/matrix/matrix.hpp:Matrix::Matrix(int,int,T)", "include/htool/matrix/matrix.hpp:Matrix::operator()", "include/htool/matrix/matrix.hpp:get_row/get_col/set_row/set_col"]}
{"id": "C78", "title": "Two-level set-up hands HPDDM the coarse space and its Galerkin matrix", "statement": "After any history of calls facto_one_level / build_coarse_space / solve / clean on a DDM object for a real symmetric operator, with coarse space builders returning on each process a matrix with one row per unknown of the subdomain with overlap: the deflation vectors HPDDM has are the columns of the matrix of the last build_coarse_space, get_nevi is their number, the coarse matrix has order the total number of vectors (also what GenEO_coarse_size reports) and its entries are z^T A z' with the vectors extended by zero outside of the unknowns owned by their process; with GenEO these vectors are the selected eigenvectors weighted by the partition of unity. A history is free of undefined behaviour exactly when nothing but clean follows clean, and solve logs one error for each call made with a coarse space but without a one-level factorisation.", "quantifier": "every number of processes, partition, overlap, number of vectors per process (possibly 0), every operator and every history of calls", "why_tests_cant": "the histories and the matrices are unbounded, and tests run one fixed sequence on a few sizes", "anchors": ["include/htool/solvers/ddm.hpp:DDM::build_coarse_space", "include/htool/solvers/ddm.hpp:DDM::solve", "include/htool/solvers/ddm.hpp:DDM::clean", "include/htool/solvers/geneo/coarse_operator_builder.hpp:build_geneo_coarse_operator"]}
{"id": "C79", "title": "Built symmetric H-matrices are exactly symmetric", "statement": "An H-matrix built by HMatrixTreeBuilder with symmetry 'S' (resp. 'H') represents an exactly symmetric (resp. hermitian) matrix, however inaccurate the low-rank compressions are and whatever the order in which the blocks are computed. Hence products satisfy w.(A x) = (A w).x (resp. with conjugations) exactly in exact arithmetic, which conjugate-gradient-type solvers and the symmetric factorizations rely on.", "quantifier": "every size, points, cluster tree built by the library, admissibility condition that does not accept two clusters with the same first point (the standard one never does), compressor (including ones with arbitrary errors), dense blocks generator, triangle, number of threads and schedule of the build and of the products", "why_tests_cant": "tests compare with the coefficients up to the tolerance, which does not tell an exactly symmetric operator from an approximately symmetric one; they run one schedule on a few sizes", "anchors": ["include/htool/hmatrix/tree_builder/tree_builder.hpp: HMatrixTreeBuilder::build, build_block_tree, compute_blocks, set_symmetry_for_leaves", "include/htool/hmatrix/hmatrix.hpp: get_leaves_from", "include/htool/hmatrix/linalg/add_hmatrix_vector_product.hpp: sequential_internal_add_hmatrix_vector_product"]}
{"id": "C80", "title": "Reported tree parameters are those of the builders", "statement": "Right after the construction of an H-matrix, get_tree_parameters called on any of its blocks returns exactly the names Epsilon, Eta, MinTargetDepth, MinSourceDepth, MinClusterSizeTarget/Source, MaxClusterDepthTarget/Source, MinClusterDepthTarget/Source, with the tolerance, eta and minimal depths given to HMatrixTreeBuilder, the minimal leaf sizes given to ClusterTreeBuilder, and the largest and smallest depths of the leaves of the two cluster trees; the text of print_tree_parameters can be read back.", "quantifier": "all settings of the builders, all cluster trees, all H-matrix block structures and blocks, all earlier uses of other H-matrices", "why_tests_cant": "The reported depths depend on the shapes of both trees, the parameters on shared data written by setters in any earlier history; tests look at one tree, and none reads this report.", "anchors": ["include/htool/hmatrix/hmatrix_output.hpp:get_tree_parameters", "include/htool/hmatrix/hmatrix_output.hpp:print_tree_parameters", "include/htool/hmatrix/tree_builder/tree_builder.hpp:build", "include/htool/clustering/tree_builder/recursive_build.hpp:set_minclustersize"]}
{"id": "C81", "title": "Invalid arguments of the H-matrix builder are reported", "statement": "Constructing an HMatrixTreeBuilder prints an error on the log exactly when the symmetry and UPLO characters do not go together (or 'H' is asked for real coefficients) or a partition number is neither -1 nor the number of a cluster of the partition; set_block_tree_consistency(false) prints one exactly when there is a symmetry flag; so a builder configured without any message has a stored half for every symmetry flag, a consistent block tree with symmetry, and partition numbers that designate existing clusters of both cluster trees.", "quantifier": "all characters, all int partition numbers, all partitions, all sequences of setter calls, all earlier uses of the logger", "why_tests_cant": "all pairs of characters and all integers (negative ones are converted to unsigned) with every history of the logger", "anchors": ["include/htool/hmatrix/tree_builder/tree_builder.hpp: HMatrixTreeBuilder::HMatrixTreeBuilder, set_block_tree_consistency", "include/htool/misc/logger.hpp: Logger::log"]}
