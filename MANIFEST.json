{
 "claims": [
  {
   "property": "C01",
   "status": "proved",
   "theorems": [
    "Htool.C01_regular_splitting_tiles",
    "Htool.C01_geometric_splitting_tiles",
    "Htool.C01_children_cover_each_index_once",
    "Htool.C01_regular_splits_iff"
   ],
   "note": ""
  },
  {
   "property": "C02",
   "status": "proved",
   "theorems": [
    "Htool.C02_permutation_is_bijection"
   ],
   "note": ""
  },
  {
   "property": "C03",
   "status": "proved",
   "theorems": [
    "Htool.C03_tree_is_hierarchical_partition",
    "Htool.C03_each_index_in_exactly_one_leaf"
   ],
   "note": ""
  },
  {
   "property": "C04",
   "status": "proved",
   "theorems": [
    "Htool.C04_index_set_frozen",
    "Htool.C04_given_partition_is_local"
   ],
   "note": ""
  },
  {
   "property": "C05",
   "status": "proved",
   "theorems": [
    "Htool.C05_partition_clusters",
    "Htool.C05_given_partition_clusters"
   ],
   "note": ""
  },
  {
   "property": "C06",
   "status": "proved",
   "theorems": [
    "Htool.C06_build_terminates"
   ],
   "note": ""
  },
  {
   "property": "C07",
   "status": "proved",
   "theorems": [
    "Htool.C07_recorded_depths"
   ],
   "note": ""
  },
  {
   "property": "C08",
   "status": "proved",
   "theorems": [
    "Htool.C08_clusters_are_bounding_balls",
    "Htool.C08_center_is_weighted_mean",
    "Htool.C08_radius_is_attained"
   ],
   "note": "coordinates over the reals; sqrt exact"
  },
  {
   "property": "C09",
   "status": "proved",
   "theorems": [
    "Htool.C09_equality_identifies_node"
   ],
   "note": ""
  },
  {
   "property": "C10",
   "status": "proved",
   "theorems": [
    "Htool.C10_indices_in_range",
    "Htool.C10_root_round_trips",
    "Htool.C10_local_round_trips"
   ],
   "note": ""
  },
  {
   "property": "C11",
   "status": "proved",
   "theorems": [
    "Htool.ClusterIO.C11_read_saved_tree",
    "Htool.ClusterIO.C11_read_saved_built_tree"
   ],
   "note": "Character-level model of both files (split, join, getline, stoi, NbrToStr); radius and center come back rounded to the printed digits (arbitrary printing function), everything else identical. An empty tree (0 points) is excluded: its properties file lacks a line end."
  },
  {
   "property": "C12",
   "status": "proved",
   "theorems": [
    "Htool.C12_preorder_visits_each_node_once",
    "Htool.C12_postorder_visits_each_node_once"
   ],
   "note": ""
  },
  {
   "property": "C13",
   "status": "proved",
   "theorems": [
    "Htool.C13_leaves_tile",
    "Htool.C13_leaves_tile_partition",
    "Htool.C13_built_leaves_tile"
   ],
   "note": "For every pair of well-formed cluster trees; create_wf proves that create_cluster_tree outputs are well formed."
  },
  {
   "property": "C14",
   "status": "proved",
   "theorems": [
    "Htool.C14_symmetric_leaves_tile",
    "Htool.C14_local_symmetric_leaves_tile",
    "Htool.C14_partition_symmetric_leaves_tile",
    "Htool.C14_built_leaves_tile",
    "Htool.C14_mixed_partition_settings_fail"
   ],
   "note": "All settings where target partition and symmetry partition agree; C14_mixed_partition_settings_fail shows by a witness that the mixed settings do not tile."
  },
  {
   "property": "C15",
   "status": "proved",
   "theorems": [
    "Htool.C15_only_admissible_compressed"
   ],
   "note": ""
  },
  {
   "property": "C16",
   "status": "proved",
   "theorems": [
    "Htool.C16_build_terminates",
    "Htool.C16_leaves_have_data",
    "Htool.C16_symmetric_leaves_have_data",
    "Htool.C16_partition_symmetric_leaves_have_data"
   ],
   "note": "Nonempty clusters are assumed for the partition and symmetric cases."
  },
  {
   "property": "C17",
   "status": "proved",
   "theorems": [
    "Htool.C17_fallback_every_schedule",
    "Htool.C17_schedule_independent",
    "Htool.C17_parallel_region_completes"
   ],
   "note": "Small-step model of the OpenMP region of compute_blocks, heap of nodes, any number of threads and schedule."
  },
  {
   "property": "C18",
   "status": "partial",
   "theorems": [
    "Htool.C18_reuse_partial",
    "Htool.C18_new_builder_partial",
    "Htool.C18_second_build_overwrites_first",
    "Htool.C18_destroy_then_build_accesses_freed_memory"
   ],
   "note": "The property is false of the code: a second build on the same builder recomputes all blocks of earlier H-matrices with the new generator (C18_second_build_overwrites_first), and accesses freed memory when an earlier H-matrix was destroyed. Proved instead: exactly what every earlier H-matrix holds after any history, and that a fresh builder changes nothing."
  },
  {
   "property": "C19",
   "status": "proved",
   "theorems": [
    "Htool.C19_sequential_product",
    "Htool.C19_product_of_represented_matrix",
    "Htool.C19_unsupported_combinations_wrong",
    "Htool.C19_built_operator",
    "Htool.C19_built_product",
    "Htool.C19_built_product_exact"
   ],
   "note": "Exact arithmetic; BLAS gemv/symv/hemv by contract. Supported combinations as listed in the property; the third theorem records that the others are silently wrong in the vector product."
  },
  {
   "property": "C20",
   "status": "proved",
   "theorems": [
    "Htool.C20_parallel_product_is_sequential",
    "Htool.C20_parallel_product_terminates",
    "Htool.C20_parallel_product_progresses",
    "Htool.C20_parallel_product_completes",
    "Htool.C20_parallel_row_major_product_is_sequential"
   ],
   "note": "Small-step interleavings of any number of threads."
  },
  {
   "property": "C21",
   "status": "partial",
   "theorems": [
    "Htool.C21_vector_product",
    "Htool.C21_matrix_product_partial",
    "Htool.C21_transposed_vector_product_partial",
    "Htool.C21_transposed_matrix_product_partial",
    "Htool.C21_transposed_hermitian_matrix_product",
    "Htool.C21_built_product",
    "Htool.C21_matrix_product_with_target_permutation_is_lost",
    "Htool.C21_transposed_hermitian_vector_product_wrong",
    "Htool.C21_transposed_product_ignores_target_permutation"
   ],
   "note": "Holds for vector products with every flag combination; matrix products without target flag; transposed vector products without target flag and not hermitian. False elsewhere: matrix product with target flag leaves the output untouched, transposed products ignore the target permutation and (matrix version) beta, hermitian transposed vector product is A*x (negations proved)."
  },
  {
   "property": "C22",
   "status": "proved",
   "theorems": [
    "Htool.C22_row_major_product",
    "Htool.C22_row_major_is_columnwise"
   ],
   "note": "Sequential row-major product; with C20_parallel_row_major_product_is_sequential also the OpenMP one."
  },
  {
   "property": "C23",
   "status": "proved",
   "theorems": [
    "Htool.C23_copy_to_dense",
    "Htool.C23_copy_to_dense_in_user_numbering",
    "Htool.C23_built",
    "Htool.C23_built_cluster_numbering"
   ],
   "note": "The stored entries of a symmetric diagonal leaf are copied as stored (the builder fills both triangles)."
  },
  {
   "property": "C24",
   "status": "proved",
   "theorems": [
    "Htool.C24_copy_diagonal",
    "Htool.C24_copy_diagonal_in_user_numbering",
    "Htool.C24_built"
   ],
   "note": " C24_built: any H-matrix of a cluster against itself returned by the builder with consistent block trees."
  },
  {
   "property": "C25",
   "status": "partial",
   "theorems": [
    "Htool.C25_scale_multiplies_operator_partial",
    "Htool.C25_parallel_scale",
    "Htool.C25_hermitian_complex_scalar_wrong"
   ],
   "note": "Proved for every H-matrix and scalar except non-real scalars with hermitian storage, where the claim is false of the code (third theorem)."
  },
  {
   "property": "C26",
   "status": "partial",
   "theorems": [
    "Htool.C26_copy_partial",
    "Htool.C26_assignment",
    "Htool.C26_copy_of_complex_symmetric_wrong"
   ],
   "note": "False of the code for the copy constructor on complex symmetric matrices (witness); proved in all other cases and for copy assignment."
  },
  {
   "property": "C27",
   "status": "proved",
   "theorems": [
    "Htool.C27_get_sub_hmatrix",
    "Htool.C27_get_child_or_this"
   ],
   "note": ""
  },
  {
   "property": "C28",
   "status": "partial",
   "theorems": [
    "Htool.C28_lrmat_matrix_partial",
    "Htool.C28_matrix_lrmat_partial",
    "Htool.C28_lrmat_lrmat_partial",
    "Htool.C28_lrmat_vector_partial",
    "Htool.C28_lrmat_matrix_lowrank_partial",
    "Htool.C28_matrix_lrmat_lowrank_partial",
    "Htool.C28_lrmat_lrmat_lowrank_partial",
    "Htool.C28_copy_to_dense",
    "Htool.C28_scale",
    "Htool.C28_rank_zero_defect"
   ],
   "note": "The claim is false for rank 0 with beta != 1 (C28_rank_zero_defect: the products leave the output unscaled); proved for every other case, with dense and low-rank results (exact before recompression)"
  },
  {
   "property": "C29",
   "status": "proved",
   "theorems": [
    "Htool.C29_fullACA",
    "Htool.sqrt_test"
   ],
   "note": "Exact arithmetic; block sizes positive; requested rank 0 excluded. A failure is characterised too."
  },
  {
   "property": "C30",
   "status": "proved",
   "theorems": [
    "Htool.C30_partialACA",
    "Htool.C30_sympartialACA",
    "Htool.C30_accuracy_not_guaranteed"
   ],
   "note": "Exact arithmetic. The property claims interpolation and the stated stopping reasons, not accuracy; a witness shows that the tolerance does not bound the error."
  },
  {
   "property": "C31",
   "status": "proved",
   "theorems": [
    "Htool.C31_truncation",
    "Htool.C31_svd_generator"
   ],
   "note": "gesvd enters through its contract (IsSVD), shown satisfiable for every matrix (exists_svd)"
  },
  {
   "property": "C32",
   "status": "proved",
   "theorems": [
    "Htool.C32_sum",
    "Htool.C32_disjoint_refused"
   ],
   "note": "exact before recompression; covers extension, restriction and rank 0 of Y"
  },
  {
   "property": "C33",
   "status": "proved",
   "theorems": [
    "Htool.C33_set_get",
    "Htool.C33_get_row",
    "Htool.C33_get_col",
    "Htool.C33_set_row",
    "Htool.C33_set_col",
    "Htool.C33_row_round_trip",
    "Htool.C33_col_round_trip",
    "Htool.C33_transpose",
    "Htool.C33_transpose_involutive",
    "Htool.C33_resize",
    "Htool.C33_operators",
    "Htool.C33_products",
    "Htool.C33_argmax",
    "Htool.C33_normFrob"
   ],
   "note": "exact arithmetic; normFrob before the square root; storage ownership is a separate property"
  },
  {
   "property": "C34",
   "status": "partial",
   "theorems": [
    "Htool.Bytes.C34_matrix_round_trip",
    "Htool.Bytes.C34_vector_round_trip",
    "Htool.Bytes.C34_matrix_file_injective",
    "Htool.Bytes.C34_unreadable_file_partial",
    "Htool.Bytes.C34_wellformed_file_partial",
    "Htool.Bytes.C34_empty_file_defect",
    "Htool.Bytes.C34_truncated_file_defect",
    "Htool.Bytes.C34_negative_size_defect"
   ],
   "note": "Round trips proved for all matrices and vectors. The second half (malformed input is rejected or leaves the object unchanged) is false: empty and truncated files are accepted with return code 0, a negative size leaves a dangling pointer (negations proved)."
  },
  {
   "property": "C35",
   "status": "proved",
   "theorems": [
    "Htool.C35_matrix_matrix_product",
    "Htool.C35_accesses_in_bounds",
    "Htool.C35_symmetric_product",
    "Htool.C35_hermitian_product",
    "Htool.C35_row_major_product",
    "Htool.C35_row_major_symmetric",
    "Htool.C35_row_major_hermitian",
    "Htool.C35_frame"
   ],
   "note": "BLAS gemm/symm/hemm contracts trusted"
  },
  {
   "property": "C36",
   "status": "proved",
   "theorems": [
    "Htool.C36_dense_left",
    "Htool.C36_dense_right",
    "Htool.C36_lowrank_left",
    "Htool.C36_lowrank_right",
    "Htool.C36_hmatrix_left",
    "Htool.C36_hmatrix_right",
    "Htool.triHM_spec",
    "Htool.triHH_spec",
    "Htool.C36_built",
    "Htool.C36_accuracy_left",
    "Htool.C36_accuracy_right",
    "Htool.C36_built_accuracy"
   ],
   "note": "Left and right solves, both triangles, unit or not, N/T/C, dense, low-rank and hierarchical right-hand sides, any block structure (including a partition of the processors and half-stored matrices). BLAS trsm on dense leaves is a contract (TrsmOK, satisfiable: exact_solve_ops_exist); compressions exact for hierarchical right-hand sides. triHM_spec/triHH_spec: same with pivoted dense leaves. C36_built: for every H-matrix returned by the builder (any schedule, with or without symmetry) the triangle used is that of the represented matrix. C36_accuracy_left/right: with the inexact compressions of the library (tolerance eps) on a hierarchical right-hand side, the entries of the residual are at most ((1+eps)^K-1)(|alpha| |B| + |T| |X|), K from the heights and the number of clusters per division."
  },
  {
   "property": "C37",
   "status": "proved",
   "theorems": [
    "Htool.C37_factorization",
    "Htool.C37_solve_cluster_numbering",
    "Htool.C37_lu_solve",
    "Htool.C37_built",
    "Htool.C37_built_exact",
    "Htool.C37_built_positive_definite",
    "Htool.C37_accuracy",
    "Htool.C37_solve_accuracy",
    "Htool.C37_built_accuracy"
   ],
   "note": "Exact arithmetic, exact compressions, contracts of getrf and trsm as hypotheses (satisfiable over every field: exact_lu_ops_exist). 'Succeeds' is: the leading parts ending with a diagonal block are nonsingular (FTree.Lead); diagonal blocks not compressed. Any cluster tree and block structure, N/T/C solves, any number of right-hand sides, also H-matrices divided by a partition. C37_built*: end to end, from the user's coefficients through cluster tree, parallel assembly, factorization and lu_solve in user numbering. C37_accuracy, C37_solve_accuracy, C37_built_accuracy: with inexact compressions of relative accuracy eps, residual of L U - A and of the solution, as long as getrf meets no singular block (FTree.Pivots, which holds without truncation for matrices with nonsingular leading parts: luH_pivots)."
  },
  {
   "property": "C38",
   "status": "partial",
   "theorems": [
    "Htool.C38_factorization_partial",
    "Htool.C38_solve_cluster_numbering_partial",
    "Htool.C38_cholesky_solve_partial",
    "Htool.C38_positive_definite",
    "Htool.C38_three_clusters",
    "Htool.C38_built_partial",
    "Htool.C38_built_positive_definite_partial",
    "Htool.Built.bin",
    "Htool.C38_accuracy_partial",
    "Htool.C38_solve_accuracy_partial",
    "Htool.C38_built_accuracy_partial",
    "Htool.cholH_pivots"
   ],
   "note": "Exact arithmetic and exact compressions, both UPLO, full or half storage, any block tree whose clusters are divided in at most two (in the list of blocks used: children, or the clusters of the partition at the root), uncompressed diagonal blocks, matrix with a Cholesky factor (positive definite suffices). With three clusters in a list the claim is false of the code (C38_three_clusters: the Schur update uses the same block on both sides). For complex symmetric matrices the code uses adjoints, so only hermitian ones are covered. C38_built*: end to end from the user's positive definite matrix; two children per cluster and at most two parts give the required cluster lists (Built.bin). C38_accuracy_partial, C38_solve_accuracy_partial, C38_built_accuracy_partial: with inexact compressions of relative accuracy eps, residual in the triangle used and residual of the solution, as long as potrf never fails (FTree.PivotsC, which holds without truncation for matrices with a Cholesky factor: cholH_pivots); full or half storage."
  },
  {
   "property": "C39",
   "status": "proved",
   "theorems": [
    "Htool.C39_vector_product_global_to_global",
    "Htool.C39_matrix_product_global_to_global",
    "Htool.C39_built_products",
    "Htool.DistBuild.acts",
    "Htool.exDist"
   ],
   "note": "Any number of ranks and partitions (empty parts allowed). Local operators enter through ActsVec/ActsMat, discharged by C42 for LocalOperators and by C39_built_products for H-matrices built by each rank under any schedule."
  },
  {
   "property": "C40",
   "status": "proved",
   "theorems": [
    "Htool.C40_transposed_vector_product_global_to_global",
    "Htool.C40_transposed_matrix_product_global_to_global",
    "Htool.C41_transposed_vector_product_local_to_local",
    "Htool.C41_transposed_matrix_product_local_to_local",
    "Htool.C39_built_products",
    "Htool.C40_internal_transposed_products_wrong"
   ],
   "note": "All public products, all symmetry types. Defects of the internal_* variants (hermitian, uncleared output) are proved in C40_internal_transposed_products_wrong."
  },
  {
   "property": "C41",
   "status": "proved",
   "theorems": [
    "Htool.C41_vector_product_local_to_local",
    "Htool.C41_matrix_product_local_to_local",
    "Htool.C39_built_products",
    "Htool.C41_local_to_global"
   ],
   "note": ""
  },
  {
   "property": "C42",
   "status": "partial",
   "theorems": [
    "Htool.C42_vector_product_sums",
    "Htool.C42_matrix_product_sums",
    "Htool.C42_transposed_vector_product_sums",
    "Htool.C42_transposed_matrix_product_sums_partial",
    "Htool.C42_transposed_matrix_product_overwrites",
    "Htool.C42_sub_matrix_product_overwrites"
   ],
   "note": "Sums proved for vector, matrix and transposed vector products. The transposed matrix product and the sub-matrix product overwrite: proved only for disjoint column ranges, negation proved with witnesses."
  },
  {
   "property": "C43",
   "status": "partial",
   "theorems": [
    "Htool.C43_sub_matrix_product_partial",
    "Htool.C43_sub_matrix_product_exact_range",
    "Htool.C43_distributed_sub_matrix_product_partial",
    "Htool.C43_partial_range_undefined"
   ],
   "note": "Proved for one operator with source offset 0, or for exactly the range of the operator. For a source offset > 0 and a partial range the code accesses memory out of bounds (proved)."
  },
  {
   "property": "C44",
   "status": "proved",
   "theorems": [
    "Htool.C44_local_numbering",
    "Htool.C44_intersections"
   ],
   "note": "Closed form of the local numbering, permutation of the subdomain, own unknowns first, renumbered intersections designate the same unknowns."
  },
  {
   "property": "C45",
   "status": "proved",
   "theorems": [
    "Htool.C45_partition_of_unity"
   ],
   "note": "For any subdomains whose first unknowns are those owned by the rank (as C44 says)."
  },
  {
   "property": "C46",
   "status": "proved",
   "theorems": [
    "Htool.C46_krylov_receives_restrictions",
    "Htool.C46_gather",
    "Htool.C46_solve"
   ],
   "note": "HPDDM exchange modelled from its contract (neighbour lists), Krylov method an arbitrary function."
  },
  {
   "property": "C47",
   "status": "partial",
   "theorems": [
    "Htool.C47_krylov_operator_partial",
    "Htool.C47_hermitian_several_rhs",
    "Htool.C47_depends_on_mu"
   ],
   "note": "Proved for every mu when the operator is not complex hermitian. For a hermitian operator and mu != 1 the claim is false: the conjugate operator is applied (proved, with a concrete witness)."
  },
  {
   "property": "C48",
   "status": "partial",
   "theorems": [
    "Htool.C48_lu",
    "Htool.C48_cholesky_no_overlap_partial",
    "Htool.C48_cholesky_overlap_wrong",
    "Htool.C48_builder_symmetric",
    "Htool.C48_builder_unsymmetric_wrong"
   ],
   "note": "Proved for LU with any overlap. For Cholesky proved without overlap; with overlap the code is wrong for both UPLO (counterexample C48_cholesky_overlap_wrong). For unsymmetric operators DDMSolverBuilder leaves C empty, so the solver ignores the overlap (C48_builder_unsymmetric_wrong: wrong for some right-hand side as soon as one coefficient between the subdomain and the overlap is nonzero). Exact arithmetic; LAPACK/BLAS contracts as hypotheses."
  },
  {
   "property": "C49",
   "status": "partial",
   "theorems": [
    "Htool.C49_entries",
    "Htool.C49_coarse_operator_partial",
    "Htool.C49_hermitian",
    "Htool.C49_unsymmetric",
    "Htool.C49_hermitian_wrong",
    "Htool.C49_built"
   ],
   "note": "Exact entries in all cases; equal to Z^*AZ for real symmetric operators. False otherwise: transposed for unsymmetric operators, conjugate operator for hermitian ones (proved, with witnesses). C49_built: from the user's generator, under any schedule, to the coarse matrix."
  },
  {
   "property": "C50",
   "status": "partial",
   "theorems": [
    "Htool.C50_threshold_partial",
    "Htool.C50_threshold_general_partial",
    "Htool.C50_number",
    "Htool.C50_out_of_bounds"
   ],
   "note": "Proved when some eigenvalue is not above the threshold. False when all are: the index array is read out of bounds (proved)."
  },
  {
   "property": "C51",
   "status": "proved",
   "theorems": [
    "Htool.Log.C51_log_filtering",
    "Htool.Log.C51_later_calls"
   ],
   "note": "Histories of calls to the global logger: output lines are exactly those whose level is at most the level of the writer in use at that time, in call order."
  },
  {
   "property": "C52",
   "status": "partial",
   "theorems": [
    "Htool.C52_bounding_box_axis_fails",
    "Htool.C52_bounding_box_axis_partial"
   ],
   "note": "False of the code for negative coordinates (numeric_limits::min() as initial maximum): refuted with a witness; the positive theorem assumes some nonnegative coordinate per axis."
  },
  {
   "property": "C53",
   "status": "proved",
   "theorems": [
    "Htool.C53_children_separated_along_direction"
   ],
   "note": ""
  },
  {
   "property": "C54",
   "status": "partial",
   "theorems": [
    "Htool.MatMem.C54_no_undefined_behaviour_partial",
    "Htool.MatMem.C54_no_leak_partial",
    "Htool.MatMem.C54_all_freed_partial",
    "Htool.MatMem.C54_no_interference",
    "Htool.MatMem.C54_copy_values",
    "Htool.MatMem.C54_move_values",
    "Htool.MatMem.C54_user_buffer_kept",
    "Htool.MatMem.C54_resize_borrowed_defect",
    "Htool.MatMem.C54_moved_from_defect",
    "Htool.MatMem.C54_assign_empty_defect"
   ],
   "note": "Proved for all histories which respect the restrictions listed in Pre; the three defect theorems show that the member functions break the property without them (resize on borrowed storage, moved-from matrices, assign on an empty matrix with storage)."
  },
  {
   "property": "C55",
   "status": "proved",
   "theorems": [
    "Htool.C55_recompression",
    "Htool.C55_lrmat_matrix",
    "Htool.C55_matrix_lrmat",
    "Htool.C55_lrmat_lrmat",
    "Htool.C55_matrix_matrix",
    "Htool.C55_sum"
   ],
   "note": "LAPACK routines enter through their contracts, shown satisfiable for all matrices at once (exists_lapack). Rank 0 is excluded: recompression then reads before the singular values; the products are covered when no rank-0 operand meets beta != 1 (C28)"
  },
  {
   "property": "C56",
   "status": "proved",
   "theorems": [
    "Htool.C56_built_operator",
    "Htool.C56_built_product",
    "Htool.C56_svd_accurate",
    "Htool.C56_fullACA_accurate",
    "Htool.C56_svd",
    "Htool.C56_fullACA"
   ],
   "note": "exact arithmetic, real or complex; gesvd through its contract"
  },
  {
   "property": "C57",
   "status": "partial",
   "theorems": [
    "Htool.C57_hmatrix_product_partial",
    "Htool.C57_hmatrix_product_entries_partial",
    "Htool.C57_beta_ignored",
    "Htool.C57_deep_partition",
    "Htool.C57_built_partial",
    "Htool.Built.flat",
    "Htool.C57_accuracy_partial",
    "Htool.C57_accuracy_entries_partial",
    "Htool.C57_svd_partial",
    "Htool.C57_built_accuracy_partial",
    "Htool.C57_end_to_end_partial",
    "Htool.C57_accuracy_half_partial",
    "Htool.C57_built_accuracy_half_partial"
   ],
   "note": "Proved for every block structure, transposition and mask with the partition at most one level below the root, and beta = 1 when C is divided while A or B is not. The full claim is false: beta is ignored for a divided C with an operand which is one block (C57_beta_ignored, for all inputs), and with a partition two or more levels deep the product is silently lost (C57_deep_partition). C57_built_partial: for three H-matrices returned by the builder. With the compressions of the library (recompression and truncated SVD, tolerance eps) the error of every leaf and of every entry is at most ((1+eps)^K-1)(|beta| |C|_F + |alpha| |A|_F |B|_F), K explicit. C57_end_to_end_partial: from the user's matrices through SVD compression and the product. C57_accuracy_half_partial: the same when C is stored by one half (symmetric or hermitian), for the entries of that half."
  },
  {
   "property": "C58",
   "status": "partial",
   "theorems": [
    "Htool.C58_lu",
    "Htool.C58_cholesky_partial"
   ],
   "note": "LU: complete (exact arithmetic, LAPACK/BLAS contracts as hypotheses, leading parts nonsingular). Cholesky: only cluster lists of at most two clusters, as C38 is false with three."
  },
  {
   "property": "C59",
   "status": "proved",
   "theorems": [
    "Htool.C59_unsymmetric",
    "Htool.C59_symmetric",
    "Htool.C59_local_generator",
    "Htool.C59_local_hmatrix",
    "Htool.C59_dense_solver"
   ],
   "note": "The diagonal block is assumed to contain the coefficients of the subdomain where it has leaves (C15-C17, C56); getrf/getrs by their contract (denseLU_exists shows it can be met)."
  },
  {
   "property": "C60",
   "status": "partial",
   "theorems": [
    "Htool.C60_hmatrix_matrix_product",
    "Htool.C60_hmatrix_matrix_lowrank_product",
    "Htool.C60_hmatrix_lrmat_product_partial",
    "Htool.C60_hmatrix_lrmat_lowrank_product_partial",
    "Htool.C60_matrix_hmatrix_product_partial",
    "Htool.C60_matrix_hmatrix_lowrank_product_partial",
    "Htool.C60_lrmat_hmatrix_product_partial",
    "Htool.C60_lrmat_hmatrix_lowrank_product_partial",
    "Htool.C60_rank_zero_ignores_beta",
    "Htool.C60_hermitian_right_operand_conjugated",
    "Htool.C60_hermitian_right_operand_wrong",
    "Htool.C60_hmatrix_matrix_lowrank_accuracy",
    "Htool.C60_matrix_hmatrix_lowrank_accuracy_partial",
    "Htool.C60_hmatrix_lrmat_lowrank_accuracy_partial",
    "Htool.C60_lrmat_hmatrix_lowrank_accuracy_partial",
    "Htool.C60_built_left_product",
    "Htool.C60_built_right_product_partial",
    "Htool.C60_built_left_lrmat_product_partial",
    "Htool.C60_built_right_lrmat_product_partial",
    "Htool.C60_built_left_lowrank_accuracy",
    "Htool.C60_built_right_lowrank_accuracy_partial"
   ],
   "note": "The property is false of the code in two cases, both proved: a rank 0 low-rank operand leaves C unscaled by beta, and a complex hermitian H-matrix on the right with transb = N and a transposed left operand is replaced by its conjugate. All other combinations are proved, low-rank results under exact compression (see C31, C55 for the truncation error). With truncations of relative accuracy eps (as the SVD compressions of the library) the products into a low-rank matrix have the stated Frobenius error bounds; end-to-end versions for H-matrices produced by the builder under any schedule."
  },
  {
   "property": "C61",
   "status": "proved",
   "theorems": [
    "Htool.C61_direction_2D",
    "Htool.C61_direction_3D",
    "Htool.C61_literal",
    "Htool.C61_direction_3D_double",
    "Htool.C61_exact_third_degenerate"
   ],
   "note": "Exact real arithmetic. In 3D the optimality factor is 1-4*eta^2 where eta is the error of the literal for pi/3 (1e-15 for the literal of the code, C61_literal); with the exact value of pi/3 a double largest eigenvalue gives vanishing cross products (C61_exact_third_degenerate)."
  },
  {
   "property": "C62",
   "status": "partial",
   "theorems": [
    "Htool.C62_counts_max_mean",
    "Htool.C62_min_partial",
    "Htool.C62_min_false",
    "Htool.C62_compression_partial",
    "Htool.C62_compression_overflows",
    "Htool.C62_areas_sum",
    "Htool.C62_saving_range",
    "Htool.C62_built"
   ],
   "note": "False of the code in two cases, each proved with a witness: the minima start from the larger dimension instead of from a block size, so they are wrong if every block is larger; the number of entries is a 32-bit product, so ratio and saving are wrong from 2^32 entries on. Everything else is proved for all H-matrices."
  },
  {
   "property": "C63",
   "status": "partial",
   "theorems": [
    "Htool.C63_counts_max_mean",
    "Htool.C63_compression_partial",
    "Htool.C63_min_partial",
    "Htool.C63_min_false"
   ],
   "note": "False of the code for the minima when a process without a block of the kind has a local matrix smaller than every such block (witness), and for local matrices with 2^32 entries or more. Counts, maxima and means proved for all inputs."
  },
  {
   "property": "C64",
   "status": "partial",
   "theorems": [
    "Htool.C64_leaves_file",
    "Htool.C64_leaves_cover",
    "Htool.C64_level_files_partial",
    "Htool.C64_repeated_depth_empty"
   ],
   "note": "Leaves file proved for all H-matrices. Level files: proved for pairwise different depths; for a repeated depth the second file is empty (proved for every H-matrix)."
  },
  {
   "property": "C65",
   "status": "proved",
   "theorems": [
    "Htool.C65_symmetric",
    "Htool.C65_monotone",
    "Htool.C65_nonpositive_eta",
    "Htool.C65_admissible_pairs_are_separated",
    "Htool.C65_common_point_not_admissible",
    "Htool.C65_diagonal_not_admissible",
    "Htool.C65_setting",
    "Htool.C65_low_rank_blocks_are_separated"
   ],
   "note": "Exact real arithmetic. C65_low_rank_blocks_are_separated is about the H-matrix in memory after build, under every schedule; C65_setting gives the hypotheses of the factorization theorems (C37, C38)."
  },
  {
   "property": "C66",
   "status": "proved",
   "theorems": [
    "Htool.Vec.C66_entrywise",
    "Htool.Vec.C66_short_second_operand_out_of_bounds",
    "Htool.Vec.C66_dprod",
    "Htool.Vec.C66_dprod_hermitian",
    "Htool.Vec.C66_mean",
    "Htool.Vec.C66_extrema",
    "Htool.Vec.C66_subvec",
    "Htool.Vec.C66_norm2",
    "Htool.Vec.C66_norm2_is_a_norm"
   ],
   "note": "Exact arithmetic; vectors as lists, reads after the end are an explicit outcome."
  },
  {
   "property": "C67",
   "status": "partial",
   "theorems": [
    "Htool.Text.C67_split",
    "Htool.Text.C67_split_empty_delimiter_never_returns",
    "Htool.Text.C67_join_drops_leading_empty",
    "Htool.Text.C67_join_split_fails",
    "Htool.Text.C67_join_split_partial",
    "Htool.Text.C67_csv_round_trip",
    "Htool.Text.C67_csv_no_columns",
    "Htool.Text.C67_print_vector_fails",
    "Htool.Text.C67_print_vector_other_stream",
    "Htool.Text.C67_print_vector_partial",
    "Htool.Text.C67_matlab_save",
    "Htool.Text.C67_matlab_save_injective"
   ],
   "note": "False of the code in three cases, proved: join loses empty texts at the beginning (so it does not undo split for a text beginning with the delimiter), operator<< of a vector writes the entries to std::cout whatever the stream, split never returns with an empty delimiter. The rest is proved."
  },
  {
   "property": "C68",
   "status": "partial",
   "theorems": [
    "Htool.C68_file",
    "Htool.C68_same_number_partial",
    "Htool.C68_repeated_depth_zero",
    "Htool.C68_print",
    "Htool.C68_statement_false"
   ],
   "note": "Proved for all built trees: content of every row, and points of clusters of the requested depth have the same number iff they are in the same cluster. The full statement is false of the code (C68_statement_false): points of leaves above the requested depth carry the number 0, which is also the number of the first cluster; with a repeated depth the second row is zero."
  },
  {
   "property": "C69",
   "status": "partial",
   "theorems": [
    "Htool.Info.C69_last_set",
    "Htool.Info.C69_added_values",
    "Htool.Info.C69_other_processes",
    "Htool.Info.C69_reading_partial",
    "Htool.Info.C69_reading_fails",
    "Htool.Info.C69_save",
    "Htool.Info.C69_solve_keeps_other",
    "Htool.Info.C69_solve_report",
    "Htool.Info.C69_preconditioner",
    "Htool.C69_names",
    "Htool.C69_print"
   ],
   "note": "All parts proved except that reading is without effect, which is false of the code: get_information inserts an empty entry for an absent key, after which add_infos stores a number instead of the given text (C69_reading_fails); reading a key that has an entry changes nothing (C69_reading_partial)."
  },
  {
   "property": "C70",
   "status": "partial",
   "theorems": [
    "Htool.C70_matrix",
    "Htool.C70_other_size",
    "Htool.C70_threshold_partial",
    "Htool.C70_number_partial",
    "Htool.gv_exists",
    "Htool.C70_symmetric_statement_false",
    "Htool.C70_repeated_statement_false",
    "Htool.C70_general_partial",
    "Htool.C70_general_statement_false",
    "Htool.C70_hmatrix_overlap",
    "Htool.C70_block_partial",
    "Htool.C70_block_statement_false",
    "Htool.C70_threshold_hmatrix_partial",
    "Htool.C70_number_hmatrix_partial"
   ],
   "note": "Proved: the matrix given to LAPACK; the span and dimension of the coarse space for a Hermitian pencil (threshold and number), the columns in the general branch with real eigenvalues; H-matrix inputs. False of the code, with negations: complex symmetric matrices (flag S calls hegv), a second call on the same builder (LAPACK overwrites the members), complex eigenvalues of real matrices (alphai ignored), the diagonal block without overlap (converted to user numbering)."
  },
  {
   "property": "C71",
   "status": "partial",
   "theorems": [
    "Htool.C71_compression_ratio_partial",
    "Htool.C71_space_saving",
    "Htool.C71_consistent",
    "Htool.C71_compression_ratio_statement_false",
    "Htool.C71_compression_ratio_rank_zero",
    "Htool.C71_absolute_error",
    "Htool.C71_relative_error_partial",
    "Htool.C71_default_rank",
    "Htool.C71_relative_error_zero_block",
    "Htool.C71_relative_error_statement_false",
    "Htool.C71_svd_compressor",
    "Htool.C71_fullACA_compressor",
    "Htool.C71_rank_too_large"
   ],
   "note": "Absolute error, space saving and the bounds after SVD and fullACA are proved. Partial: the ratio overflows int for large blocks and is not finite at rank zero, and the relative error of a zero block is NaN; the negations are proved. Exact arithmetic."
  },
  {
   "property": "C72",
   "status": "partial",
   "theorems": [
    "Htool.C72_no_undefined_behaviour",
    "Htool.C72_destroyed",
    "Htool.C72_two_arrays",
    "Htool.C72_in_place",
    "Htool.C72_lu",
    "Htool.C72_cholesky_partial",
    "Htool.C72_zero_vectors_leak"
   ],
   "note": "Heap model of the calls, invariant over all histories; composition with C58. C72_cholesky_partial inherits the restriction of C38; C72_zero_vectors_leak shows why zero vectors are excluded without permutation. Complete for LU; Cholesky only where C38 holds."
  },
  {
   "property": "C73",
   "status": "partial",
   "theorems": [
    "Htool.Report.C73_local_precedence",
    "Htool.Report.C73_local_report",
    "Htool.Report.C73_dist_report_partial",
    "Htool.Report.C73_dist_built",
    "Htool.Report.C73_print_round_trip",
    "Htool.Report.C73_library_keys_good",
    "Htool.Report.C73_other_names_false",
    "Htool.Report.C73_other_counts_false",
    "Htool.Report.C73_reuse_false"
   ],
   "note": "Proved for ranks that store numbers and timings under the same names (which is what build gives) and for new builders. Otherwise false: numbers are added by position and named by rank 0, unequal counts are an MPI error, and a builder used twice reports accumulated false positives. std::to_string(double) is a parameter."
  },
  {
   "property": "C74",
   "status": "partial",
   "theorems": [
    "Htool.TreeMoves.C74_moves",
    "Htool.TreeMoves.C74_references",
    "Htool.TreeMoves.C74_root_reference",
    "Htool.TreeMoves.C74_moved_from",
    "Htool.TreeMoves.C74_destroy",
    "Htool.TreeMoves.C74_no_leak",
    "Htool.TreeMoves.C74_progress",
    "Htool.TreeMoves.C74_cluster_tree_partial",
    "Htool.TreeMoves.C74_root_cluster_false"
   ],
   "note": "Proved for all histories, except for get_root_cluster(): the root pointer stored in the tree data is the address where the root was constructed, so it is valid exactly when the tree is there (C74_cluster_tree_partial gives the equivalence, C74_root_cluster_false a history with a dangling reference). steal_children_from, assign_children and delete_children are not among the events."
  },
  {
   "property": "C75",
   "status": "partial",
   "theorems": [
    "Htool.TreeData.C75_refines",
    "Htool.TreeData.C75_independent",
    "Htool.TreeData.C75_setters",
    "Htool.TreeData.C75_copy",
    "Htool.TreeData.C75_copy_setter_partial",
    "Htool.TreeData.C75_copy_setter_false",
    "Htool.TreeData.C75_own_block"
   ],
   "note": "Proved: refinement of all histories to a specification on values, independence of the variables, sharing in built H-matrices, copies start equal. False of the code for copies: every block of a copy has its own parameters, so a setter on the root is not seen by the blocks (exactly described by C75_copy_setter_partial, witness C75_copy_setter_false); assigning to an H-matrix one of its own blocks is undefined behaviour. Moves are in C74."
  },
  {
   "property": "C76",
   "status": "partial",
   "theorems": [
    "Htool.ClusterIO.C76_both_files_cut_partial",
    "Htool.ClusterIO.C76_tree_file_cut_partial",
    "Htool.ClusterIO.C76_permutation_cut",
    "Htool.ClusterIO.C76_label_cut_rejected",
    "Htool.ClusterIO.C76_whole_lines_rejected",
    "Htool.ClusterIO.C76_last_line_end",
    "Htool.ClusterIO.C76_interrupted_save_false"
   ],
   "note": "The property is false of the code (C76_interrupted_save_false: for every built tree whose permutation does not begin with 0 there is a prefix of the properties file which is read without error and gives a permutation with repeated entries; C76_permutation_cut computes the result for every cut after an entry). Proved: for every prefix of the tree file and every properties text, if the reader returns, shape, ranks, offsets, sizes, counters and partition are the saved ones and only last coordinates of centers may differ (and the tree data are the saved ones if the properties file is complete); a properties file cut outside of its values is rejected; the missing last line end is harmless. Reader failures (exceptions and out-of-bounds reads) are one outcome, none."
  },
  {
   "property": "C77",
   "status": "partial",
   "theorems": [
    "Htool.IntRange.C77_exact_range_partial",
    "Htool.IntRange.C77_false"
   ],
   "note": "False of the code: sizes and positions are products of ints, so the constructor overflows from 2^31 entries on. Proved: the property holds exactly for the dimensions whose product is below 2^31 (square matrices up to 46340)."
  },
  {
   "property": "C78",
   "status": "proved",
   "theorems": [
    "Htool.TwoLevel.C78_two_level",
    "Htool.TwoLevel.C78_defined",
    "Htool.TwoLevel.C78_errors",
    "Htool.TwoLevel.C78_geneo",
    "Htool.TwoLevel.C78_rows_unchecked",
    "Htool.TwoLevel.C78_any_operator",
    "Htool.TwoLevel.C78_built"
   ],
   "note": "Histories of calls, for real symmetric operators (the coarse matrix of other operators is the subject of C49). The number of rows is a hypothesis: the code does not check it (C78_rows_unchecked). HPDDM's use of what it receives is outside of the model. C78_built: real symmetric generator, entrywise accuracy eps, error of the coarse matrix at most eps |z|_1 |z'|_1."
  },
  {
   "property": "C79",
   "status": "proved",
   "theorems": [
    "Htool.C79_symmetric_operator",
    "Htool.C79_symmetric_products",
    "Htool.C79_hermitian_products",
    "Htool.C79_standard_admissibility"
   ],
   "note": "For an H-matrix built on one cluster tree (Setting), any compressor (no accuracy assumed), any schedule: entry (i,j) = entry (j,i) (or its conjugate); products under any schedule are symmetric / hermitian forms; the hypothesis on the admissibility condition is proved for Rjasanow-Steinbach on clusters of a cloud."
  },
  {
   "property": "C80",
   "status": "partial",
   "theorems": [
    "Htool.TreeParams.C80_parameters_partial",
    "Htool.TreeParams.C80_minclustersize_false",
    "Htool.TreeParams.C80_print_round_trip"
   ],
   "note": "Proved for every name except the minimal leaf sizes, which are always reported as 10 whatever was given to ClusterTreeBuilder (proved)."
  },
  {
   "property": "C81",
   "status": "partial",
   "theorems": [
    "Htool.BuilderArgs.C81_reported",
    "Htool.BuilderArgs.C81_printed",
    "Htool.BuilderArgs.C81_silent_is_usable_partial",
    "Htool.BuilderArgs.C81_both_partitions_false"
   ],
   "note": "Proved for all characters, ints, setter sequences and logger histories; that a silent configuration is usable holds for the target partition. False of the code for the source partition: the partition number for symmetry is only compared with the partition of the target (C81_both_partitions_false)."
  }
 ]
}