{"id": "C01", "title": "Block partition tiles the range", "statement": "calc_block_spos_len(len, nblk, iblk): over iblk = 0..nblk-1 the half-open ranges [blk_spos, blk_spos+blk_len) are pairwise disjoint, contiguous, in order, cover 0..len-1 exactly once, and their lengths differ by at most one. An index outside 0..nblk returns (-1, 0).", "quantifier": "every length len >= 0, every number of blocks nblk >= 1, every block index (including negative and too large ones)", "why_tests_cant": "the result must hold for every length and thread count; every threaded reduction in matvec/matmul sums each vector element exactly once only because of it", "anchors": ["src/utils.c: calc_block_spos_len", "src/H2Pack_matvec.c: H2P_matvec"]}
{"id": "C02", "title": "Growable int vector keeps every pushed element", "statement": "After H2P_int_vec_init with a non-zero requested capacity, any sequence of H2P_int_vec_push_back and H2P_int_vec_concatenate calls leaves the vector holding exactly the pushed elements in order, and no write is outside the allocated buffer, however often it has to be reallocated.", "quantifier": "every initial capacity, every sequence of push/concatenate operations", "why_tests_cant": "reallocation boundaries depend on the operation history, which is unbounded", "anchors": ["src/H2Pack_aux_structs.c: H2P_int_vec_init, H2P_int_vec_push_back, H2P_int_vec_concatenate, H2P_int_vec_set_capacity"]}
{"id": "C03", "title": "Workload partition covers all work", "statement": "H2P_partition_workload splits the works 0..n_work-1 into consecutive blocks: the displacements start at 0, are non-decreasing, never exceed n_work, every work of non-zero size lies in exactly one block, and at most n_block blocks are produced, so that a thread-static loop over blocks processes every non-empty work once.", "quantifier": "every list of work sizes, every declared total size equal to the sum, every number of blocks >= 1", "why_tests_cant": "the greedy cut points depend on all sizes and on the integer division of the total", "anchors": ["src/H2Pack_utils.c: H2P_partition_workload", "src/H2Pack_build.c: H2P_build_B_AOT, H2P_build_D_AOT"]}
{"id": "C04", "title": "COO to CSR conversion preserves the matrix and sorts rows", "statement": "H2P_int_COO_to_CSR produces a CSR matrix in which row r contains exactly the (column, value) entries given for row r (as a multiset) with columns in non-decreasing order.", "quantifier": "every number of rows, every list of entries whose row indices are in range", "why_tests_cant": "quick sort with in-place swapping and a bucket sort over arbitrary index lists; correctness must hold for all inputs including duplicates and empty rows", "anchors": ["src/H2Pack_utils.c: H2P_int_COO_to_CSR, H2P_qsort_int_key_val"]}
{"id": "C05", "title": "Pair lookup returns the stored block index or zero", "statement": "H2P_get_int_CSR_elem(row, col) returns the value stored for (row, col) if there is one and 0 otherwise; H2P_set_int_CSR_elem changes that entry and no other.", "quantifier": "every CSR matrix with unique columns per row, every row and column", "why_tests_cant": "all sparsity patterns and positions", "anchors": ["src/H2Pack_utils.c: H2P_get_int_CSR_elem, H2P_set_int_CSR_elem"]}
{"id": "C06", "title": "Point partitioning only permutes the points", "statement": "After H2P_partition_points the array coord_idx is a permutation of 0..n_point-1 and the sorted coordinate of position i equals the input coordinate of point coord_idx[i].", "quantifier": "every dimension, every point set, every max_leaf_points and max_leaf_size for which the partitioning returns", "why_tests_cant": "recursion over arbitrary geometric configurations (coincident points, empty boxes, all points in one octant)", "anchors": ["src/H2Pack_partition.c: H2P_bisection_partition_points, H2P_partition_points"]}
{"id": "C07", "title": "Clusters are nested and leaves tile the point set", "statement": "In the tree produced by H2P_partition_points the root cluster is [0, n_point-1]; the children clusters of each non-leaf node are non-empty, consecutive, in order and tile the cluster of the node; hence leaf clusters tile 0..n_point-1 exactly once.", "quantifier": "every point set and partition parameters for which the partitioning returns", "why_tests_cant": "must hold at every node of every tree", "anchors": ["src/H2Pack_partition.c: H2P_bisection_partition_points, H2P_tree_to_array"]}
{"id": "C08", "title": "Leaf nodes respect the size limit", "statement": "Every leaf of the tree produced by H2P_partition_points holds at most max_leaf_points points or has an enclosing box of size at most max_leaf_size, and every non-leaf node violates both.", "quantifier": "every point set and partition parameters for which the partitioning returns", "why_tests_cant": "must hold at every node of every tree", "anchors": ["src/H2Pack_partition.c: H2P_bisection_partition_points"]}
{"id": "C09", "title": "Point partitioning terminates", "statement": "H2P_partition_points returns for every finite point set provided max_leaf_size is large enough compared to the box inflation (> 4e-12 in exact arithmetic); without that, more than max_leaf_points coincident points make the recursion endless.", "quantifier": "every point set, every max_leaf_points >= 1", "why_tests_cant": "termination for all point sets is a liveness property; the failing input runs forever, so no finite test can confirm it", "anchors": ["src/H2Pack_partition.c: H2P_bisection_partition_points"]}
{"id": "C10", "title": "Tree arrays are a consistent post-order numbering", "statement": "In the exported tree arrays every node index is in range, the root is n_node-1 with parent -1, every child index is smaller than its parent's, parent/children are mutually inverse, a child's level is its parent's plus one, and level_nodes lists every node exactly once under its level.", "quantifier": "every tree built by the partitioning", "why_tests_cant": "all tree shapes", "anchors": ["src/H2Pack_partition.c: H2P_tree_to_array, H2P_partition_points"]}
{"id": "C11", "title": "H2 block partition covers every matrix entry exactly once", "statement": "For the H2 reduced (in)admissible pairs together with the leaf diagonal blocks: every ordered pair of points (p, q) belongs to exactly one of: the diagonal block of one leaf, one inadmissible pair (in one of its two orientations), one admissible pair (in one of its two orientations).", "quantifier": "every cluster tree and every geometry (any outcome of the admissibility test), every minimum admissible level", "why_tests_cant": "a global exact-cover statement over all trees and all outcomes of the geometric test", "anchors": ["src/H2Pack_partition.c: H2P_calc_reduced_adm_pairs"]}
{"id": "C12", "title": "HSS block partition covers every matrix entry exactly once", "statement": "In HSS mode the reduced (in)admissible pairs generated from sibling nodes together with the leaf diagonal blocks cover every ordered pair of points exactly once.", "quantifier": "every cluster tree", "why_tests_cant": "exact cover over all trees", "anchors": ["src/H2Pack_partition.c: H2P_HSS_calc_adm_inadm_pairs, H2P_calc_reduced_adm_pairs"]}
{"id": "C13", "title": "Recorded pairs are what they claim", "statement": "Every recorded reduced admissible pair passes the admissibility test and has both levels at least the minimum admissible level used in the search, every recorded inadmissible pair consists of two distinct leaves, and the reported min_adm_level is a lower bound of the larger level over all recorded admissible pairs.", "quantifier": "every cluster tree and geometry", "why_tests_cant": "all trees and geometries", "anchors": ["src/H2Pack_partition.c: H2P_calc_reduced_adm_pairs"]}
{"id": "C14", "title": "Periodic block partition covers every interaction with every image exactly once", "statement": "For the periodic system, for every lattice vector and every ordered pair of points (p, q): the interaction of p with the image of q under this lattice vector belongs to exactly one recorded admissible triple, inadmissible triple, or (for the zero shift) leaf diagonal block.", "quantifier": "every cluster tree, every finite list of lattice vectors, every outcome of the admissibility test", "why_tests_cant": "exact cover over all trees, lattices and geometries", "anchors": ["src/H2Pack_partition_periodic.c: H2P_calc_reduced_adm_pairs_per, H2P_partition_points_periodic"]}
{"id": "C15", "title": "Task queue delivers each task at most once", "statement": "However the calls DAG_task_queue_get_task / DAG_task_queue_finish_task of any number of threads interleave, no task id is returned twice between two resets, and tasks marked as skipped (self dependency) are never returned.", "quantifier": "every DAG, every number of threads, every interleaving of the atomic operations", "why_tests_cant": "quantifies over all schedules", "anchors": ["src/DAG_task_queue.c: DAG_task_queue_init, DAG_task_queue_get_task, DAG_task_queue_finish_task"]}
{"id": "C16", "title": "Task queue respects dependencies", "statement": "A task is returned by get_task only after finish_task has been called for every task it depends on.", "quantifier": "every DAG, every number of threads, every interleaving", "why_tests_cant": "quantifies over all schedules", "anchors": ["src/DAG_task_queue.c: DAG_task_queue_get_task, DAG_task_queue_finish_task"]}
{"id": "C17", "title": "Task queue never deadlocks and completes all tasks", "statement": "If the dependency graph is acyclic (apart from skip marks) and no task depends on a skipped task, then in every reachable state some thread can make progress until all threads have received -1, the number of non-waiting steps is bounded, and when all threads have received -1 every non-skipped task was delivered and finished.", "quantifier": "every such DAG, every number of threads >= 1, every interleaving", "why_tests_cant": "liveness over all schedules", "anchors": ["src/DAG_task_queue.c: DAG_task_queue_get_task, DAG_task_queue_finish_task"]}
{"id": "C18", "title": "Task queue is reusable after reset", "statement": "After DAG_task_queue_reset the queue is in the same state as after initialisation, whatever happened before.", "quantifier": "every history of calls before the reset", "why_tests_cant": "quantifies over histories", "anchors": ["src/DAG_task_queue.c: DAG_task_queue_reset, DAG_task_queue_init"]}
{"id": "C19", "title": "Parallel bottom-up construction is schedule independent", "statement": "When a bottom-up construction (result of a node is a function of the results of its children) is driven by the upward task queue, the results at completion do not depend on the number of threads nor on the schedule: they equal the sequential bottom-up evaluation.", "quantifier": "every tree/DAG, every node function, every number of threads, every interleaving", "why_tests_cant": "quantifies over all schedules", "anchors": ["src/H2Pack_build.c: H2P_build_H2_UJ_proxy", "src/DAG_task_queue.c"]}
{"id": "C20", "title": "H2 matvec computes the product with the H2 matrix", "statement": "H2P_matvec(x, y) stores in y exactly (in exact arithmetic) A*x where A is the matrix defined by the blocks: leaf diagonal D_ii, inadmissible D_ij (and transposed), admissible U_i B_ij U_j^T (and transposed) with nested bases U, with rows and columns permuted by coord_idx.", "quantifier": "every cluster tree, every set of generator matrices of matching sizes, every input vector, every number of threads and every assignment of blocks to threads", "why_tests_cant": "universal over trees, ranks, vectors and schedules; tests compare on a few random systems with a tolerance", "anchors": ["src/H2Pack_matvec.c: H2P_matvec, H2P_matvec_fwd_transform, H2P_matvec_intmd_mult_AOT, H2P_matvec_bwd_transform, H2P_matvec_dense_mult_AOT"]}
{"id": "C21", "title": "H2 matvec is linear and symmetric", "statement": "H2P_matvec is linear in x, and for symmetric diagonal blocks z^T(Ay) = y^T(Az) for all y, z.", "quantifier": "all vectors, all H2 representations", "why_tests_cant": "universal over vectors and representations", "anchors": ["src/H2Pack_matvec.c: H2P_matvec"]}
{"id": "C22", "title": "Repeated matvecs are independent of history", "statement": "The result of H2P_matvec depends only on the H2 representation and x, not on the contents of work buffers left by previous matvec calls.", "quantifier": "every history of previous calls (arbitrary buffer contents), every tree and ranks", "why_tests_cant": "quantifies over all prior histories; stale-buffer bugs only show for particular rank patterns", "anchors": ["src/H2Pack_matvec.c: H2P_matvec_fwd_transform, H2P_matvec_bwd_transform, H2P_matvec_init_y1"]}
{"id": "C23", "title": "Just-in-time and ahead-of-time modes agree", "statement": "The BD_JIT=1 and BD_JIT=0 modes of the intermediate and dense multiplications give the same result; in particular the row-blocked evaluation H2P_krnl_eval_bimv equals the product with the full block.", "quantifier": "every block size, row-block size, kernel function, vector", "why_tests_cant": "all sizes relative to the internal blocking", "anchors": ["src/H2Pack_matvec.c: H2P_krnl_eval_bimv, H2P_matvec_intmd_mult_JIT, H2P_matvec_dense_mult_JIT"]}
{"id": "C24", "title": "SIMD padding does not change the result", "statement": "H2P_ext_krnl_bimv and H2P_ext_krnl_mv pad point sets to a multiple of the SIMD length; for any kernel bi-matvec routine the padded evaluation adds exactly the unpadded products to the original outputs and writes nothing beyond them, for arbitrary values of the kernel at padding points.", "quantifier": "every number of points, kernel dimension, kernel values (also at padding points)", "why_tests_cant": "all remainders of sizes modulo the vector length, arbitrary kernels", "anchors": ["src/H2Pack_matvec.c: H2P_ext_krnl_bimv", "src/H2Pack_matvec_periodic.c: H2P_ext_krnl_mv"]}
{"id": "C25", "title": "Matmul equals column-wise matvec", "statement": "H2P_matmul with n_vec vectors gives in column k the result of H2P_matvec on column k, for both the row-major and the column-major layout and whatever mm_max_n_vec is.", "quantifier": "every n_vec, every blocking width mm_max_n_vec >= 1, both layouts, every leading dimension", "why_tests_cant": "all vector counts and blockings", "anchors": ["src/H2Pack_matmul.c: H2P_matmul, H2P_matmul_fwd_transform, H2P_matmul_intmd_mult, H2P_matmul_bwd_transform, H2P_matmul_dense_mult"]}
{"id": "C26", "title": "Forward and backward permutation are mutually inverse", "statement": "H2P_permute_vector_forward followed by H2P_permute_vector_backward (and vice versa) returns the original vector, and forward permutation moves the krnl_dim entries of original point coord_idx[i] to block i.", "quantifier": "every permutation, krnl_dim, vector", "why_tests_cant": "all permutations", "anchors": ["src/H2Pack_matvec.c: H2P_permute_vector_forward, H2P_permute_vector_backward", "src/H2Pack_build.c: H2P_build (fwd_pmt_idx, bwd_pmt_idx)"]}
{"id": "C27", "title": "Generator block storage is disjoint and addressable by pair", "statement": "For every admissible (inadmissible) pair the storage ranges [B_ptr[i], B_ptr[i+1]) are disjoint, contiguous and have the size of the block; looking up (i, j) finds the block and looking up (j, i) finds the same block flagged as transposed.", "quantifier": "every list of distinct unordered pairs, every block dimensions", "why_tests_cant": "all pair lists and sizes", "anchors": ["src/H2Pack_build.c: H2P_generate_B_metadata, H2P_generate_D_metadata", "src/H2Pack_utils.c: H2P_get_Bij_block, H2P_get_Dij_block"]}
{"id": "C28", "title": "ID compression selects rows and reproduces them", "statement": "H2P_ID_compress on a matrix A returns distinct, increasing, in-range row indices J and a matrix U such that the rows J of U form the identity; if the pivoted QR is exact at the reported rank then A = U * A[J, :].", "quantifier": "every matrix, every stopping criterion", "why_tests_cant": "all matrices and pivot orders", "anchors": ["src/H2Pack_ID_compress.c: H2P_ID_compress"]}
{"id": "C29", "title": "Pivoted QR rank limits", "statement": "The rank returned by the partial-pivot QR never exceeds the number of rows, columns and the requested maximal rank, and with kernel dimension kdim it is a multiple of kdim with columns kept in groups of kdim.", "quantifier": "every matrix, every stopping criterion and kdim", "why_tests_cant": "all matrices and thresholds", "anchors": ["src/H2Pack_ID_compress.c: H2P_partial_pivot_QR, H2P_partial_pivot_QR_kdim"]}
{"id": "C30", "title": "Store then read reproduces the representation", "statement": "For a built matrix whose coordinates have 16 significant hexadecimal digits, H2P_store_to_file, conversion to JSON and back, and sections 1-12 of H2P_read_from_file succeed and give an H2/HSS representation with the same tree, point order, coordinates, U, B, D, pairs, skeleton points and the block metadata a build computes, whatever uninitialised memory contains; matvec with the loaded representation (blocks loaded, or evaluated on the fly by the same kernel) equals matvec with the stored one (in HSS mode provided the marks of section 13 are non-zero). The last step (section 13) however reads boxes behind the end of a one-box array for every tree with more than one node.", "quantifier": "every H2/HSS representation", "why_tests_cant": "all representations: token order and counts must agree for every tree and pair list", "anchors": ["src/H2Pack_file_IO.c: H2P_store_to_file, H2P_read_from_file", "examples/meta_txt_to_json.py", "examples/meta_json_to_txt.py"]}
{"id": "C31", "title": "Coordinates survive the text format", "statement": "Storing, converting to JSON and back, and reading recovers every coordinate bit for bit, in both point orders, when every coordinate's 64-bit pattern is at least 2^60; if some pattern is smaller (e.g. the coordinate 0.0) the conversion to JSON fails and writes nothing. Writing and scanning hexadecimal text is the identity on all 64-bit patterns.", "quantifier": "every 64-bit pattern", "why_tests_cant": "2^64 values per coordinate; failing patterns (leading zero digits) are measure-zero in random tests", "anchors": ["src/H2Pack_file_IO.c: H2P_store_to_file", "examples/meta_txt_to_json.py: hex_to_double", "examples/meta_json_to_txt.py: double_to_hex"]}
{"id": "C32", "title": "ULV LU solve inverts the HSS matrix", "statement": "After a successful H2P_HSS_ULV_LU_factorize(shift), H2P_HSS_ULV_LU_solve with op=3 returns x with (A_HSS + shift I) x = b in exact arithmetic; op=1 followed by op=2 gives the same as op=3.", "quantifier": "every HSS tree, generators, shift for which all pivots are non-zero, every right-hand side", "why_tests_cant": "all trees, ranks and right-hand sides", "anchors": ["src/H2Pack_HSS_ULV.c: H2P_HSS_ULV_LU_factorize, H2P_HSS_ULV_LU_solve"]}
{"id": "C33", "title": "ULV Cholesky solve inverts the HSS matrix", "statement": "After a successful H2P_HSS_ULV_Cholesky_factorize(shift), H2P_HSS_ULV_Cholesky_solve with op=3 returns x with (A_HSS + shift I) x = b in exact arithmetic; op=1 followed by op=2 gives the same as op=3.", "quantifier": "every HSS tree, generators and shift for which the Cholesky steps succeed, every right-hand side", "why_tests_cant": "all trees, ranks and right-hand sides", "anchors": ["src/H2Pack_HSS_ULV.c: H2P_HSS_ULV_Cholesky_factorize, H2P_HSS_ULV_Cholesky_solve"]}
{"id": "C34", "title": "ULV log-determinant is the log-determinant of the HSS matrix", "statement": "The sum of log|diagonal pivots| accumulated by the ULV factorizations equals log|det(A_HSS + shift I)|.", "quantifier": "every HSS tree and generators with non-zero pivots", "why_tests_cant": "all trees and ranks", "anchors": ["src/H2Pack_HSS_ULV.c: HSS_logdet"]}
{"id": "C35", "title": "In-place row/column selection is correct for increasing indices", "statement": "H2P_dense_mat_select_rows / H2P_dense_mat_select_columns called with a strictly increasing index list give exactly the selected rows/columns of the original matrix although they overwrite it in place.", "quantifier": "every matrix, every strictly increasing in-range index list", "why_tests_cant": "aliasing correctness for all index lists", "anchors": ["src/H2Pack_aux_structs.c: H2P_dense_mat_select_rows, H2P_dense_mat_select_columns"]}
{"id": "C36", "title": "Row permutation of a dense matrix", "statement": "H2P_dense_mat_permute_rows(mat, p) gives the matrix whose row i is row p[i] of the original.", "quantifier": "every matrix and index list", "why_tests_cant": "all sizes and permutations", "anchors": ["src/H2Pack_aux_structs.c: H2P_dense_mat_permute_rows"]}
{"id": "C37", "title": "Concatenation helpers assemble the documented block matrices", "statement": "H2P_dense_mat_blkdiag / vertcat / horzcat build block diagonal, stacked and side-by-side matrices of the indexed blocks.", "quantifier": "every list of blocks of matching sizes", "why_tests_cant": "all sizes and counts", "anchors": ["src/H2Pack_aux_structs.c: H2P_dense_mat_blkdiag, H2P_dense_mat_vertcat, H2P_dense_mat_horzcat"]}
{"id": "C38", "title": "Random sampling yields distinct indices", "statement": "H2P_rand_sample-style sampling of k of n indices returns k distinct in-range indices whenever it returns, and it can only return if k <= n.", "quantifier": "every outcome sequence of the random generator, every n, k", "why_tests_cant": "quantifies over all random streams", "anchors": ["src/H2Pack_utils.c: H2P_rand_sample"]}
{"id": "C39", "title": "Admissibility test is symmetric and monotone", "statement": "H2P_check_box_admissible gives the same answer for swapped boxes, and shrinking either box (same region subset) or decreasing alpha never turns an admissible pair inadmissible when the size terms shrink as well.", "quantifier": "all boxes and alpha", "why_tests_cant": "continuum of inputs", "anchors": ["src/H2Pack_utils.c: H2P_check_box_admissible"]}
{"id": "C40", "title": "Points lie in their node's enclosing box", "statement": "Every point of a node lies inside the node's enclosing box.", "quantifier": "every point set and tree", "why_tests_cant": "all point sets", "anchors": ["src/H2Pack_partition.c: H2P_bisection_partition_points"]}
{"id": "C41", "title": "Task queue never accesses memory out of bounds", "statement": "In every execution of get_task / finish_task by any number of threads on a successfully initialised queue, every slot of the task queue read or written, every counter decremented and every task id used as an index is inside the arrays of length max_task_id.", "quantifier": "every DAG accepted by the initialisation, every number of threads, every interleaving", "why_tests_cant": "the write position is a shared counter; its bound is a global invariant over all interleavings", "anchors": ["src/DAG_task_queue.c: DAG_task_queue_get_task, DAG_task_queue_finish_task"]}
{"id": "C42", "title": "Gathering elements of an index vector", "statement": "H2P_int_vec_gather(src, idx, dst) makes dst the elements of src at the positions idx, in order, whatever dst held before; called with dst = src it gives the same result when idx is strictly increasing.", "quantifier": "every source vector, every list of positions inside it (every strictly increasing one for the in-place call)", "why_tests_cant": "the in-place case depends on which positions have already been overwritten, for every list", "anchors": ["src/H2Pack_aux_structs.c: H2P_int_vec_gather"]}
{"id": "C43", "title": "Multi-threaded transposition", "statement": "H2P_transpose_dmat writes the transposed matrix into dst and changes nothing else, for every number of threads and every schedule of the OpenMP loop.", "quantifier": "every size, leading dimension >= number of source rows, number of threads, assignment of iterations to threads and interleaving of the stores", "why_tests_cant": "quantifies over all schedules and sizes", "anchors": ["src/H2Pack_utils.c: H2P_transpose_dmat"]}
{"id": "C44", "title": "The upward task graph built by the partitioning is valid", "statement": "After partitioning a point set that needs more than one tree node, the dependency graph handed to the task queue is accepted, acyclic and executable, and its tasks are exactly the nodes on levels >= min_adm_level; if all points fit into one leaf, building the graph accesses memory out of bounds.", "quantifier": "every point set, every outcome of the partitioning", "why_tests_cant": "all trees and geometries; the single-leaf case needs no special data but a particular relation of sizes", "anchors": ["src/H2Pack_partition.c: H2P_partition_points (step 7)", "src/DAG_task_queue.c: DAG_task_queue_init"]}
{"id": "C45", "title": "Partitioning and block metadata establish what the product relies on", "statement": "After H2P_partition_points and the metadata functions of H2P_build, whatever the points are: the admissible and the inadmissible pairs are distinct unordered pairs of tree nodes, the block sizes match the sizes of the bases on both sides, every node of an admissible pair is one whose intermediate vector matvec clears and uses (in H2 mode by node_n_r_adm, in HSS mode by node_n_r_inadm), and every admissible pair touches a level on which bases exist.", "quantifier": "every point set, tree, skeleton sizes and numbers of tasks", "why_tests_cant": "all trees and geometries; a missing mark silently drops a block from the product", "anchors": ["src/H2Pack_partition.c: H2P_partition_points, H2P_calc_node_inadm_lists", "src/H2Pack_build.c: H2P_generate_B_metadata, H2P_generate_D_metadata", "src/H2Pack_matvec.c: H2P_matvec_init_y1"]}
{"id": "C46", "title": "Near field is exact, far field is one low rank block", "statement": "For two points that are in no admissible pair of clusters, the entry of the matrix H2P_matvec applies is exactly the kernel value of the two points, whatever the compression produced; for two points in an admissible pair it is the entry of the low rank block of that pair alone.", "quantifier": "every point set, partitioning, symmetric kernel, compression and schedule", "why_tests_cant": "all pairs of points of all point sets", "anchors": ["src/H2Pack_partition.c: H2P_calc_reduced_adm_pairs", "src/H2Pack_build.c: H2P_build_D_AOT", "src/H2Pack_matvec.c: H2P_matvec"]}
{"id": "C47", "title": "Interpolative decomposition honours its tolerance", "statement": "In exact arithmetic, when the ID compression is run with a relative (absolute) norm tolerance, the error of every row group reconstructed from the selected rows is at most the tolerance (with the machine-epsilon floor) times the largest row-group norm (at most the tolerance itself); with kdim = 1 it returns for every matrix that is not zero (for every matrix), while the zero matrix with the relative criterion, and a single group of linearly dependent rows with kdim > 1, divide by zero.", "quantifier": "every matrix size and content, every tolerance and every kdim that divides the sizes", "why_tests_cant": "the bound depends on the pivot order, the down-dated norms and the block reflectors of every step; tests see finitely many matrices", "anchors": ["src/H2Pack_ID_compress.c: H2P_ID_compress, H2P_ID_QR, H2P_partial_pivot_QR, H2P_partial_pivot_QR_kdim"]}
{"id": "C48", "title": "Which matrices the ULV factorizations accept", "statement": "In exact arithmetic, H2P_HSS_ULV_Cholesky_factorize reports success (is_HSS_SPD) exactly when A + shift I is positive definite, and H2P_HSS_ULV_LU_factorize reports success for every positive definite A + shift I; LU can report failure for a nonsingular matrix; after a reported failure a solve dereferences a null pointer.", "quantifier": "every symmetric HSS matrix, shift, order of the nodes and number of threads", "why_tests_cant": "an equivalence over all matrices; tests see finitely many", "anchors": ["src/H2Pack_HSS_ULV.c: H2P_HSS_ULV_LU_factorize, H2P_HSS_ULV_Cholesky_factorize, H2P_HSS_ULV_LU_solve, H2P_HSS_ULV_Cholesky_solve"]}
{"id": "C49", "title": "HSS construction feeds the ULV solvers, and the product undoes the solve", "statement": "In HSS mode, for a box that is a cube and a root with at least two children, the partitioning finds exactly the pairs (earlier child, later child) of every node as compressed blocks and no other dense block than the diagonal ones; with what the basis construction supplies, the block lookups return the blocks of a valid HSS representation, in AOT and JIT mode and for every interleaving of the threads that build the blocks; after a successful factorization, H2P_matvec applied to the solution plus shift times the solution is the right-hand side.", "quantifier": "every point set, tree, basis sizes, block data, right-hand side, shift and schedule", "why_tests_cant": "composition of partitioning, metadata, block construction, factorization, solve and product over all inputs", "anchors": ["src/H2Pack_partition.c: H2P_partition_points", "src/H2Pack_build.c: H2P_generate_B_metadata, H2P_build_B_AOT", "src/H2Pack_utils.c: H2P_get_Bij_block, H2P_get_Dij_block", "src/H2Pack_HSS_ULV.c: H2P_HSS_ULV_LU_solve, H2P_HSS_ULV_Cholesky_solve", "src/H2Pack_matvec.c: H2P_matvec"]}
{"id": "C50", "title": "Skeletons and bases come from the points of the cluster", "statement": "After the basis construction of H2P_build, every node on a level with bases has: skeleton points that are distinct points of its own cluster, for an inner node among the skeleton points of its children; a basis with one column per skeleton unknown and one row per candidate unknown, with identity rows at the skeleton; in exact arithmetic the rows it drops are reproduced on the proxy points within the requested tolerance. In H2 mode the result does not depend on the number of threads or the schedule and the construction ends; with these bases the metadata and blocks built by H2P_build meet everything the product and the HSS solvers rely on.", "quantifier": "every point set, kernel, proxy point set, tolerance, number of threads and schedule", "why_tests_cant": "quantifies over all schedules of the task queue and all trees; the nesting is a recursive property", "anchors": ["src/H2Pack_build.c: H2P_build_H2_UJ_proxy, H2P_build_HSS_UJ_hybrid, H2P_build", "src/H2Pack_ID_compress.c: H2P_ID_compress", "src/DAG_task_queue.c: DAG_task_queue_get_task"]}
{"id": "C51", "title": "The compressed matrix is exact between skeleton points", "statement": "For an admissible pair of clusters and one skeleton point on each side (any point of a side that is stored as its points), applying H2P_matvec to the unit vector of one gives exactly the kernel value at the other, in both directions, however inaccurate the compression of the remaining points is.", "quantifier": "every built matrix, admissible pair, pair of skeleton points, kernel component and schedule", "why_tests_cant": "all trees, ranks and kernels", "anchors": ["src/H2Pack_build.c: H2P_build_H2_UJ_proxy, H2P_build_B_AOT", "src/H2Pack_matvec.c: H2P_matvec"]}
{"id": "C52", "title": "The compression error grows at most linearly with the depth of the tree", "statement": "If every node reproduces the kernel values between its candidate points and every point it interacts with from afar with error at most eps, then every entry of the matrix that H2P_matvec applies differs from the kernel value by at most (1+L)(1 + depth L) eps where L bounds the absolute row sums of the bases, and the product differs from the exact product by at most that times the 1-norm of the input; with eps = 0 the product is exact.", "quantifier": "every built matrix, input vector, eps and bound L", "why_tests_cant": "an error bound over all trees, depths and inputs; rounding-level agreement on examples cannot show it", "anchors": ["src/H2Pack_build.c: H2P_build_H2_UJ_proxy", "src/H2Pack_matvec.c: H2P_matvec"]}
{"id": "C53", "title": "Product with a periodic matrix", "statement": "H2P_matvec_periodic multiplies by the periodic H2 matrix: every (node, node, image) entry of the admissible list contributes its compressed kernel block with the second cluster moved to the image, once and in one direction; every entry of the inadmissible list and every diagonal leaf block contributes its exact kernel block; and the root-to-root block is applied between the bases of the root.  The result is in the order of the input points and independent of the number of threads, the orders of all parallel loops, the presence of krnl_mv and the old contents of every buffer.", "quantifier": "every tree, pair lists with images, skeletons, bases, kernel, root block, number of threads and iteration order", "why_tests_cant": "all trees, images and schedules; a dropped or doubled image is a small error in tests", "anchors": ["src/H2Pack_matvec_periodic.c: H2P_matvec_periodic, H2P_matvec_periodic_intmd_mult_JIT, H2P_matvec_periodic_dense_mult_JIT", "src/H2Pack_build.c: H2P_generate_B_metadata, H2P_generate_D_metadata"]}
{"id": "C54", "title": "Periodic construction", "statement": "The images considered for a 2D (3D) periodic system are exactly the 9 (27) displacements with components in {-1,0,1}, each once.  With a cell of positive extent, no admissible entry starts at the root, so the product may overwrite the intermediate vector of the root.  The skeletons and bases of all nodes, the root included, are the same for every number of threads and every schedule and meet the same structural and accuracy guarantees as in the non-periodic case; with at least one admissible entry the metadata functions return and the result meets everything the periodic product relies on.", "quantifier": "every point set, cell, kernel, periodic kernel, proxy points, tolerance, number of threads and schedule", "why_tests_cant": "quantifies over all schedules and trees; the root case appears only through the interplay of three functions", "anchors": ["src/H2Pack_build_periodic.c: H2P_build_periodic, H2P_build_periodic_block", "src/H2Pack_partition_periodic.c: H2P_partition_points_periodic", "src/H2Pack_typedef.c: H2P_init"]}
{"id": "C55", "title": "The periodic product approximates the periodic kernel matrix", "statement": "If every node reproduces, up to eps, the kernel values between its candidates and the displaced points it interacts with from afar, and up to eps_r the difference between the periodic kernel and the sum of the kernel over all considered images, then every entry of the matrix that H2P_matvec_periodic applies differs from the periodic kernel by at most (1+L)(1 + depth L)(n_lattice eps + eps_r), where L bounds the absolute row sums of the bases; with both zero the product with the periodic kernel matrix is exact: no image is lost or counted twice between the pair lists and the root block.", "quantifier": "every built periodic matrix in 2D and 3D with a cell wider than 1e-10, every input vector, eps, eps_r and L", "why_tests_cant": "an error bound and an exact accounting of all images over all trees", "anchors": ["src/H2Pack_build_periodic.c: H2P_build_periodic_block", "src/H2Pack_partition_periodic.c: H2P_partition_points_periodic", "src/H2Pack_matvec_periodic.c: H2P_matvec_periodic"]}
{"id": "C56", "title": "Product of a periodic matrix with several vectors", "statement": "H2P_matmul_periodic terminates and writes into column l of the output the periodic H2 matrix times column l of the input, rows in the order of the input points; the result does not depend on the width of the column blocks (mm_max_n_vec), the storage layout, the order in which the threads process the nodes or stale buffer contents, it equals H2P_matvec_periodic column by column, and no other position of the output array is written.", "quantifier": "every periodic representation with at least one admissible pair, every number of vectors, block width, layout, leading dimensions, input, order of parallel iterations and previous buffer contents", "why_tests_cant": "the column block boundaries, layouts and thread schedules are unbounded; tests compare a few sizes", "anchors": ["src/H2Pack_matmul_periodic.c:H2P_matmul_periodic", "src/H2Pack_matmul_periodic.c:H2P_matmul_periodic_intmd_mult", "src/H2Pack_matmul_periodic.c:H2P_matmul_periodic_dense_mult"]}
{"id": "C57", "title": "Building an SPD HSS approximation of an SPD H2 matrix never fails", "statement": "For an H2 matrix A with A + shift I symmetric positive definite, H2P_SPDHSS_H2_build returns, without touching unset or freed data, an HSS matrix on the same tree and in the same point order whose bases have at most max_rank columns, and the matrix it represents is symmetric positive definite: for every positive max_rank, every tolerance, whatever the random samples and in whatever order the threads handle the nodes and pairs of a level; the ULV Cholesky factorization of the result then succeeds.", "quantifier": "every H2 matrix with A + shift I positive definite, every max_rank > 0, tolerance, shift, contents of the samples, schedule and old contents of the work buffers", "why_tests_cant": "positive definiteness under arbitrary truncation, for all trees and samples, is exactly what examples cannot establish", "anchors": ["src/H2Pack_SPDHSS_H2.c: H2P_SPDHSS_H2_build, H2P_SPDHSS_H2_calc_HSS_Bij, H2P_SPDHSS_H2_wrap_new_HSS"]}
{"id": "C58", "title": "Pairs handled on each level of the SPD HSS construction", "statement": "The per-level lists of node pairs whose intermediate block is computed contain every pair visited by the admissibility search whose deeper node is on that level, exactly once, and nothing else; together they contain all visited pairs once.", "quantifier": "every tree with n_node^2 <= 2^31, every admissibility test and every level", "why_tests_cant": "all trees and pair lists", "anchors": ["src/H2Pack_SPDHSS_H2.c: H2P_SPDHSS_H2_get_level_HSS_Bij_pairs"]}
{"id": "C59", "title": "What the SPD HSS approximation changes", "statement": "The dense diagonal blocks of the result are exactly those of A + shift I; the block of two siblings is the exact block multiplied from both sides by projections (idempotent matrices) that act on the rows of the two nodes only and have rank at most max_rank; each node uses one projection for all its blocks with its siblings.", "quantifier": "every run covered by the previous property but one, every leaf, every pair of siblings", "why_tests_cant": "all matrices, ranks and samples", "anchors": ["src/H2Pack_SPDHSS_H2.c: H2P_SPDHSS_H2_build, H2P_SPDHSS_H2_calc_HSS_Bij"]}
{"id": "C60", "title": "Full rank SPD HSS construction is exact", "statement": "With max_rank and the number of samples at least the size of the matrix and reltol <= 0, the returned HSS matrix represents A + shift I exactly, whatever the samples contain.", "quantifier": "every H2 matrix with A + shift I positive definite", "why_tests_cant": "exact equality for all trees and inputs", "anchors": ["src/H2Pack_SPDHSS_H2.c: H2P_SPDHSS_H2_build"]}
{"id": "C61", "title": "Samples of the H2 matrix", "statement": "The sampling step of the SPDHSS construction terminates without a failed assertion and, for every random matrix X and every order of the parallel iterations, returns for each leaf v and each l smaller than its level the product M(rows of v, columns outside u) X(outside u, :), where u is the node l levels above v; M is the H2 matrix except that products of admissible blocks whose row node lies above min_adm_level are left out (M is the H2 matrix when there are none). The level used to sort the products is that of the lowest common ancestor. Sampling followed by the construction gives a positive definite HSS matrix whenever A + shift I is.", "quantifier": "every H2 matrix whose pairs come from the pair search, AOT and JIT, every number of samples, random matrix and schedule", "why_tests_cant": "values of all products for all trees, including unbalanced ones, and all orders", "anchors": ["src/H2Pack_SPDHSS_H2.c: H2P_SPDHSS_H2_acc_matvec, H2P_build_explicit_U, H2P_tree_common_ancestor_level"]}
{"id": "C62", "title": "Adequate samples give an exact SPD HSS construction", "statement": "If reltol <= 0, max_rank is at least the rank of the off-diagonal rows A(v, outside v) of every node v, and the random matrix loses no rank of these rows, then the SPD HSS matrix built from the samples of A represents A + shift I exactly. When both nodes of every admissible pair are at or below the first admissible level, this holds for sampling followed by construction.", "quantifier": "every H2 matrix with A + shift I positive definite, every such random matrix, every order of the parallel iterations", "why_tests_cant": "exact equality for all trees, ranks and inputs", "anchors": ["src/H2Pack_SPDHSS_H2.c: H2P_SPDHSS_H2_build, H2P_SPDHSS_H2_acc_matvec"]}
{"id": "C63", "title": "Truncation of SPD HSS bases with a tolerance", "statement": "With reltol > 0, the basis of a leaf whose samples have rank rho, smaller than the number of rows, the number of samples and max_rank, never has rho columns: either all columns are kept (always so for rho = 1), or fewer than rho are and then the result is not A + shift I. In every HSS matrix the rank of the off-diagonal rows of a node is at most the number of columns of its basis.", "quantifier": "every H2 matrix with A + shift I positive definite, every positive tolerance, every leaf", "why_tests_cant": "all matrices, ranks and tolerances", "anchors": ["src/H2Pack_SPDHSS_H2.c: H2P_SPDHSS_H2_build"]}
{"id": "C64", "title": "Farthest point sampling selects the farthest points", "statement": "The sampling used to choose the landmark points of the AFN preconditioner selects first the point nearest to the centroid and then, step by step, a point whose distance to all points selected before is largest, ties broken by the lowest index. The result does not depend on the number of threads or on their timing, and entries of the output array after the selected ones are not touched. The selected indices are different exactly if there are that many different positions. With fewer points than threads the behaviour is undefined.", "quantifier": "every set of points in any dimension, every number of points to select, every number of threads, every order of the threads in every round", "why_tests_cant": "ties, thread schedules and point sets are unbounded", "anchors": ["src/AFN_precond.c: AFNi_FPS"]}
{"id": "C65", "title": "Order of the points in the AFN preconditioner", "statement": "The point order used by the AFN preconditioner is a permutation of the points that begins with the landmark points in the order of their selection and keeps the order of the others, provided the points have at least as many different positions as there are landmarks; otherwise an array is overrun.", "quantifier": "every set of points, number of landmarks and schedule", "why_tests_cant": "all inputs, including repeated points", "anchors": ["src/AFN_precond.c: AFN_precond_build, AFNi_FPS"]}
{"id": "C66", "title": "Exact neighbour search of FSAI", "statement": "For every point set, every fsai_npt >= 1 and every order in which the threads process the points, the exact nearest neighbour search terminates and gives each point i a list that ends with i and before it contains the fsai_npt - 1 nearest points among those with smaller index (all of them if there are fewer), without repetition; the lists do not depend on the thread order. With fsai_npt = 0 the search writes before the start of the list.", "quantifier": "all point sets, dimensions, numbers of neighbours, orders of the parallel iterations", "why_tests_cant": "the partial sort works for every arrangement of distances including ties; a test sees a few point sets", "anchors": ["src/AFN_precond.c: FSAI_exact_KNN, qpart"]}
{"id": "C67", "title": "FSAI preconditioner", "statement": "For every symmetric kernel, points, shift, low rank part P and neighbour lists (each ending with its own index, otherwise with smaller indices) such that S = K + mu I - P P' is positive definite, the construction returns CSR matrices G and G' where G is the factorized sparse approximate inverse of S on the pattern (unique: lower triangular with positive diagonal, (G S)_ij = 0 on the pattern off the diagonal, (G S G')_ii = 1); applying the preconditioner multiplies with G'G, which is symmetric positive definite; on the full pattern this is the inverse of S. If the submatrix of the neighbours of some point is not positive definite the program stops with an error.", "quantifier": "all kernels, points, shifts, low rank parts, patterns, contents of fresh memory and thread orders", "why_tests_cant": "a statement about an unbounded family of matrices and patterns, independent of schedules and of memory contents", "anchors": ["src/AFN_precond.c: FSAI_precond_build_, FSAI_precond_apply_"]}
{"id": "C68", "title": "AFN preconditioner", "statement": "For every symmetric kernel with K + mu I positive definite, every choice and order of the landmark points and all admissible neighbour lists, AFN_precond_build in AFN mode succeeds, and AFN_precond_apply multiplies with a symmetric positive definite matrix: the inverse of the matrix that equals K + mu I in all rows and columns of landmarks and otherwise has the Schur complement replaced by the inverse of its FSAI approximation. If fsai_npt is at least the number of other points, apply solves the system with K + mu I exactly, starting from the points and for every schedule.", "quantifier": "all kernels, points, shifts, landmark numbers, neighbour lists, schedules and right-hand sides", "why_tests_cant": "positive definiteness and exactness concern all inputs; tests only observe iteration counts", "anchors": ["src/AFN_precond.c: AFN_precond_build, AFNi_AFN_precond_build, AFN_precond_apply"]}
{"id": "C69", "title": "Nystrom preconditioner", "statement": "For every symmetric kernel, points and order of the points, if 1 <= estimated rank < max_k and the kernel matrix of the landmarks plus nu I is positive definite, the build succeeds and apply multiplies with the function (max(lo - nu, 0) + mu) / (max(w - nu, 0) + mu) of the Nystrom approximation K1' (K11 + nu I)^-1 K1 (with 1 for the eigenvalues that are truncated), where lo is the smallest of its n1 eigenvalues. For mu > 0 this is symmetric positive definite with all eigenvalues at most 1. An estimated rank of 0 leads to a read before the start of the eigenvalue array.", "quantifier": "all kernels, points, orders, ranks, shifts and input vectors", "why_tests_cant": "a spectral statement for all inputs; the reordering, the truncation and the eigenvalue order interact", "anchors": ["src/AFN_precond.c: Nys_precond_build_, Nys_precond_apply_, AFN_precond_build, AFN_precond_apply"]}
{"id": "C70", "title": "PCG reports the truth", "statement": "For every linear operator, preconditioner function (linear or not), right-hand side, start vector, tolerance and iteration limit: if the solver does not divide by zero, then flag is 0 exactly if the returned x satisfies |b - A x| <= tol |b|, relres is |b - A x| / |b|, at most max_iter iterations are done, and flag is 1 only if exactly max_iter were done. For b = 0 relres is 0/0.", "quantifier": "all linear systems, preconditioner functions, start vectors, tolerances and limits", "why_tests_cant": "the residual is updated by recurrence and never recomputed before it is reported; that it is the true residual is an invariant of all iterations", "anchors": ["examples/PCG/pcg.c: pcg"]}
{"id": "C71", "title": "PCG: no breakdown, optimality, finite termination, rate", "statement": "For every symmetric positive definite matrix and preconditioner, every start vector and tolerance the solver never divides by zero; the error of the result after k iterations is q(BA) times the initial error with deg q <= k, q(0) = 1, and no such polynomial gives a smaller energy norm; it converges in at most n iterations (at most the degree of any polynomial with q(0) = 1 that annihilates BA, one iteration for an exact preconditioner); if lo A^-1 <= B <= hi A^-1 the energy norm of the error is reduced by (hi - lo)/(hi + lo) per iteration. With the AFN preconditioner the solver for K + mu I converges from every start vector.", "quantifier": "all positive definite systems and preconditioners, start vectors, tolerances and limits", "why_tests_cant": "orthogonality of all previous directions is an induction over the iterations; tests observe iteration counts on a few matrices", "anchors": ["examples/PCG/pcg.c: pcg", "examples/PCG/pcg.h", "src/AFN_precond.c: AFN_precond_apply"]}
{"id": "C72", "title": "Neighbour lists of the HSS construction fit", "statement": "For every partitioned point set whose boxes are not tiny, the computation of the inadmissible neighbours for the HSS construction stays within 3^dim entries per node; the list of every node at or below the minimal level consists of exactly those nodes of its level and leaves above it that are inadmissible for H2 and admissible for HSS, each once, without the node itself. With box widths around 5e-6 the row overflows.", "quantifier": "all point sets, dimensions, leaf limits; all nodes of all trees", "why_tests_cant": "the bound 3^dim is a packing argument over all boxes of all levels, with enlarged boxes and tolerances; tests cannot reach all trees", "anchors": ["src/H2Pack_partition.c: H2P_calc_node_inadm_lists", "src/H2Pack_utils.c: H2P_check_box_admissible"]}
{"id": "C73", "title": "Neighbour search through the H2 tree", "statement": "For every partitioned point set whose boxes are not tiny, every selection and order of its points and every fsai_npt below 3^dim times the largest node of the search level: the approximate nearest neighbour search stays inside its arrays, passes its own checks and gives the same result for every thread schedule; row i ends with i, contains min(i, fsai_npt - 1) other points with smaller indices, and a point that is passed over although it is nearer than a listed one is at least 0.999 box widths away. With these lists the AFN preconditioner is built and is symmetric positive definite. For larger fsai_npt the candidate array overflows.", "quantifier": "all point sets, selections and orders of points, neighbour numbers and thread schedules", "why_tests_cant": "tests observe the quality of the preconditioner on a few point clouds, not the memory bounds, the completeness of the candidates or the independence of the schedule", "anchors": ["src/AFN_precond.c: FSAI_approx_KNN_with_H2P, is_neighbor_segments, AFN_precond_build"]}
{"id": "C74", "title": "Proxy points of one box", "statement": "For every dimension, kernel, box widths, tolerance, algorithm choice, random sequence and thread order (scalar kernel or one thread): when the generation of proxy points for a box of width L1 returns, all returned points lie in the ring between the cubes of width L2 and L3; before densification they are candidates, and every candidate of the ring is represented: its kernel row with the selected points of the box is a combination of the rows of the returned points up to the tolerance reltol/100 times the largest row; the selected points of the box represent all candidate points of the box in the same way in the sketch with a sparse random matrix of signs. With reltol < 1e-12 every selected point gets a second one in the ring at 0.33 times the distance to its nearest neighbour; if only one point is selected the generation never ends. With two or more threads and a kernel with several components the last row of the kernel matrix is never stored.", "quantifier": "all kernels, dimensions, widths, tolerances, algorithms, random sequences, thread numbers and orders", "why_tests_cant": "the guarantee is about all candidates and all random draws; the number of threads changes which rows are stored; the rejection loops end or not depending on the set that was selected", "anchors": ["src/H2Pack_gen_proxy_point.c: H2P_generate_proxy_point_nlayer", "src/H2Pack_utils.c: H2P_eval_kernel_matrix_OMP, H2P_gen_coord_in_ring, H2P_point_in_box, H2P_gen_rand_sparse_mat_trans, H2P_calc_sparse_mm_trans"]}
{"id": "C75", "title": "Proxy point file", "statement": "For every tree, tolerance and existing proxy point file: the function returns and stays inside its arrays; levels 2 to max_level get a set, the others none; a set of a matching file for the width of the boxes of a level is used, the other levels get a set generated for their box width with the tolerance of the run; the file written afterwards keeps all sets of a matching file at the places of their widths; a second run for the same points and any tolerance not below the one of the file reads everything, generates nothing and leaves the file unchanged. The first line keeps the smaller tolerance of an old file although sets of the larger tolerance are added, so that a later run with the smaller tolerance gets sets that are too inaccurate; widths below 1e-12 are written as 0, and the next run converts an infinity to int.", "quantifier": "all trees, tolerances, parameters and files; all sequences of runs with the same points", "why_tests_cant": "the file is a cache over many runs with different point sets; which set serves which level follows from logarithms and rounding of all widths", "anchors": ["src/H2Pack_gen_proxy_point.c: H2P_generate_proxy_point_ID_file, H2P_write_proxy_point_file"]}
{"id": "C76", "title": "Proxy surface", "statement": "For dimensions 2 and 3, every number of points, width and levels: the levels from min_level to max_level get at least min_npt different points, at most as many as needed with the same number on every axis, all inside the faces of the cube that is 1 + 2 ALPHA_H2 times as wide as a box of the level. The points of a box that is admissible to a box of the level lie on or behind this surface.", "quantifier": "all point numbers, widths, levels; all admissible boxes and points in them", "why_tests_cant": "that no two points coincide and that all admissible boxes lie behind the surface is geometry for all sizes and positions", "anchors": ["src/H2Pack_gen_proxy_point.c: H2P_generate_proxy_point_surface", "src/H2Pack_utils.c: H2P_check_box_admissible"]}
{"id": "C77", "title": "Enclosing box", "statement": "For every point set the enclosing box is a cube around the mean of the points that contains all of them; without a proxy point file it is the smallest such cube (some point lies on its boundary); with a file of the same dimension its width is the width of the smallest box of the file times a power of two, less than twice the smallest width, and the file matches a tree built in this box if tolerance and layers agree.", "quantifier": "all point sets, dimensions and proxy point files", "why_tests_cant": "containment must hold for all points, the match of the file for all widths", "anchors": ["src/H2Pack_gen_proxy_point.c: H2P_calc_enclosing_box"]}
{"id": "C78", "title": "Rank estimation and construction of the AFN preconditioner", "statement": "For every positive semidefinite kernel, point set, parameters and random numbers: if the rank estimation returns, its result is the maximum over the repetitions of (a) the smallest number of farthest points of a scaled random sample whose Nystrom approximation has a relative Frobenius error below 0.1, scaled from the sample to all points, when this exceeds max_k, and otherwise of (b) the number of eigenvalues above mu/10 of the kernel matrix of a random sample, scaled to max_k; it is at most the number of points or at most max_k. With ss_npt <= max_k <= number of different points and fair random numbers AFN_precond_build returns for every schedule a preconditioner whose application is a symmetric positive definite matrix, unless no sample has an eigenvalue above mu/10: then (large shift) it reads before the start of an array; with ss_npt > max_k and a small estimate the eigenvalues overflow their array; with ss_npt larger than the number of points it never ends; with max_k larger than the number of points the number of landmarks can exceed the number of points.", "quantifier": "all positive semidefinite kernels, points, sizes, repetitions, random numbers and thread schedules", "why_tests_cant": "minimality of the rank is over all ranks and all matrices (it needs monotonicity of the Nystrom error); the failures depend on relations between parameters", "anchors": ["src/AFN_precond.c: AFNi_rank_est_scaled, AFNi_Nys_rank_est, AFNi_rank_est, AFN_precond_build"]}
{"id": "C79", "title": "Distribution of a number over the sides of a box", "statement": "For every point set and number: the box size is the extent of the points in every coordinate; the number is distributed over the coordinates by the method of largest remainders in proportion to the box sizes (exact sum, every part its share rounded down or up, the largest fractions rounded up, ties to the lower coordinate), and the returned grid size is the product of the parts plus one; the distribution is unique. If all box sizes are zero (coincident points) the result is undefined (a NaN is converted to int).", "quantifier": "all point sets, dimensions and numbers", "why_tests_cant": "the property is a statement about all real inputs including ties", "anchors": ["src/H2Pack_build_with_sample_point.c: H2P_calc_enclosing_box_size, H2P_proportional_int_decompose"]}
{"id": "C80", "title": "Selection of points by an anchor grid", "statement": "For every non-empty point set and grid size: the anchors are the full tensor grid, equally spaced with a quarter of a spacing at the ends or at the Chebyshev points, inside the box of the points; the selection lists, in increasing order and without repetition, exactly the points that are nearest to some anchor (the first one in a tie); it is not empty, not larger than the grid or the point set, and does not depend on the order in which the threads take the anchors.", "quantifier": "all point sets, dimensions, grid sizes, thread orders", "why_tests_cant": "exactness of a nearest-point set is a statement about all points and all schedules (several threads write the same flags)", "anchors": ["src/H2Pack_build_with_sample_point.c: H2P_select_anchor_grid, H2P_select_cluster_sample", "src/H2Pack_utils.c: H2P_calc_pdist2_OMP"]}
{"id": "C81", "title": "Search for the grid size", "statement": "For every kernel, tolerance up to 1000, random points with an extent and thread order: the search tries r0, r0+1, ... with r0 between 0 and 14, ends after at most (k+1)/2 trials and returns the first size whose selection reproduces the kernel block up to the tolerance, or one more than the first size that does not select at least two more points than the one before; with total divisions it always returns. A tolerance above 1000 or a root box with a side of length zero is undefined.", "quantifier": "all kernels, tolerances, dimensions, random numbers and thread orders", "why_tests_cant": "termination and the stopping rule depend on the whole sequence of trials", "anchors": ["src/H2Pack_build_with_sample_point.c: H2P_select_sample_point_r"]}
{"id": "C82", "title": "Sample points of the nodes", "statement": "For every cluster tree, pair list, grid size and thread order: the selection ends, its result does not depend on the thread orders and is this: refined points of a cluster are chosen from its points (leaf) or from the refined points of its children; sample points of a node are chosen from those of its parent and the refined points of its partners; every sample point is a point of the cluster of a partner of the node or of an ancestor; no node has more than (r+1)^dim of them; a node at min_adm_level or below has none exactly if it has no partner and is at min_adm_level or its parent has no partner. With distinct points, all points of the partners taken and partners whose refined points differ, it is defined; coincident refined points of the partners, a single partner with a single point, or a node at min_adm_level all of whose partners are leaves above it make it undefined - all of which the library's own partitioning produces.", "quantifier": "all trees, pair lists, points, sizes, and orders of the threads in three parallel loops per level", "why_tests_cant": "the property quantifies over all trees and schedules; children are written by other iterations than read", "anchors": ["src/H2Pack_build_with_sample_point.c: H2P_select_sample_point"]}
{"id": "C83", "title": "Construction from sample points", "statement": "For every tree, kernel, sample points, stopping criterion, number of threads and schedule of the task queue: the construction ends, its outcome does not depend on the schedule, the slots are skeletons (chosen from the candidates in order, unit rows, right shapes); in exact arithmetic every candidate is reproduced on all sample points up to 1e-4 times the tolerance, in particular at every point of the problem that is a sample point; together with pair search and metadata the result is a valid representation covering every entry once. A node without sample points gets rank 0, and an inner node that together with its children has no partner gets no basis although it inherits a far field from its ancestors - the library's own partitioning of the points 0.2, 0.7, 6.1, 7.3 is an example.", "quantifier": "all trees, kernels, sample points, stopping criteria, thread numbers and schedules", "why_tests_cant": "schedules and inputs are unbounded; the failure depends on the shape of the tree and the pair list", "anchors": ["src/H2Pack_build_with_sample_point.c: H2P_build_H2_UJ_sample, H2P_build_with_sample_point"]}
{"id": "C84", "title": "Built-in scalar kernels", "statement": "For all points in 2 and 3 dimensions, all numbers of points, leading dimensions and vector lengths (also when the number of columns is not a multiple of the vector length): the evaluation routine of Coulomb, Laplace, Gaussian, exponential, Matern 3/2, Matern 5/2 and quadratic kernel writes exactly the matrix of kernel values and nothing else; the result does not depend on the vector length; the kernels are symmetric and translation invariant (what the H2 construction with one set of proxy points per level needs); the decimals used for square roots are off by less than 1e-15.", "quantifier": "all points, sizes, leading dimensions, kernel parameters and vector lengths", "why_tests_cant": "the vector loop and the tail loop are different code; agreement must hold for all sizes and values", "anchors": ["src/H2Pack_3D_kernels.h: Coulomb_3D_eval_intrin_t, Gaussian_3D_eval_intrin_t, Expon_3D_eval_intrin_t, Matern32_3D_eval_intrin_t, Matern52_3D_eval_intrin_t, Quadratic_3D_eval_intrin_t", "src/H2Pack_2D_kernels.h: Laplace_2D_eval_intrin_t"]}
{"id": "C85", "title": "Built-in scalar bi-matvecs", "statement": "Every built-in scalar krnl_bimv meets the contract of kernel_bimv_fptr for the same kernel as its evaluation routine, for every even vector length; through the padding wrapper it adds exactly the two products with the kernel matrix for every number of points and any previous buffer contents. With vectors of one lane (an odd number of rows) it does not meet the contract.", "quantifier": "all points, numbers of points, inputs, buffer contents, even vector lengths", "why_tests_cant": "two rows are handled at a time, and padding, loop bounds and reduction must fit for all sizes", "anchors": ["src/H2Pack_3D_kernels.h: Coulomb_3D_krnl_bimv_intrin_t", "src/H2Pack_2D_kernels.h", "src/H2Pack_matvec.c: H2P_ext_krnl_bimv"]}
{"id": "C86", "title": "Built-in tensor kernels", "statement": "For all points: the evaluation routines of the Stokes and (for radii that are not negative) the Rotne-Prager-Yamakawa kernel write exactly the 3-by-3 blocks of the formulas; the bi-matvec routines and the RPY matvec meet their contracts for the same kernel in double precision for every vector length. In a single precision build the loops still advance by the number of doubles in a vector: source points are counted twice and the contracts do not hold.", "quantifier": "all points, radii, numbers of points, inputs, vector lengths", "why_tests_cant": "branches on overlapping, contained and coinciding spheres and the vector layout must fit for all inputs; the failure appears only in one build configuration", "anchors": ["src/H2Pack_3D_kernels.h: Stokes_eval_std, Stokes_krnl_bimv_intrin_t, RPY_eval_std, RPY_krnl_bimv_intrin_t, RPY_krnl_mv_intrin_t"]}
{"id": "C87", "title": "Symmetry and continuity of the tensor kernels", "statement": "Stokes and RPY matrices are symmetric and do not change when all points are moved by a vector; the three cases of the RPY tensor agree where they meet: for positive radii both coefficients are continuous functions of the distance.", "quantifier": "all points, radii and translations", "why_tests_cant": "statements about all real inputs including the boundaries of the cases", "anchors": ["src/H2Pack_3D_kernels.h: Stokes_eval_std, RPY_eval_std"]}
{"id": "C88", "title": "Construction and product with a built-in kernel", "statement": "For every built-in kernel, tree, thread number and schedule: the H2 matrix built with this kernel covers every entry once, and the just-in-time product with the kernel's own vectorised routine is the product with stored blocks, for every input vector, schedule and buffer contents.", "quantifier": "all built-in kernels and parameters, trees, schedules, vectors", "why_tests_cant": "combines the scheduling, the construction and the vectorised routines for all inputs", "anchors": ["src/H2Pack_build.c: H2P_build", "src/H2Pack_matvec.c: H2P_matvec", "src/H2Pack_3D_kernels.h", "src/H2Pack_2D_kernels.h"]}
{"id": "C89", "title": "Ewald kernel", "statement": "Filling the work buffer and evaluating the periodic Rotne-Prager-Yamakawa kernel gives, for every number of images, the Ewald sum over all images and all nonzero wave vectors although only half of the wave vectors are stored, and changes no other memory; the matrix is symmetric and the overlap correction vanishes for spheres that do not touch. This needs as many wave vectors as images and spheres at most two cells apart: with fewer wave vectors the table holds vectors outside the sum and misses the shortest, with more it holds the zero vector and entries never written, and further apart the wrapped difference is not the nearest image.", "quantifier": "all cells, splitting parameters, truncations, spheres, buffer contents", "why_tests_cant": "which half of the lattice is stored depends on the loop order and the truncation for every size; tests compare with one truncation", "anchors": ["src/H2Pack_3D_kernels.h: RPY_Ewald_init_workbuf, RPY_Ewald_eval_std"]}
{"id": "C90", "title": "A second construction on the same handle", "statement": "The task queue of the construction is reset only by partitioning. A second construction on a handle without a new partitioning delivers no node to any thread in any schedule; it returns normally and leaves empty bases. Every later product with stored blocks is then the product with the near field alone: entries of points in admissible pairs count as zero; in just-in-time mode the product divides by zero.", "quantifier": "all trees, kernels, numbers of threads and schedules of both constructions, input vectors", "why_tests_cant": "a history of calls with arbitrary schedules; no call reports an error", "anchors": ["src/H2Pack_build.c: H2P_build_H2_UJ_proxy", "src/DAG_task_queue.c: DAG_task_queue_get_task, DAG_task_queue_reset", "src/H2Pack_matvec.c: H2P_matvec"]}
{"id": "C91", "title": "Ownership of the memory of a handle", "statement": "For every history of public calls on a handle (made by initialisation, read from a file, or returned by the SPD approximation), destroying the handle frees every block exactly once, without touching freed memory, if and only if no resource of the handle (root box, lattice table, partitioning, HSS pairs, matrix, factorization) has been created twice; otherwise memory stays allocated. Every history in the documented order is executed without reading a missing array. A product with zero vectors before partitioning is the one other way to lose memory.", "quantifier": "all histories of calls of any length, tree sizes, numbers of threads, dimensions, modes, early ends of factorizations", "why_tests_cant": "it ranges over all orders and repetitions of calls; a test sees one history, and a leak is not an error", "anchors": ["src/H2Pack_typedef.c: H2P_init, H2P_destroy, H2P_run_HSS, H2P_run_RPY, H2P_run_RPY_Ewald", "src/H2Pack_partition.c: H2P_partition_points, H2P_HSS_calc_adm_inadm_pairs", "src/H2Pack_build.c: H2P_build", "src/H2Pack_matmul.c: H2P_matmul", "src/H2Pack_HSS_ULV.c: H2P_HSS_ULV_LU_factorize", "src/H2Pack_file_IO.c: H2P_read_from_file", "src/H2Pack_SPDHSS_H2.c: H2P_SPDHSS_H2_build"]}
{"id": "C92", "title": "Modes of a handle", "statement": "After any history of mode calls: the HSS, RPY and Ewald flags depend only on which calls were made and not on their order, and Ewald mode is never active together with another mode. The coordinate array has an extra row if and only if the RPY kernel was chosen or the first mode call was the Ewald one, so two histories with the same flags can expect coordinate arrays of different sizes. In Ewald mode in two or three dimensions the lattice table has every vector with entries -1, 0, 1 exactly once, mirrored about the zero vector; in other dimensions it is empty. A box has at most 2^d children and 3^d neighbours.", "quantifier": "all histories of mode calls, all dimensions", "why_tests_cant": "all orders and repetitions of calls", "anchors": ["src/H2Pack_typedef.c: H2P_init, H2P_run_HSS, H2P_run_RPY, H2P_run_RPY_Ewald"]}
{"id": "C93", "title": "Block Jacobi preconditioner", "statement": "Built from a handle whose points were partitioned, for every kernel, shift and order of the parallel loops: applying the preconditioner solves exactly the system in which K + shift I keeps only the diagonal blocks of the leaves, in the original order of the points; the result does not depend on schedules or old buffer contents. The leaves in ascending order are consecutive ranges covering all points, so the blocks are where the vector has them. The construction fails if and only if the shifted diagonal block of some leaf has no inverse; it succeeds if K + shift I is positive definite, and then conjugate gradients with it solve every positive definite system to the tolerance in at most as many iterations as there are unknowns.", "quantifier": "all point sets, tree parameters, kernels of any tensor size, shifts, schedules, vectors, buffer contents", "why_tests_cant": "positions of blocks are accumulated over leaves and are right only because of the order in which the tree numbers them; this must hold for every tree", "anchors": ["examples/SPDHSS-H2/block_jacobi_precond.c: H2P_build_block_jacobi_precond, block_jacobi_precond_apply", "src/H2Pack_partition.c: H2P_partition_points"]}
{"id": "C94", "title": "Randomized Nystroem preconditioner", "statement": "For every symmetric scalar kernel, point set of n points, every number 1 <= k <= n of landmarks and every sequence of random numbers for which the sampling ends, Nys_precond_build chooses k different points, reorders the points (the sample first in the order drawn, all others ascending), and if the shifted kernel matrix of the landmarks is positive definite it builds a preconditioner. Nys_precond_apply then computes, for every input and whatever the output held before, the product with the stated function of the Nystroem approximation (the reciprocal of the shifted eigenvalue relative to the smallest kept one on its range and the identity on its complement); for mu > 0 this matrix is symmetric positive definite with no eigenvalue above one. With more landmarks than points the call never returns; with no landmarks it reads before the array of eigenvalues.", "quantifier": "all kernels, points, numbers of landmarks, sequences of random numbers, shifts, inputs and previous outputs", "why_tests_cant": "Tests use one random seed and one kernel; that any sample gives a permutation and a positive definite operator is a statement over all of them.", "anchors": ["examples/AFN_precond/Nys_precond.c: Nys_precond_build, Nys_precond_apply", "src/AFN_precond.c: Nys_precond_build_, Nys_precond_apply_", "src/H2Pack_utils.c: H2P_rand_sample"]}
{"id": "C95", "title": "Low rank plus diagonal preconditioner", "statement": "For every symmetric kernel, every partitioned point set, every positive shift, every rank and every sequence of random numbers for which the sampling ends, H2P_build_LRD_precond uses rank different points. If the kernel matrix of these points has a positive eigenvalue and the handle runs one thread or the kernel is scalar, the preconditioner is built, and LRD_precond_apply solves, for every right-hand side and whatever the buffers and the output held before, the linear system with C^T Q C + shift I in the original order of the points, where C holds the rows of the kernel matrix of the sample and Q is the inverse of the kernel matrix of the sample on the eigenvalues not below 1e-10 times its greatest eigenvalue and zero on the others; Q is positive semidefinite, so the matrix is positive definite, and conjugate gradients with the preconditioner solve every positive definite system to the tolerance in at most as many iterations as there are unknowns. A rank greater than the number of points never returns. With several threads and a kernel with several components the last rows of both kernel matrices are never stored, so that the preconditioner depends on what the memory contained before.", "quantifier": "all symmetric kernels (any block dimension), point sets, partition trees, ranks, shifts, sequences of random numbers, right-hand sides and buffer contents", "why_tests_cant": "Tests apply one preconditioner to one vector; that the result is the exact inverse of a low rank matrix plus a diagonal for any sample, tree and history cannot be enumerated.", "anchors": ["examples/SPDHSS-H2/LRD_precond.c: H2P_build_LRD_precond, LRD_precond_apply", "src/H2Pack_utils.c: H2P_rand_sample, H2P_eval_kernel_matrix_OMP", "src/H2Pack_partition.c: H2P_partition_points"]}
{"id": "C96", "title": "Parallel sparse matrix vector product", "statement": "For every matrix in coordinate format with at least one entry and row indices in range, every number of blocks between one and the number of entries, every order in which the threads work, every order in which their writes reach the memory and every previous contents of the arrays, CSRP_init_with_COO_mat, CSRP_partition_multithread, CSRP_optimize_NUMA and CSRP_SpMV terminate without undefined behaviour and the output is exactly the product of the matrix (entries at the same position added) and the input vector, including rows without entries and rows shared by several blocks; nothing behind the output is changed.", "quantifier": "all matrices, block numbers, vectors, thread schedules and previous contents", "why_tests_cant": "The result depends on where the block boundaries fall relative to the rows and on the order of the writes of the threads; tests see one matrix, one number of threads and one schedule.", "anchors": ["examples/SPDHSS-H2/CSRPlus.c: CSRP_init_with_COO_mat, CSRP_partition_multithread, CSRP_optimize_NUMA, CSRP_SpMV, CSRP_SpMV_block"]}
{"id": "C97", "title": "Limits of the parallel sparse matrix vector product", "statement": "CSRP_partition_multithread reads before the array of row pointers for every matrix without entries. For every matrix with a nonempty last row and every number of blocks greater than the number of entries, whatever partition was computed, CSRP_SpMV reads behind the row pointers (and the code then writes behind the output) for every input.", "quantifier": "all matrices without entries, all matrices with fewer entries than blocks, all inputs and previous contents", "why_tests_cant": "That a call has undefined behaviour for every input of a class cannot be observed by running it.", "anchors": ["examples/SPDHSS-H2/CSRPlus.c: CSRP_partition_multithread, CSRP_SpMV_block"]}
{"id": "C98", "title": "Nearest neighbours with the partition tree", "statement": "For a partitioned set of points in the plane, whenever the points near every leaf (those in leaves whose box is inadmissible to its box) fit into the buffers sized by the maximum of points per leaf and neighbours per node, the search inside the FSAI construction ends, and for each point returns k distinct points near its leaf such that no other near point is closer, or, when there are at most k near points, all of them followed by copies of the point itself. A leaf that does not fit makes it write behind its buffers. In space the search uses twice the squared difference of the second coordinates and ignores the third one, so it can return a point that is not a nearest one.", "quantifier": "all point sets in two or three dimensions, all partitionings, all numbers of neighbours, buffer sizes and ties", "why_tests_cant": "Depends on the order of the sort under ties and on the tree of every point set; a test compares a few sets.", "anchors": ["examples/SPDHSS-H2/FSAI_precond.c: H2P_search_knn, calc_2D_dist2, calc_3D_dist2, qsort_DTYPE_int_pair"]}
{"id": "C99", "title": "The block FSAI preconditioner of SPDHSS-H2 is the factorized inverse on the neighbour pattern", "statement": "For every set of points whose kernel matrix plus shift times the identity is positive definite, every kernel dimension and every neighbour table whose rows contain fewer than n_neighbor different smaller points, building the preconditioner succeeds, and there is a matrix G with no entries outside the diagonal blocks and the pattern of smaller neighbours, such that G S vanishes on the off-diagonal part of the pattern, the diagonal blocks of G S G' are the identity, and applying the preconditioner to b computes P' G' G P b for the permutations of the handle, for every number of threads and every order of their work; this map is symmetric positive definite, so that conjugate gradients can use it, and it is the inverse of S if the pattern contains all smaller points; conjugate gradients with it solve every positive definite system to the tolerance in at most as many iterations as there are unknowns, and in one iteration if the pattern is full and the system is S in the order of the user. The neighbour search provides such a table whenever no two points coincide in their first two coordinates and the leaves fit into the buffers.", "quantifier": "all points, kernels of any dimension, shifts, neighbour tables, numbers of threads up to the number of rows, schedules, right-hand sides and previous contents of the memory", "why_tests_cant": "Depends on every pattern, on the block offsets and on the schedule; a test solves a few systems and sees only the number of iterations.", "anchors": ["examples/SPDHSS-H2/FSAI_precond.c: H2P_build_FSAI_precond, FSAI_precond_apply", "examples/SPDHSS-H2/CSRPlus.c"]}
{"id": "C100", "title": "The direct product used as reference", "statement": "The reference function of the examples and tests computes, for every kernel of any dimension, any numbers of source and target points and any previous content of the output, exactly the product of the kernel matrix with the values, whatever the number of threads and the order of their steps, provided the team has the number of threads the runtime announced; its blocks fit into the buffers and stay inside the point sets. If the runtime delivers a smaller team, the target points of the missing threads get the value zero.", "quantifier": "all kernels, point sets, numbers of threads, interleavings of the steps of the threads and previous contents of the output", "why_tests_cant": "Tests use it as the truth and cannot judge it; remainders of the block sizes, schedules and team sizes cannot be enumerated.", "anchors": ["examples/direct_nbody.h: direct_nbody", "extra/direct_nbody.h: direct_nbody", "src/utils.c: calc_block_spos_len"]}
