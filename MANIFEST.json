{
 "claims": [
  {
   "property": "C01",
   "status": "proved",
   "theorems": [
    "H2Pack.C01_blocks_contiguous",
    "H2Pack.C01_blocks_tile",
    "H2Pack.C01_blocks_balanced",
    "H2Pack.C01_out_of_range",
    "H2Pack.C01_guard_off_by_one"
   ],
   "note": "iblk = nblk is not rejected by the guard (off by one); shown by C01_guard_off_by_one"
  },
  {
   "property": "C02",
   "status": "proved",
   "theorems": [
    "H2Pack.IntVec.C02_history",
    "H2Pack.IntVec.C02_zero_capacity_ub"
   ],
   "note": ""
  },
  {
   "property": "C03",
   "status": "proved",
   "theorems": [
    "H2Pack.Utils.C03_partition_workload",
    "H2Pack.Utils.C03_wrong_total_is_ub",
    "H2Pack.Utils.C03_trailing_zero_dropped"
   ],
   "note": ""
  },
  {
   "property": "C04",
   "status": "proved",
   "theorems": [
    "H2Pack.CSR.C04_coo_to_csr",
    "H2Pack.CSR.C04_empty_is_ub",
    "H2Pack.CSR.C04_bad_row_is_ub"
   ],
   "note": ""
  },
  {
   "property": "C05",
   "status": "proved",
   "theorems": [
    "H2Pack.CSR.C05_get_found",
    "H2Pack.CSR.C05_get_missing",
    "H2Pack.CSR.C05_set",
    "H2Pack.CSR.C05_lookup_of_coo"
   ],
   "note": ""
  },
  {
   "property": "C06",
   "status": "proved",
   "theorems": [
    "H2Pack.Part.C06_permutation",
    "H2Pack.Part.C06_no_ub",
    "H2Pack.Part.partition_returns",
    "H2Pack.Part.example_partition"
   ],
   "note": ""
  },
  {
   "property": "C07",
   "status": "proved",
   "theorems": [
    "H2Pack.Part.C07_clusters",
    "H2Pack.Part.example_partition"
   ],
   "note": ""
  },
  {
   "property": "C08",
   "status": "proved",
   "theorems": [
    "H2Pack.Part.C08_leaf_limits",
    "H2Pack.Part.example_partition"
   ],
   "note": ""
  },
  {
   "property": "C09",
   "status": "proved",
   "theorems": [
    "H2Pack.Part.C09_terminates",
    "H2Pack.Part.C09_endless"
   ],
   "note": "exact arithmetic over an Archimedean ordered field"
  },
  {
   "property": "C10",
   "status": "proved",
   "theorems": [
    "H2Pack.Part.C10_tree_arrays",
    "H2Pack.Part.C10_parent_unique",
    "H2Pack.Part.C10_level_is_depth",
    "H2Pack.Part.example_partition"
   ],
   "note": ""
  },
  {
   "property": "C100",
   "status": "proved",
   "theorems": [
    "H2Pack.NBody.C100_direct_nbody",
    "H2Pack.NBody.C100_bounds",
    "H2Pack.NBody.C100_small_team"
   ],
   "note": "exact arithmetic over any commutative ring, unbounded integers"
  },
  {
   "property": "C11",
   "status": "proved",
   "theorems": [
    "H2Pack.Part.C11_exact_cover",
    "H2Pack.Part.C11_h2_pairs"
   ],
   "note": ""
  },
  {
   "property": "C12",
   "status": "proved",
   "theorems": [
    "H2Pack.Part.C12_exact_cover",
    "H2Pack.Part.C12_hss_siblings",
    "H2Pack.Part.C12_hss_pairs_exact",
    "H2Pack.Part.C12_single_child_aborts",
    "H2Pack.Part.line_partition",
    "H2Pack.Part.wide_partition"
   ],
   "note": "the assertion HSS_min_adm_level == 1 fails when the root has a single child (C12_single_child_aborts)"
  },
  {
   "property": "C13",
   "status": "proved",
   "theorems": [
    "H2Pack.Part.C13_recorded",
    "H2Pack.Part.C11_h2_pairs"
   ],
   "note": ""
  },
  {
   "property": "C14",
   "status": "proved",
   "theorems": [
    "H2Pack.Part.C14_periodic_cover"
   ],
   "note": ""
  },
  {
   "property": "C15",
   "status": "proved",
   "theorems": [
    "H2Pack.DAG.C15_at_most_once",
    "H2Pack.DAG.C15_finished_once"
   ],
   "note": ""
  },
  {
   "property": "C16",
   "status": "proved",
   "theorems": [
    "H2Pack.DAG.C16_dependencies"
   ],
   "note": ""
  },
  {
   "property": "C17",
   "status": "proved",
   "theorems": [
    "H2Pack.DAG.C17_no_deadlock",
    "H2Pack.DAG.C17_bounded_work",
    "H2Pack.DAG.C17_fair_termination",
    "H2Pack.DAG.upward_executable",
    "H2Pack.DAG.upward_periodic_executable",
    "H2Pack.DAG.C17_skipped_dependency_deadlocks"
   ],
   "note": "the requirements on the graph are established for the DAGs of the code; min_adm_level = 0 in the non-periodic case is undefined behaviour (upward_ub_level_zero)"
  },
  {
   "property": "C18",
   "status": "proved",
   "theorems": [
    "H2Pack.DAG.C18_reset",
    "H2Pack.DAG.C18_reuse"
   ],
   "note": ""
  },
  {
   "property": "C19",
   "status": "proved",
   "theorems": [
    "H2Pack.DAG.C19_results",
    "H2Pack.DAG.C19_schedule_independent",
    "H2Pack.DAG.C19_upward_equals_sequential"
   ],
   "note": ""
  },
  {
   "property": "C20",
   "status": "proved",
   "theorems": [
    "H2Pack.MV.C20_matvec",
    "H2Pack.MV.basis_nested",
    "H2Pack.MV.entry_unique",
    "H2Pack.MV.cuts_of_workload",
    "H2Pack.MV.demo_case",
    "H2Pack.MV.demo_valid"
   ],
   "note": "stored (AOT) generators; every node with a basis has rank >= 1 (see C22_rank_zero_stale); the team of the clearing region has n_thread threads"
  },
  {
   "property": "C21",
   "status": "proved",
   "theorems": [
    "H2Pack.MV.C21_linear",
    "H2Pack.MV.C21_symmetric"
   ],
   "note": ""
  },
  {
   "property": "C22",
   "status": "proved",
   "theorems": [
    "H2Pack.MV.C22_history_independent",
    "H2Pack.MV.C22_rank_zero_stale"
   ],
   "note": "for ranks >= 1; with rank 0 the result depends on stale buffers (C22_rank_zero_stale)"
  },
  {
   "property": "C23",
   "status": "proved",
   "theorems": [
    "H2Pack.MV.C23_jit_eq_aot",
    "H2Pack.MV.C23_jit_product",
    "H2Pack.MV.C23_eval_bimv",
    "H2Pack.MV.C23_endless_row_block",
    "H2Pack.MV.jit_ok",
    "H2Pack.MV.demo_jit"
   ],
   "note": "the kernel routines are parameters with the documented contract; without krnl_bimv the blocks must satisfy ncol*krnl_dim <= 16384, otherwise the loop is endless (C23_endless_row_block)"
  },
  {
   "property": "C24",
   "status": "proved",
   "theorems": [
    "H2Pack.MV.C24_ext_bimv",
    "H2Pack.MV.C24_ext_mv",
    "H2Pack.MV.C24_workbuf_size",
    "H2Pack.MV.C24_extend",
    "H2Pack.MV.goodBimv_spec"
   ],
   "note": "exact arithmetic: kernel values at padding points are finite numbers"
  },
  {
   "property": "C25",
   "status": "proved",
   "theorems": [
    "H2Pack.MV.C25_matmul",
    "H2Pack.MV.C25_eq_matvec"
   ],
   "note": "exact arithmetic, unbounded integers, iterations of a parallel loop executed one after the other in any order; input and output do not overlap"
  },
  {
   "property": "C26",
   "status": "proved",
   "theorems": [
    "H2Pack.MV.C26_permutations"
   ],
   "note": ""
  },
  {
   "property": "C27",
   "status": "proved",
   "theorems": [
    "H2Pack.MV.C27_B_metadata",
    "H2Pack.MV.C27_D_metadata",
    "H2Pack.MV.C27_get_Bij",
    "H2Pack.MV.C27_get_Dij",
    "H2Pack.MV.C27_no_pair_is_ub",
    "H2Pack.MV.demo_build"
   ],
   "note": "with at least one admissible pair; without one, the CSR conversion reads an empty array (C27_no_pair_is_ub)"
  },
  {
   "property": "C28",
   "status": "proved",
   "theorems": [
    "H2Pack.ID.C28_selection",
    "H2Pack.ID.C28_returns",
    "H2Pack.ID.C28_best",
    "H2Pack.ID.C28_independent",
    "H2Pack.ID.C28_exact"
   ],
   "note": "selection and identity rows: every arithmetic; exactness, optimality and independence: exact real arithmetic; U_ != NULL, at least one row"
  },
  {
   "property": "C29",
   "status": "proved",
   "theorems": [
    "H2Pack.ID.C29_rank",
    "H2Pack.ID.C29_ends"
   ],
   "note": "every arithmetic"
  },
  {
   "property": "C30",
   "status": "proved",
   "theorems": [
    "H2Pack.IO.C30_store_load",
    "H2Pack.IO.C30_matvec_aot",
    "H2Pack.IO.C30_matvec_jit",
    "H2Pack.IO.C30_box_overrun",
    "H2Pack.IO.C30_box_overrun_h2",
    "H2Pack.IO.C30_box_overrun_hss"
   ],
   "note": "whole pipeline store -> txt -> json -> txt -> read, for every built matrix; the loaded matrix has the same data and the same products (AOT and JIT); the defect of section 13 (out-of-bounds reads of the box array) is a theorem"
  },
  {
   "property": "C31",
   "status": "proved",
   "theorems": [
    "H2Pack.IO.C31_coordinates",
    "H2Pack.IO.C31_conversion_iff",
    "H2Pack.IO.C31_hex"
   ],
   "note": "bit-exact round trip when all patterns are at least 2^60, failure of the conversion otherwise (finding: 0.0 cannot be stored)"
  },
  {
   "property": "C32",
   "status": "proved",
   "theorems": [
    "H2Pack.ULV.C32_lu_factorize_returns",
    "H2Pack.ULV.C32_lu_solve",
    "H2Pack.ULV.C32_lu_two_steps",
    "H2Pack.ULV.C32_other_op"
   ],
   "note": "exact arithmetic in a field; LAPACK routines are parameters with their documented behaviour (Lapack.Correct)"
  },
  {
   "property": "C33",
   "status": "proved",
   "theorems": [
    "H2Pack.ULV.C33_chol_factorize_returns",
    "H2Pack.ULV.C33_chol_solve",
    "H2Pack.ULV.C33_chol_two_steps"
   ],
   "note": "symmetric diagonal blocks; LAPACK routines are parameters"
  },
  {
   "property": "C34",
   "status": "proved",
   "theorems": [
    "H2Pack.ULV.C34_lu_logdet",
    "H2Pack.ULV.C34_chol_logdet"
   ],
   "note": "over the reals"
  },
  {
   "property": "C35",
   "status": "proved",
   "theorems": [
    "H2Pack.Dense.C35_select_rows",
    "H2Pack.Dense.C35_select_columns",
    "H2Pack.Dense.C35_needs_increasing"
   ],
   "note": ""
  },
  {
   "property": "C36",
   "status": "proved",
   "theorems": [
    "H2Pack.Dense.C36_permute_rows"
   ],
   "note": ""
  },
  {
   "property": "C37",
   "status": "proved",
   "theorems": [
    "H2Pack.Dense.C37_blkdiag",
    "H2Pack.Dense.C37_vertcat",
    "H2Pack.Dense.C37_horzcat",
    "H2Pack.Dense.C37_mismatch",
    "H2Pack.Dense.C37_copy"
   ],
   "note": ""
  },
  {
   "property": "C38",
   "status": "proved",
   "theorems": [
    "H2Pack.Utils.C38_rand_sample",
    "H2Pack.Utils.C38_too_many_diverges",
    "H2Pack.Utils.C38_terminates",
    "H2Pack.Utils.C38_empty_range_ub"
   ],
   "note": ""
  },
  {
   "property": "C39",
   "status": "proved",
   "theorems": [
    "H2Pack.Utils.C39_admissible_iff_gap",
    "H2Pack.Utils.C39_symmetric",
    "H2Pack.Utils.C39_monotone",
    "H2Pack.Utils.C39_points_separated"
   ],
   "note": ""
  },
  {
   "property": "C40",
   "status": "proved",
   "theorems": [
    "H2Pack.Part.C40_in_box",
    "H2Pack.Part.rootBox_holds",
    "H2Pack.Part.example_partition"
   ],
   "note": ""
  },
  {
   "property": "C41",
   "status": "proved",
   "theorems": [
    "H2Pack.DAG.C41_in_bounds"
   ],
   "note": ""
  },
  {
   "property": "C42",
   "status": "proved",
   "theorems": [
    "H2Pack.IntVec.C42_gather",
    "H2Pack.IntVec.C42_gather_in_place",
    "H2Pack.IntVec.C42_in_place_needs_increasing"
   ],
   "note": ""
  },
  {
   "property": "C43",
   "status": "proved",
   "theorems": [
    "H2Pack.Utils.C43_transpose"
   ],
   "note": ""
  },
  {
   "property": "C44",
   "status": "proved",
   "theorems": [
    "H2Pack.Part.C44_upward_graph",
    "H2Pack.Part.C44_single_leaf_ub",
    "H2Pack.Part.C44_few_points_ub"
   ],
   "note": ""
  },
  {
   "property": "C45",
   "status": "proved",
   "theorems": [
    "H2Pack.MV.C45_h2_build",
    "H2Pack.Part.C45_hss_marks",
    "H2Pack.MV.demo_build",
    "H2Pack.MV.line_build"
   ],
   "note": "the skeleton counts and basis sizes are hypotheses: they are what the compression supplies"
  },
  {
   "property": "C46",
   "status": "proved",
   "theorems": [
    "H2Pack.MV.C46_near_entry",
    "H2Pack.MV.C46_far_entry",
    "H2Pack.MV.C46_near_matvec",
    "H2Pack.MV.demo_build"
   ],
   "note": ""
  },
  {
   "property": "C47",
   "status": "proved",
   "theorems": [
    "H2Pack.ID.C47_relative",
    "H2Pack.ID.C47_absolute",
    "H2Pack.ID.C47_absolute_returns",
    "H2Pack.ID.C47_relative_returns",
    "H2Pack.ID.C47_zero_matrix_fails",
    "H2Pack.ID.C47_dependent_group_fails"
   ],
   "note": "exact real arithmetic; kdim divides both sizes"
  },
  {
   "property": "C48",
   "status": "proved",
   "theorems": [
    "H2Pack.ULV.C48_chol_iff_posDef",
    "H2Pack.ULV.C48_lu_posDef",
    "H2Pack.ULV.C48_lu_rejects_nonsingular",
    "H2Pack.ULV.C48_lu_solve_after_failure",
    "H2Pack.ULV.C48_chol_solve_after_failure"
   ],
   "note": "over the reals; POTRF is a parameter that succeeds exactly on positive definite matrices (Lapack.Definite); lapack_exists shows the assumptions about LAPACK can be met"
  },
  {
   "property": "C49",
   "status": "proved",
   "theorems": [
    "H2Pack.Part.C12_hss_pairs_exact",
    "H2Pack.ULV.C49_hss_build",
    "H2Pack.ULV.C49_symmetric_blocks",
    "H2Pack.ULV.C49_lu_solve_then_matvec",
    "H2Pack.ULV.C49_chol_solve_then_matvec"
   ],
   "note": "exact arithmetic; LAPACK routines are parameters; basis sizes (at least one skeleton point, at most as many columns as rows) are hypotheses"
  },
  {
   "property": "C50",
   "status": "proved",
   "theorems": [
    "H2Pack.UJ.C50_h2_skeletons",
    "H2Pack.UJ.C50_h2_determined",
    "H2Pack.UJ.C50_h2_returns",
    "H2Pack.UJ.C50_h2_ends",
    "H2Pack.UJ.C50_hss_skeletons",
    "H2Pack.UJ.C50_hss_determined",
    "H2Pack.UJ.C50_relative",
    "H2Pack.UJ.C50_absolute",
    "H2Pack.UJ.C50_nonempty",
    "H2Pack.UJ.C50_scalar",
    "H2Pack.UJ.C50_h2_build",
    "H2Pack.UJ.C50_hss_build"
   ],
   "note": "accuracy and termination in exact real arithmetic; proxy points are an input; in HSS mode the matrices to be compressed are arbitrary (the code reads neighbour skeletons that other threads may be writing)"
  },
  {
   "property": "C51",
   "status": "proved",
   "theorems": [
    "H2Pack.UJ.C51_skeleton_exact"
   ],
   "note": ""
  },
  {
   "property": "C52",
   "status": "proved",
   "theorems": [
    "H2Pack.UJ.C52_entry_error",
    "H2Pack.UJ.C52_matvec_error",
    "H2Pack.UJ.C52_exact"
   ],
   "note": "exact arithmetic in a linearly ordered field; the accuracy at far points is the hypothesis (it depends on the kernel and the proxy points)"
  },
  {
   "property": "C53",
   "status": "proved",
   "theorems": [
    "H2Pack.MV.Per.C53_periodic_matvec"
   ],
   "note": "arbitrary commutative ring; at least one admissible entry (otherwise the metadata functions are undefined, C27_no_pair_is_ub)"
  },
  {
   "property": "C54",
   "status": "proved",
   "theorems": [
    "H2Pack.Per.C54_lattice",
    "H2Pack.Per.C54_root_not_admissible",
    "H2Pack.Per.C54_periodic_build",
    "H2Pack.Per.C54_ends",
    "H2Pack.Per.C54_determined",
    "H2Pack.Per.C54_relative",
    "H2Pack.Per.C54_absolute",
    "H2Pack.Per.C54_scalar"
   ],
   "note": "accuracy in exact real arithmetic; proxy points are an input"
  },
  {
   "property": "C55",
   "status": "proved",
   "theorems": [
    "H2Pack.Per.C55_entry_error",
    "H2Pack.Per.C55_matvec_error",
    "H2Pack.Per.C55_exact"
   ],
   "note": "exact arithmetic in a linearly ordered field; the accuracy at far points and of the root block is the hypothesis"
  },
  {
   "property": "C56",
   "status": "proved",
   "theorems": [
    "H2Pack.MV.Per.C56_periodic_matmul",
    "H2Pack.MV.Per.C56_eq_matvec"
   ],
   "note": "arbitrary commutative ring; at least one admissible entry, as for C53"
  },
  {
   "property": "C57",
   "status": "proved",
   "theorems": [
    "H2Pack.SPD.C57_spdhss_build",
    "H2Pack.SPD.C57_then_cholesky"
   ],
   "note": "exact real arithmetic; POTRF, SYEVD, GEQPF and ORGQR are assumed to do what they document (satisfiable: lapack_exists, lapack2_exists); H2 bases of nodes at or below min_adm_level are not empty; n_node^2 <= 2^31; nothing is claimed when A + shift I is not positive definite (see findings)"
  },
  {
   "property": "C58",
   "status": "proved",
   "theorems": [
    "H2Pack.SPD.C58_level_pairs",
    "H2Pack.SPD.C58_all_pairs"
   ],
   "note": ""
  },
  {
   "property": "C59",
   "status": "proved",
   "theorems": [
    "H2Pack.SPD.C59_diagonal_exact",
    "H2Pack.SPD.C59_offdiagonal_projection"
   ],
   "note": "as C57"
  },
  {
   "property": "C60",
   "status": "proved",
   "theorems": [
    "H2Pack.SPD.C60_full_rank_exact"
   ],
   "note": "as C57"
  },
  {
   "property": "C61",
   "status": "proved",
   "theorems": [
    "H2Pack.SPD.C61_sampling",
    "H2Pack.SPD.C61_complete",
    "H2Pack.SPD.C61_lost",
    "H2Pack.SPD.C61_lost_case",
    "H2Pack.SPD.C61_common_level",
    "H2Pack.SPD.C61_sample_then_build"
   ],
   "note": "as C57; the random matrix is arbitrary"
  },
  {
   "property": "C62",
   "status": "proved",
   "theorems": [
    "H2Pack.SPD.C62_adequate_exact",
    "H2Pack.SPD.C62_sample_build_exact"
   ],
   "note": "as C57; GEQPF is also assumed to pivot"
  },
  {
   "property": "C63",
   "status": "proved",
   "theorems": [
    "H2Pack.SPD.C63_tolerance",
    "H2Pack.SPD.C63_rank_one",
    "H2Pack.SPD.C63_rank_bound",
    "H2Pack.SPD.C63_first_small"
   ],
   "note": "as C62; describes a defect (see findings)"
  },
  {
   "property": "C64",
   "status": "proved",
   "theorems": [
    "H2Pack.AFN.C64_fps",
    "H2Pack.AFN.C64_unique",
    "H2Pack.AFN.C64_fps_deterministic",
    "H2Pack.AFN.C64_more_threads_than_points",
    "H2Pack.AFN.C64_distinct"
   ],
   "note": "exact arithmetic in an ordered field; squared distances at most DBL_MAX"
  },
  {
   "property": "C65",
   "status": "proved",
   "theorems": [
    "H2Pack.AFN.C65_order",
    "H2Pack.AFN.C65_repeated_points"
   ],
   "note": "as C64"
  },
  {
   "property": "C66",
   "status": "proved",
   "theorems": [
    "H2Pack.AFN.C66_exact_knn",
    "H2Pack.AFN.C66_zero"
   ],
   "note": "exact arithmetic in an ordered field"
  },
  {
   "property": "C67",
   "status": "proved",
   "theorems": [
    "H2Pack.AFN.C67_fsai",
    "H2Pack.AFN.C67_unique",
    "H2Pack.AFN.C67_posDef",
    "H2Pack.AFN.C67_full",
    "H2Pack.AFN.C67_exact",
    "H2Pack.AFN.C67_fails"
   ],
   "note": "exact real arithmetic; POTRF by contract"
  },
  {
   "property": "C68",
   "status": "proved",
   "theorems": [
    "H2Pack.AFN.C68_afn",
    "H2Pack.AFN.C68_exact"
   ],
   "note": "exact real arithmetic; POTRF by contract; POTRI, TRSM, GEMM modelled by what they compute; the estimated rank is an argument"
  },
  {
   "property": "C69",
   "status": "proved",
   "theorems": [
    "H2Pack.AFN.C69_nystrom",
    "H2Pack.AFN.C69_rank_zero"
   ],
   "note": "exact real arithmetic; POTRF and SYEVD by contract (eigenvalues ascending)"
  },
  {
   "property": "C70",
   "status": "proved",
   "theorems": [
    "H2Pack.PCG.C70_flag"
   ],
   "note": "exact real arithmetic; division by zero is an outcome of its own"
  },
  {
   "property": "C71",
   "status": "proved",
   "theorems": [
    "H2Pack.PCG.C71_optimal",
    "H2Pack.PCG.C71_poly",
    "H2Pack.PCG.C71_finite",
    "H2Pack.PCG.C71_exact_precond",
    "H2Pack.PCG.C71_rate",
    "H2Pack.PCG.C71_afn"
   ],
   "note": "exact real arithmetic; the operators are linear maps (AFN: the modelled build and apply of C68)"
  },
  {
   "property": "C72",
   "status": "proved",
   "theorems": [
    "H2Pack.Part.C72_inadm_lists",
    "H2Pack.Part.C72_wide",
    "H2Pack.Part.C72_tiny_boxes_overflow"
   ],
   "note": "exact arithmetic; for boxes that are at least (2 level + 9)e-6 wide; for tiny boxes the overflow is a proved counterexample"
  },
  {
   "property": "C73",
   "status": "proved",
   "theorems": [
    "H2Pack.AFN.C73_approx_knn",
    "H2Pack.AFN.C73_exact_within",
    "H2Pack.AFN.C73_afn",
    "H2Pack.AFN.C73_too_many"
   ],
   "note": "exact arithmetic; hypotheses: boxes that are not tiny, fsai_npt below the capacity of the candidate array (the overflow otherwise is a proved counterexample)"
  },
  {
   "property": "C74",
   "status": "proved",
   "theorems": [
    "H2Pack.Proxy.C74_proxy",
    "H2Pack.Proxy.C74_ring",
    "H2Pack.Proxy.C74_hang",
    "H2Pack.Proxy.C74_hang_constant",
    "H2Pack.Proxy.C74_rows_missing"
   ],
   "note": "exact arithmetic; representation for a scalar kernel or one thread (for vector kernels with several threads the missing row is a proved counterexample); partial correctness of the rejection loops (they need not end); pt_dim <= 8"
  },
  {
   "property": "C75",
   "status": "proved",
   "theorems": [
    "H2Pack.Proxy.C75_levels",
    "H2Pack.Proxy.C75_file",
    "H2Pack.Proxy.C75_again",
    "H2Pack.Proxy.C75_loose",
    "H2Pack.Proxy.C75_tiny",
    "H2Pack.Proxy.C75_text"
   ],
   "note": "exact arithmetic; the file is the record of the values that fscanf reads, the text of minL is modelled separately; L3_nlayer between 2 and 1000"
  },
  {
   "property": "C76",
   "status": "proved",
   "theorems": [
    "H2Pack.Proxy.C76_surface",
    "H2Pack.Proxy.C76_far"
   ],
   "note": "exact arithmetic; the other box of an admissible pair is not smaller than the box of the level"
  },
  {
   "property": "C77",
   "status": "proved",
   "theorems": [
    "H2Pack.Proxy.C77_contains",
    "H2Pack.Proxy.C77_tight",
    "H2Pack.Proxy.C77_file"
   ],
   "note": "exact arithmetic; minL of a file is positive"
  },
  {
   "property": "C78",
   "status": "proved",
   "theorems": [
    "H2Pack.AFN.C78_rank",
    "H2Pack.AFN.C78_search",
    "H2Pack.AFN.C78_range",
    "H2Pack.AFN.C78_returns",
    "H2Pack.AFN.C78_overflow",
    "H2Pack.AFN.C78_too_few_points",
    "H2Pack.AFN.C78_rank_zero",
    "H2Pack.AFN.C78_large_shift",
    "H2Pack.AFN.C78_maxk_too_large",
    "H2Pack.AFN.C78_build"
   ],
   "note": "exact arithmetic; LAPACK by its contract; the shift nu is a positive number given by an arbitrary function of the norm"
  },
  {
   "property": "C79",
   "status": "proved",
   "theorems": [
    "H2Pack.Sample.C79_box",
    "H2Pack.Sample.C79_decompose",
    "H2Pack.Sample.C79_zero",
    "H2Pack.Sample.C79_unique"
   ],
   "note": "exact arithmetic; int does not overflow"
  },
  {
   "property": "C80",
   "status": "proved",
   "theorems": [
    "H2Pack.Sample.C80_grid",
    "H2Pack.Sample.C80_positions",
    "H2Pack.Sample.C80_chebyshev",
    "H2Pack.Sample.C80_select",
    "H2Pack.Sample.C80_schedule"
   ],
   "note": "exact arithmetic; grid_algo 2 and 6, the only ones that are called"
  },
  {
   "property": "C81",
   "status": "proved",
   "theorems": [
    "H2Pack.Sample.C81_select",
    "H2Pack.Sample.C81_bound",
    "H2Pack.Sample.C81_undefined",
    "H2Pack.Sample.C81_flat",
    "H2Pack.Sample.C81_len"
   ],
   "note": "exact arithmetic; arbitrary random numbers"
  },
  {
   "property": "C82",
   "status": "proved",
   "theorems": [
    "H2Pack.Sample.C82_points",
    "H2Pack.Sample.C82_down_size",
    "H2Pack.Sample.C82_schedule",
    "H2Pack.Sample.C82_source",
    "H2Pack.Sample.C82_size",
    "H2Pack.Sample.C82_empty",
    "H2Pack.Sample.C82_defined",
    "H2Pack.Sample.C82_coincide",
    "H2Pack.Sample.C82_single",
    "H2Pack.Sample.C82_above",
    "H2Pack.Sample.C82_above_example",
    "H2Pack.Sample.C82_single_example"
   ],
   "note": "exact arithmetic; coordinates do not exceed 1e100; definedness for the algorithm that takes all points of the partners (SELECT_SP_ALG 0)"
  },
  {
   "property": "C83",
   "status": "proved",
   "theorems": [
    "H2Pack.Sample.C83_skeletons",
    "H2Pack.Sample.C83_determined",
    "H2Pack.Sample.C83_returns",
    "H2Pack.Sample.C83_ends",
    "H2Pack.Sample.C83_build",
    "H2Pack.Sample.C83_relative",
    "H2Pack.Sample.C83_absolute",
    "H2Pack.Sample.C83_point",
    "H2Pack.Sample.C83_scalar",
    "H2Pack.Sample.C83_rank_zero",
    "H2Pack.Sample.C83_lost",
    "H2Pack.Sample.C83_lost_example"
   ],
   "note": "accuracy and success for scalar kernels in exact arithmetic, the rest for every arithmetic"
  },
  {
   "property": "C84",
   "status": "proved",
   "theorems": [
    "H2Pack.Kern.C84_eval",
    "H2Pack.Kern.C84_simd_independent",
    "H2Pack.Kern.C84_symmetric",
    "H2Pack.Kern.C84_translation",
    "H2Pack.Kern.C84_constants"
   ],
   "note": "exact arithmetic; the vector library (an empty submodule here) is a parameter that must compute the elementary functions"
  },
  {
   "property": "C85",
   "status": "proved",
   "theorems": [
    "H2Pack.Kern.C85_contract",
    "H2Pack.Kern.C85_product",
    "H2Pack.Kern.C85_one_lane"
   ],
   "note": "exact arithmetic; vector library as in C84"
  },
  {
   "property": "C86",
   "status": "proved",
   "theorems": [
    "H2Pack.Kern.C86_stokes_eval",
    "H2Pack.Kern.C86_rpy_eval",
    "H2Pack.Kern.C86_stokes_contract",
    "H2Pack.Kern.C86_rpy_contract",
    "H2Pack.Kern.C86_rpy_mv_contract",
    "H2Pack.Kern.C86_stokes_single",
    "H2Pack.Kern.C86_rpy_single"
   ],
   "note": "exact arithmetic; the reciprocal square root of 0 is assumed to be some number"
  },
  {
   "property": "C87",
   "status": "proved",
   "theorems": [
    "H2Pack.Kern.C87_stokes_symmetric",
    "H2Pack.Kern.C87_rpy_symmetric",
    "H2Pack.Kern.C87_stokes_translation",
    "H2Pack.Kern.C87_rpy_translation",
    "H2Pack.Kern.C87_rpy_continuous"
   ],
   "note": ""
  },
  {
   "property": "C88",
   "status": "proved",
   "theorems": [
    "H2Pack.Kern.C88_builtin_h2"
   ],
   "note": "exact arithmetic; construction assumed to have returned, as in C50"
  },
  {
   "property": "C89",
   "status": "proved",
   "theorems": [
    "H2Pack.Kern.C89_eval",
    "H2Pack.Kern.C89_fewer",
    "H2Pack.Kern.C89_fewer_neg",
    "H2Pack.Kern.C89_more",
    "H2Pack.Kern.C89_wrap_far",
    "H2Pack.Kern.C89_nearest",
    "H2Pack.Kern.C89_symmetric",
    "H2Pack.Kern.C89_no_overlap"
   ],
   "note": "exact arithmetic; erfc is a parameter; radii not negative"
  },
  {
   "property": "C90",
   "status": "proved",
   "theorems": [
    "H2Pack.DAG.C90_queue_exhausted",
    "H2Pack.DAG.C90_queue_returns",
    "H2Pack.UJ.C90_all_empty",
    "H2Pack.UJ.C90_second_product",
    "H2Pack.UJ.C90_far_lost",
    "H2Pack.UJ.C90_jit_division_by_zero"
   ],
   "note": "H2 mode; the HSS construction does not use the queue; with a reset C18_reuse gives a full execution"
  },
  {
   "property": "C91",
   "status": "proved",
   "theorems": [
    "H2Pack.Life.C91_runs",
    "H2Pack.Life.C91_exact",
    "H2Pack.Life.C91_twice",
    "H2Pack.Life.C91_zero_leak",
    "H2Pack.Life.C91_ordered",
    "H2Pack.Life.C91_file",
    "H2Pack.Life.C91_spd"
   ],
   "note": "malloc does not fail; structures are created and destroyed together with their arrays; work arrays local to a call are not modelled"
  },
  {
   "property": "C92",
   "status": "proved",
   "theorems": [
    "H2Pack.Modes.C92_flags",
    "H2Pack.Modes.C92_rows",
    "H2Pack.Modes.C92_order_matters",
    "H2Pack.Modes.C92_lattice",
    "H2Pack.Modes.C92_no_lattice",
    "H2Pack.Modes.C92_limits"
   ],
   "note": "printing of warnings is not modelled"
  },
  {
   "property": "C93",
   "status": "proved",
   "theorems": [
    "H2Pack.BJ.C93_leaf_order",
    "H2Pack.BJ.C93_layout",
    "H2Pack.BJ.C93_build",
    "H2Pack.BJ.C93_solves",
    "H2Pack.BJ.C93_history",
    "H2Pack.BJ.C93_pcg"
   ],
   "note": "GETRF and GETRI are a parameter with the contract of an inverse; real arithmetic; sizes in int do not overflow"
  },
  {
   "property": "C94",
   "status": "proved",
   "theorems": [
    "H2Pack.AFN.C94_order",
    "H2Pack.AFN.C94_random_nystrom",
    "H2Pack.AFN.C94_limits"
   ],
   "note": "POTRF and SYEVD are parameters with their contracts; real arithmetic; scalar kernel"
  },
  {
   "property": "C95",
   "status": "proved",
   "theorems": [
    "H2Pack.LRD.C95_low_rank",
    "H2Pack.LRD.C95_too_many",
    "H2Pack.LRD.C95_rows_missing",
    "H2Pack.LRD.C95_pcg"
   ],
   "note": "POTRF and SYEVD are parameters with their contracts; real arithmetic; kernels that read no more than pt_dim coordinates"
  },
  {
   "property": "C96",
   "status": "proved",
   "theorems": [
    "H2Pack.CSRP.C96_parallel_spmv"
   ],
   "note": "exact arithmetic (any field); column indices are not checked against the length of the input"
  },
  {
   "property": "C97",
   "status": "proved",
   "theorems": [
    "H2Pack.CSRP.C97_spmv_limits"
   ],
   "note": "undefined behaviour as an outcome of the model"
  },
  {
   "property": "C98",
   "status": "proved",
   "theorems": [
    "H2Pack.FKnn.C98_knn",
    "H2Pack.FKnn.C98_distance",
    "H2Pack.FKnn.C98_overflow",
    "H2Pack.FKnn.C98_third_coordinate",
    "H2Pack.FKnn.C98_wrong_neighbour"
   ],
   "note": "exact arithmetic, unbounded integers"
  },
  {
   "property": "C99",
   "status": "proved",
   "theorems": [
    "H2Pack.FSB.C99_block_fsai",
    "H2Pack.FSB.C99_spd",
    "H2Pack.FSB.C99_exact",
    "H2Pack.FSB.C99_pattern",
    "H2Pack.FSB.C99_tree",
    "H2Pack.FSB.C99_pcg"
   ],
   "note": "exact real arithmetic; POTRF and GETRF/GETRS are parameters with their contracts"
  }
 ]
}