# Formal model of H2Pack in Lean 4: design

## Trusted base

* Lean 4.33.0's kernel. No axioms of our own; theorems depend on Lean's
  standard `propext`, `Classical.choice`, `Quot.sound` only (section
  "Axioms" lists them per theorem). No `native_decide`, no `bv_decide`.
  Concrete cases beside the theorems use `decide +kernel`, i.e. evaluation by
  the kernel itself.
* The faithfulness of the hand-written model to the C sources, definition by
  definition. Each definition cites the file and lines it models and says
  where it simplifies.
* Arithmetic on matrix/vector data is exact arithmetic over an arbitrary
  commutative ring (or field / linearly ordered field / the reals where the
  code divides, compares or takes roots). The pivoted QR and the ID are modelled over an
  abstract arithmetic (`ID.Ops`) so that their index and termination
  properties hold for every arithmetic, IEEE doubles included. Rounding is
  not modelled. `int` is modelled by unbounded integers/naturals: 32-bit
  overflow is not modelled unless stated.
* BLAS/LAPACK routines are modelled by their mathematical specification
  (including the reference "quick return" behaviour where it matters); for
  the ULV solvers they are parameters with their documented contract
  (`Lapack.Correct`, `Lapack.Definite`), and `lapack_exists` shows that the contract can be met.
* Kernel functions (`krnl_eval`, `krnl_bimv`, `krnl_mv`) are parameters with their
  documented contract.
* OpenMP: `parallel for` loops are modelled either by an interleaving
  semantics of atomic steps (task queue, transposition, AOT block
  construction) or by quantifying over every assignment of iterations to
  threads and every order of the iterations. Sequentially consistent memory
  is assumed (the C code uses `__ATOMIC_SEQ_CST` for the queue).
* Memory: `malloc` never fails and returns arbitrary contents (the theorems
  quantify over them as `junk` parameters); accesses outside an allocated
  array, reads of uninitialized pointers and failed assertions are the result
  `ub` of the type `Res` (`ok`/`ub`/`diverge`, `Model/Base.lean`) where the
  statement concerns safety or termination. Loops whose termination is part of
  a property run on fuel and report `diverge` when it is used up; `Returns`
  and `Diverges` quantify over all fuel.

## Layout

* `lean/Verif/Model/*.lean`  : the model, function by function, with citations.
* `lean/Verif/Spec/*.lean`   : independent specifications (what a cluster tree
  is, what matrix an H2 representation stands for, what the skeleton of a
  node is, ...).
* `lean/Verif/Proof/*.lean`  : helper lemmas.
* `lean/Verif/Props/*.lean`  : the property theorems, each followed by an
  `example` (or a `demo_*`/`line_*`/`two_*` theorem) showing that the
  hypotheses are met by a concrete non-trivial case.
* `seeded/LOG.jsonl` : record of the mutation tests (edits of the model that
  mimic bugs, and which theorems stop proving).

## Per property: what is modelled and how it is proved

| id | model | proof idea |
|----|-------|------------|
| C01 | `calc_block_spos_len` on Int/Nat | arithmetic on `/` and `%` |
| C02, C42 | int vector = capacity + buffer; push/concat with reallocation; gather loop | invariant over operation sequences |
| C03 | the greedy loop of `H2P_partition_workload` | loop invariant |
| C04, C05 | bucket sort + quick sort on arrays, lookup loop | permutation and sortedness invariants |
| C06-C09, C40 | recursive bisection with fuel, box halving, bucket permutation | induction on fuel; termination by box width |
| C10 | flattening of the tree to arrays | induction on the tree; result is `ClusterTree` (Spec/ClusterTree) |
| C11-C14 | recursion over the tree with an arbitrary admissibility predicate; periodic: over images | exact cover by induction on the size of the pair of subtrees |
| C15-C19, C41, C44 | interleaving transition system of N threads over the atomic queue operations | inductive invariant; fairness and a decreasing measure for progress; confluence of results |
| C20-C23, C46 | the sweeps of matvec over an arbitrary commutative ring, thread-private outputs, block lists in arbitrary order | induction on the tree, sums over blocks; the matrix it stands for is `entry` (Spec/H2Matrix) |
| C24 | padded buffers with arbitrary kernel values at the padding | sums split at the original length |
| C25 | blocking loop over columns, both layouts, all sweeps of matmul | column-wise equality with the matrix of the matvec |
| C26 | permutation index arrays | bijection |
| C27, C45 | prefix sums, COO list with +-(i+1) values, lookup, AOT block construction by interleaved threads | prefix-sum arithmetic + C04/C05 |
| C28, C29, C47 | pivoted block QR (both variants) over an abstract arithmetic, ID bookkeeping, triangular solve | permutation algebra, loop invariants; over the reals Householder identities and error norms |
| C30, C31 | token streams: writer and reader as functions on token lists; hex text; the Python converter | reader (writer r ++ rest) = (r, rest) |
| C32-C34, C48, C49 | recursive ULV factorization and solve with abstract QR/LU/Cholesky contracts | induction on the tree, block elimination, Schur complements, determinants; positive definiteness by congruence |
| C35-C37, C43 | row-major buffers with in-place loops | loop invariants |
| C38 | rejection sampling loop driven by an arbitrary stream | invariant |
| C39 | `H2P_check_box_admissible` over a linearly ordered field | order arithmetic |
| C50-C52 | basis construction (leaf/inner candidates, proxy matrix, ID, skeleton gather) as the task of the upward task graph, HSS level sweep | induction on the tree through the schedule-independence of the queue; telescoping error along the tree |
| C53-C55 | periodic pair search and metadata, shifted blocks, root block, the periodic product as loops over CSR rows per node; lattice tables copied | reduction of the periodic representation to a one-directional H2 representation with all nodes marked; telescoping error as in C52; exact cover of points times images (C14) |
| C56 | `H2P_matmul_periodic`: column block loop shared with C25, periodic pair and dense loops over CSR rows, root block | per-column value of every loop; the sum of all contributions is shared with C53 |
| C57-C60 | the SPDHSS construction: level lists of pairs (sort and unique), node steps (Cholesky, eigendecomposition, pivoted QR with contracts), the 11 cases of a B block with gather/clean, wrapping; all with NULL checks | frame vectors `L_v` with `L_v A L_v' = I`: invariant over levels saying every stored matrix is the corresponding two-sided product of A; Gram matrices are bounded below by A, so every factorization succeeds, and the quadratic form of the result is a sum of positive parts |
| C61 | the sampling step: explicit bases, common ancestor level, products of dense and admissible pairs sorted by level, prefix sums, repacking | per-cell value of the loops as sums over pairs; a pair contributes to prefix m iff its second node is outside the ancestor on level m + 1; a concrete unbalanced tree shows the products that are lost |
| C62, C63 | contents of the sample matrices through all levels (C57-C61 model) | the samples of a node are the compressed products of its off-diagonal rows with the random matrix; a pivoted QR factor of a matrix of rank c has a zero in position c, so `max_rank` columns span the samples and the projections fix the off-diagonal rows; for C63 the zero triggers the tolerance test one column too early; the rank bound by induction along the path to the root |
| C64, C65 | farthest point sampling with thread-local scans, barriers and the master reduction; order array with bounds | local best over the blocks of the threads, block partition (C01), reduction to first best of all; the minimum distances are an invariant over rounds; gap > 0 while positions remain |
| C66 | quick-select partition, row of the exact search | loop invariants of the two scans; the last swap leaves the k smallest in front; sum over the parallel iterations |
| C67 | rows of G from Cholesky factors of the neighbour blocks, COO to CSR (C04), two CSR products | normal equations of a row through the triangular solves; positive definite submatrices; the CSR matrix as a sum over entries |
| C68 | blocks of the reordered matrix, POTRF/TRSM/POTRI, FSAI of the Schur complement, apply with gather and scatter | block factorization and Schur complement; the order of the points as a bijection; exact solver through C65, C66, C67 |
| C69 | shift, Cholesky factor, tall matrix, SYEVD of the small Gram matrix, truncation, apply | V'M' v is an eigenvector of the small problem for the same eigenvalue, so the operator is a function of the approximation; definiteness through the spectral theorem |
| C70 | the loop of pcg with its stop test, an arbitrary preconditioner function, division by zero as outcome | invariant r = b - A x |
| C71 | as C70 | A-orthogonality of the directions and B-orthogonality of the residuals by induction, Krylov spaces as polynomials, projection gives optimality; Cayley-Hamilton for finite termination; one contraction step for the rate; C68 for the AFN case |
| C72 | `inadmLists` (H2P_calc_node_inadm_lists) on the tree of `partitionPoints` | boxes of a tree lie on a slightly perturbed dyadic grid; nodes that are not admissible lie in adjacent cells; injection into 3^dim cells |
| C73 | `approxKNN` (FSAI_approx_KNN_with_H2P): search level, index maps, neighbour nodes, candidates, padding, selection | every level above the first leaf covers all points; adjacent cells as in C72; the candidates contain all points of adjacent boxes; disjoint writes make the order irrelevant |
| C74 | `nlayer`: candidate layers, sparse sign sketch, kernel matrices by threads, selection by the ID (model of C28), densification | per-call specification of the ID (C28, C47) transported through the layers; invariants of the rejection loops; distance bound for the hang; index argument for the missing row |
| C75 | `idFile`: reading, matching, index ranges, generation, levels, writing | logarithms of all widths differ from integers by at most 1e-10, so every rounding is exact arithmetic of indices |
| C76 | `surface`; admissibility test of C39 | injectivity of the grid coordinates on the faces; gap of admissible boxes in one coordinate |
| C77 | `enclosingBox` | maximum over folds; ceiling of a logarithm |
| C78 | `rankEst` (samples, farthest points, binary search, eigenvalue count), `buildAll` | Loewner monotonicity of the Nyström error makes the binary search exact; eigenvalue count = roots of the characteristic polynomial; composition with C64-C69 |
| C79 | `boxSize`, `decompose` | invariant of the bumping loop: entries bumped so far are those with the largest fractions |
| C80 | `anchorDim`, `anchors`, `clusterSample` | mixed-radix digits enumerate the grid; arg-min folds; flags are idempotent |
| C81 | `selectR` (start value, loop of trials with the ID of C28) | rank grows by two per trial and is at most k |
| C82 | `samplePoints`: bottom-up and top-down sweeps with any order of the nodes of a level | sweep lemma: writes of a level are disjoint from its reads; induction over levels; concrete trees of the real partitioning for the undefined cases |
| C83 | `spNode` as the client of the task queue of C17-C19 | same form as C50 (`nodeWith`), accuracy from C47; rank 0 from the column bound of C28 |
| C84 | `evalK` with the bodies of the seven scalar kernels; `Simd` = vector library as a parameter | loop invariants over vectors and tail; formulas in `Spec/Kernels` |
| C85 | `bimvK`, `scalarBimv` | invariant of the loop over vectors; contract `BimvSpec` of C24 |
| C86 | `stokesEval`, `rpyEval`, `stokesBimv`, `rpyBimv`, `rpyMv` | block writes are disjoint; `Good`: one lane is the block times three components; half stride: a unit input is counted twice |
| C87 | formulas of `Spec/Kernels` | algebra; `ContinuousOn.if` at the two boundaries |
| C88 | all of C50, C23, C85, C86 | composition |
| C89 | `initWorkbuf`, `ewaldEval` | loops enumerate the lattice in lexicographic order, so entry `i` and `r_size - 1 - i` are opposite and the zero vector is in the middle; the terms are even, so twice the first half is the whole sum |
| C90 | `fillNull`, the queue and product models of C15, C20, C23 | all threads received -1 so the head is past the end; invariant of the second use; product with empty bases and blocks reduces to the dense part, counted by the cover |
| C91 | all pointer fields of the handle, the allocations of every call, `H2P_destroy` | invariant: pointers are injective, live, and cover the live blocks; destruction removes a duplicate-free list of slots; a second creation overwrites a live pointer, and an unreachable block stays |
| C92 | `run` over lists of mode calls on the fields set by `H2P_init` (Model/Modes) | an invariant of each call, by induction on the history; the tables in two and three dimensions by evaluation of the loops, uniqueness of vectors by the position formula |
| C93 | the three arrays and both parallel loops on flat memory (Model/BlockJacobi), on top of the partitioning model | leaves of the recursive tree tile its points (induction on the tree), positions are prefix sums; blocks are disjoint so the order plays no role; inverse times block; diagonal blocks of a positive definite matrix are positive definite, with C71 for the solver |
| C94 | sampling, reordering and both calls (Model/NysPrecond on top of Model/AFNPrecond) | the flags of the sample are its indicator, appending the unflagged points completes a permutation; then C69 |
| C95 | sampling, both kernel matrices, eigendecomposition, Cholesky, product (Model/LRDPrecond) on the partitioned handle | U0^T U0 = C^T Q C with Q a function of the sample matrix; (U0^T U0 + s)(1 - U0^T T^-1 U0) = s for T = U0 U0^T + s; positions through the permutation of the points; C71 for the solver |
| C96 | conversion, partition, NUMA copies, blocks and sequential correction (Model/CSRPlus) | lower bound search gives the row range of each block; a row written with its full sum is touched by one block only; otherwise the parts of the blocks add up to the row |
| C97 | the same model | the last block starts at row nrow |
| C98 | the search with the tree, the quick sort, the buffers | candidates by induction over the tiling of the leaves; quick sort is a sorting permutation; loops write one row per point |
| C99 | block FSAI: neighbour lists, dense blocks, solves, Cholesky of the diagonal block, coordinate entries, both CSR matrices, application | block Cholesky identity row by row; G as a matrix of fibre sums over the entries; C96 for the products; C98 for the pattern; C71 for conjugate gradients with it |
| C100 | the direct product: blocks of 256 points, partition over the threads, steps in any order (Model/DirectNbody) | each step adds its part to its rows; blocks tile by induction; one thread owns each target point (C01) |

Properties that turn out to be false of the code are proved in negated form
with a concrete witness, together with the strongest true variant (see
"Findings").

## What is modelled and what is not

Modelled (file: functions):

* `src/H2Pack_utils.c`/`src/utils.c`: `calc_block_spos_len`, `H2P_partition_workload`,
  `H2P_check_box_admissible`, `H2P_gather_matrix_columns`, COO/CSR conversion,
  `H2P_transpose_dmat`, `H2P_get_Bij_block`/`H2P_get_Dij_block`,
  random index sampling.
* `src/H2Pack_aux_structs.c`: int vectors, dense matrices (select, permute,
  concatenate, resize), tree nodes as far as the partitioning uses them.
* `src/DAG_task_queue.c`: all of it.
* `src/H2Pack_partition.c`, `src/H2Pack_partition_periodic.c`: bisection, tree flattening, pair
  lists, neighbour lists, upward task graph.
* `src/H2Pack_build.c`: basis construction (H2 proxy and HSS), metadata, AOT blocks,
  permutation arrays.
* `src/H2Pack_build_periodic.c`, `src/H2Pack_matvec_periodic.c`, the lattice tables of `src/H2Pack_typedef.c`:
  periodic root block, construction and product.
* `src/H2Pack_ID_compress.c`: all of it except the timing and the non-portable
  BLAS dispatch.
* `src/H2Pack_matvec.c`, `src/H2Pack_matmul.c`: all sweeps, AOT and JIT.
* `src/H2Pack_matmul_periodic.c`: all functions.
* `src/H2Pack_file_IO.c` and `meta_txt_to_json.py`: the format, both directions.
* `src/H2Pack_SPDHSS_H2.c`: everything (the random number generator is replaced by an arbitrary matrix).
* `src/H2Pack_HSS_ULV.c`: both factorizations, solves and log-determinants.
* `src/AFN_precond.c`: farthest point sampling, the order of the points, exact neighbour search, neighbour search through the H2 tree, FSAI, Nyström and AFN preconditioners (build and apply), rank estimation, the whole `AFN_precond_build` without an H2 matrix.
* `examples/PCG/pcg.c`: everything except timers, output and the final check, which only changes what is printed.
* `src/H2Pack_gen_proxy_point.c`: everything except timers, the assertion for more than eight dimensions and the text format of the coordinates.
* `src/H2Pack_build_with_sample_point.c`: everything except timers, statistics and memory management.
* `src/H2Pack_2D_kernels.h`, `src/H2Pack_3D_kernels.h`: all kernels in exact arithmetic with the vector library (`src/ASTER`, an empty submodule in this checkout) as a parameter; not the flop counts and `extract` macros.
* `src/H2Pack_3D_kernels.h:961-1213` (Ewald): both routines in exact arithmetic; `erfc` is a parameter.
* `src/H2Pack_build.c:240-265`: filling of untouched slots (`Model/Rebuild`).
* `src/H2Pack_typedef.c` (`H2P_init`, `H2P_run_*`, `H2P_destroy`) and the allocations of partitioning, construction, products, factorizations, file reading and SPD approximation (`Model/Lifecycle`): which pointer gets a new block and which block is freed; not the sizes of the blocks.
- `src/H2Pack_typedef.c` lines 15-40, 122-209: the mode calls and the lattice table (Model/Modes, C92).
* `examples/SPDHSS-H2/block_jacobi_precond.c`: whole file except statistics and destruction (`Model/BlockJacobi`, C93).
* `examples/AFN_precond/Nys_precond.c`: `Nys_precond_build`, `Nys_precond_apply` (`Model/NysPrecond`, C94).
* `examples/SPDHSS-H2/LRD_precond.c`: `H2P_build_LRD_precond`, `LRD_precond_apply` (`Model/LRDPrecond`, C95).
* `examples/SPDHSS-H2/CSRPlus.c`: all but the allocation and `CSRP_free` (`Model/CSRPlus`, C96, C97).
* `examples/SPDHSS-H2/FSAI_precond.c`: lines 13-200, the search of the neighbours (`Model/FSAIKnn`, C98).
* `examples/SPDHSS-H2/FSAI_precond.c`: lines 202-434, construction and application (`Model/FSAIBlock`, C99), and its use by `examples/SPDHSS-H2/pcg_tests.c` 121-137 (lines 83-118 with C93 and C95); not the timing, the freeing of memory and allocation failures.
* `examples/direct_nbody.h` (the same text in `extra/`): the whole function (`Model/DirectNbody`, C100).

Not modelled: rounding errors; 32-bit overflow; allocation failure; timers
and printed statistics; the rejection loops of the proxy point generation (no proof that they end);
`H2Pack_build_with_sample_point.c`;
the Python wrapper; the kernel headers (kernels are parameters); the
other examples than PCG.

## Findings about the code (each a theorem where a name is given)

* `H2P_read_from_file`, section 13: `H2P_calc_enclosing_box` allocates one box,
  then `H2P_calc_node_inadm_lists` reads the boxes of all nodes: out-of-bounds
  reads for every tree with more than one node (`C30_box_overrun*`).
* Coordinates whose bit pattern is below 2^60 (for example 0.0) cannot be
  converted by `meta_txt_to_json.py` (`C31_conversion_iff`); `QR_stop_tol` is
  lossy through `%e`.
* `calc_block_spos_len` does not reject `iblk = nblk` (`C01_guard_off_by_one`).
* HSS mode aborts on an assertion when the root has a single child or the
  tree has one node (`C12_single_child_aborts`).
* `min_adm_level = 0` outside the periodic case makes the task graph
  construction access memory out of bounds (`upward_ub_level_zero`, C44).
* Converting an empty COO list is undefined behaviour (`C27_no_pair_is_ub`).
* A node of rank 0 makes `H2P_matvec` use stale data (`C22_rank_zero_stale`).
* Without `krnl_bimv`, a block with `ncol*krnl_dim > 16384` makes the JIT
  evaluation loop forever (`C23_endless_row_block`).
* Relative tolerance with a zero matrix, and a group of linearly dependent rows
  with `krnl_dim > 1`, divide by zero in the pivoted QR (`C47_zero_matrix_fails`,
  `C47_dependent_group_fails`).
* After a failed ULV factorization a solve dereferences a null pointer
  (`C48_*_after_failure`); LU reports failure for some nonsingular matrices
  (`C48_lu_rejects_nonsingular`).
* Noted while reading, not theorems: the clearing loop of `H2P_matvec` uses the
  default team size instead of `n_thread`; `H2P_calc_node_inadm_lists` writes
  without checking its capacity `3^pt_dim`; in HSS mode threads read
  skeletons of neighbours that other threads rewrite in place;
  refactorizing leaks memory.
* Periodic product: it overwrites the intermediate vector of the root (beta = 0),
  correct only because the root never starts an admissible entry
  (`C54_root_not_admissible`); `DTYPE shift[8]` overflows for `xpt_dim > 8`; a periodic
  system without admissible entry (a single leaf, or `pt_dim` other than 2 and 3,
  where `n_lattice` is 0) runs into `C27_no_pair_is_ub`.
* Noted while reading: `H2P_gen_normal_distribution` with `nelem = 0` underflows its
  loop bound; `H2P_dense_mat_normalize_columns` uses the stride `ncol` instead of `ld`;
  `H2P_HSS_ULV_LU_solve` after a Cholesky factorization dereferences a null `ULV_p`;
  `parent[root]`, `node_height` and `height_n_node` are not restored on load.
* SPDHSS construction, noted while reading: after a node is found not to be positive
  definite the pairs of its level are still handled and dereference the NULL `V`/`W`
  of that node; the root is never checked, so `is_HSS_SPD = 1` does not
  imply that the result is positive definite when `A + shift I` is not; the LU factorization sets the same
  flag to "nonsingular" (H2Pack_HSS_ULV.c:404); the HSS pair lists must
  have been computed beforehand, otherwise NULL is copied from; `max_rank = 0` gives empty bases; the key
  `node0 * n_node + node1` overflows `int` for more than 46340 nodes (hypothesis `small`); a diagonal that drops
  below the tolerance at the second column is ignored (`k > 1`), so numerical rank one keeps `max_rank` columns; an
  H2 basis of rank 0 leaves `W` NULL (hypothesis `rank` of `WF`).
* SPDHSS sampling (proved, `C61_lost`, `C61_lost_case`): `H2P_SPDHSS_H2_acc_matvec` loops over the nodes of the levels
  `max_level .. min_adm_level` only, so the products of an admissible pair (leaf above `min_adm_level`, deeper node) for the rows of that leaf are
  never added; on an unbalanced tree with three leaves the samples of one leaf are zero although its row of the matrix is not. The result stays
  positive definite (`C61_sample_then_build`), but the basis of that leaf is arbitrary.
* SPDHSS truncation, lines 1872-1884: if diagonal entry `k` is the first one below the tolerance, `k - 1` columns are kept, so the last significant
  column is dropped; if `k = 1`, nothing is dropped (`C63_tolerance`, `C63_rank_one`, `C63_first_small`): a leaf whose samples have rank `rho`
  never gets a basis with `rho` columns.
* AFN (proved, `C64_more_threads_than_points`): with fewer points than threads `AFNi_FPS` reads `tmp_d[npt]`, an entry another thread is writing, and then `min_d[npt]`.
* AFN (proved, `C65_repeated_points`): with fewer different positions than landmark points, `AFNi_FPS` selects an index twice and `AFN_precond_build` writes past the end of `perm[]`.
* AFN (proved, `C66_zero`): with `fsai_npt = 0` the neighbour search writes `nn_idx_i[-1]`.
* AFN (proved, `C69_rank_zero`): with estimated rank 0 the Nyström construction reads `S[-1]`.
* AFN (by reading): `afn_K12` is allocated twice in `AFNi_AFN_precond_build`, the first block is leaked; `sample_idx` is leaked in `AFNi_rank_est_scaled`.
* AFN (by reading): in `AFNi_Nys_rank_est` the array for the eigenvalues has `max_k` entries, but `SYEVD` writes `max(max_k, ss_npt)` entries: heap overflow if `max_k < ss_npt`.
* PCG (proved, `C71_optimal`, `C70_flag`): `res_vec` is documented as relative norms of the residual, but the absolute norms are stored; for `b = 0` the reported `relres` is 0/0.
* HSS (proved, `C72_tiny_boxes_overflow`): `H2P_calc_node_inadm_lists` writes beyond the 3^dim entries of a row if the boxes are only about 5e-6 wide (the absolute tolerances of `H2P_check_box_admissible` dominate).
* AFN (proved, `C73_too_many`): `FSAI_approx_KNN_with_H2P` stops adding candidates only when the array has exactly `max_nn_points - 1` entries; if `fsai_npt >= max_neighbor * max_sl_node_npt` the loop can pass this value and write behind the array.
* Proxy points (proved, `C74_rows_missing`): `H2P_eval_kernel_matrix_OMP` stores the rows of a thread from row `n0_blk_start` on, not `n0_blk_start * krnl_dim`; with several threads and a vector kernel the last rows are never stored. The function is also used in the AFN and Nystroem preconditioners.
* Proxy points (proved, `C74_hang`, `C74_hang_constant`): with `reltol < 1e-12` and one selected point the loop that looks for a second point never ends (`min_dist` is 1e99).
* Proxy point file (proved, `C75_loose`): sets computed with a larger tolerance are stored under the smaller tolerance of the old first line and are later used for it.
* Proxy point file (proved, `C75_tiny`): half widths below 5e-13 are written as 0, and the next run converts an infinity to `int`. Also (by reading): the tolerance is written with four digits and may be rounded up, then the file never matches again; the kernel is not recorded, so a file of another kernel is used silently.
* Proxy surface (by reading): at most one extra coordinate row is set to zero; `xpt_dim` larger than `pt_dim + 1` leaves rows uninitialised.
* Rank estimation (proved, `C78_overflow`): `workbuf` in `AFNi_Nys_rank_est` has room for `max_k` eigenvalues, but `SYEVD` stores `max(max_k, ss_npt)` of them: heap overflow when `ss_npt > max_k` and the first estimate is at most `max_k`.
* Rank estimation (proved, `C78_rank_zero`, `C78_large_shift`): a large shift `mu` gives the estimate 0, and `Nys_precond_build_` then reads `S[-1]`.
* Rank estimation (proved, `C78_too_few_points`, `C78_maxk_too_large`): `ss_npt` larger than the number of points never ends; `max_k` larger than the number of points can give a negative `n2`. By reading: `sample_idx` is leaked in `AFNi_rank_est_scaled`; `nu` is 0 when the norm is at least 2^53 (`f + 1.0 = f`).
* Sample points (proved, `C83_lost`, `C83_lost_example`): line 544 skips nodes with an empty `adm_list`, and with them the copy to the children (lines 765-774): below such a node the far field of the ancestors is lost, leaves get rank 0 and their parent no candidates.
* Sample points (proved, `C82_above`, `C82_above_example`): partners that are leaves above `min_adm_level` have no refined points; the bounds stay at +-1e100 or the matrices are read past the end.
* Sample points (proved, `C82_coincide`, `C82_single`, `C82_single_example`, `C79_zero`): a far field of a single point (or of coincident points) has a box of size 0; 0/0 is converted to `int`. More than five coincident points in a leaf do the same.
* Sample points (proved, `C81_undefined`, `C81_flat`): a tolerance above 1000 takes the square root of a negative number; a root box with a side of length 0 gives NaN. By reading: `coord_max` and `coord_min` (lines 532-533) are never freed.
* Tensor kernels (proved, `C86_stokes_single`, `C86_rpy_single`): the loops of the Stokes and RPY products advance by `SIMD_LEN_D` although `vec_t` has `SIMD_LEN` lanes; in single precision builds every product counts source points twice.
* Scalar bi-matvecs (proved, `C85_one_lane`): two rows per pass, so that `SIMD_LEN` must be even; the wrapper pads to multiples of `SIMD_LEN` only.
* RPY (by reading): for negative radii the evaluation routine and the products choose different cases. The vectorised products compute `0 * rsqrt(0)` for coinciding points and `C / 0` for two padded points of radius 0; the model has no infinities, so this is part of the trusted base.
* Ewald kernel (proved, `C89_fewer`, `C89_fewer_neg`, `C89_more`, `C89_wrap_far`): one loop fills images and wave vectors, so the table is right only for `nk = nr`; otherwise wrong wave vectors are used, or the zero vector (division by 0) and uninitialised entries. `fmod(dx + 2L, L)` is the nearest image only for differences of at most two cells.
* Ewald kernel (by reading): a coordinate difference of exactly half a cell wraps to `+L/2` for both orders of the spheres, so the overlap correction is then not symmetric; `C89_symmetric` excludes it.
* Second construction (proved, `C90_*`): `DAG_task_queue_reset` is called only from `DAG_task_queue_init`, so `H2P_build` twice on one handle silently loses the far field (ahead-of-time mode) or divides by zero (just-in-time mode). The HSS construction does not use the queue.
* Ownership (proved, `C91_twice`, `C91_zero_leak`): a second partitioning, construction, factorization, `H2P_run_RPY_Ewald` or HSS pair computation on one handle leaks the first; so does a product with zero vectors before partitioning. `H2P_run_HSS` after partitioning leaves the HSS pairs `NULL` and the construction reads them (example in `Props/Lifecycle`).
* Local leaks (by reading): `H2P_SPDHSS_H2_wrap` never frees its pair arrays, `H2P_SPDHSS_H2_build` never frees the array of `Yk`, `H2P_select_sample_point` never frees `coord_max`/`coord_min` (src/H2Pack_build_with_sample_point.c:532-533).
- `H2P_run_RPY_Ewald` followed by `H2P_run_HSS` leaves the coordinate array with an extra row although no RPY flag is set (C92_order_matters): partitioning then reads one row more than a user of a scalar kernel supplies. In dimensions other than 2 and 3 Ewald mode has no lattice vectors (C92_no_lattice).
* Block Jacobi preconditioner (by reading): `D_nrow[i] * D_nrow[i]` is computed in `int` before it is added to a `size_t`, so a leaf with more than 46340 rows overflows.
* Randomized Nystroem preconditioner (by reading): `Nys_precond_build_` frees neither `K11` nor `K12` and the caller does not either, `Nys_precond_destroy` frees neither `px` nor `py` and does not reset the pointer.
* Low rank plus diagonal preconditioner (by reading): the array `flag` is never freed; only `pt_dim` rows of the coordinates are copied, so a kernel of a handle with `xpt_dim > pt_dim` (RPY) reads past the copies; if the kernel matrix of the sample has no positive eigenvalue, `max_diag` is zero and `1.0 / sqrt(0.0)` is stored.
* CSRPlus (C97): `CSRP_partition_multithread` reads `row_ptr[-1]` for a matrix without entries; with more blocks than entries and a nonempty last row the last block has `first_row = nrow`, so `CSRP_SpMV` reads `row_ptr[nrow + 1]` and writes `y[nrow]`.
* FSAI for SPDHSS-H2 (by reading): `calc_3D_dist2` takes row `ld * 1` for the third coordinate, so the neighbours in three dimensions ignore z; `FSAI_precond_destroy` does not free `x0`; for `pt_dim` other than 2 and 3 the build returns without setting the pointer.
* Neighbour search of FSAI for SPDHSS-H2 (C98): the assertion on the number of candidates comes after they were written, so sets with many equal points overflow the buffers (C98_overflow); in three dimensions the third coordinate is ignored (C98_third_coordinate, C98_wrong_neighbour).
* FSAI for SPDHSS-H2 (by reading): `max_nnz` is computed from the number of neighbours only; coincident points can make the counted entries exceed it.
* Low rank plus diagonal preconditioner (proved, `C95_rows_missing`): `H2P_eval_kernel_matrix_OMP` is called with the threads of the handle; for kernels with several components (RPY) and several threads the last rows of the kernel matrices of the sample are never stored.
* Direct product (proved, `C100_small_team`): `direct_nbody` splits the points by `omp_get_max_threads()` but does not ask for that many threads; with a smaller team (dynamic adjustment, thread limits, nested regions) part of the reference result is zero.

## Axioms

As reported by `#print axioms` for every theorem named in MANIFEST.json:

* no axioms: `C01_out_of_range`, `Utils.C03_trailing_zero_dropped`, `Utils.C03_wrong_total_is_ub`

* `propext`: `Dense.C35_needs_increasing`, `IntVec.C02_zero_capacity_ub`, `IntVec.C42_in_place_needs_increasing`, `Per.C54_lattice`, `Utils.C38_empty_range_ub`

* `Quot.sound, propext`: `AFN.C64_more_threads_than_points`, `AFN.C66_zero`, `AFN.C73_exact_within`, `C01_guard_off_by_one`, `CSR.C04_bad_row_is_ub`, `CSR.C04_empty_is_ub`, `CSR.C05_get_found`, `CSR.C05_get_missing`, `DAG.C17_skipped_dependency_deadlocks`, `Dense.C37_mismatch`, `FKnn.C98_third_coordinate`, `MV.C24_extend`, `Part.C10_level_is_depth`, `Part.C10_parent_unique`, `Part.partition_returns`, `Sample.C82_down_size`, `ULV.C49_symmetric_blocks`, `Utils.C38_rand_sample`, `Utils.C38_too_many_diverges`

* `Classical.choice, Quot.sound, propext`: `AFN.C64_distinct`, `AFN.C64_fps`, `AFN.C64_fps_deterministic`, `AFN.C64_unique`, `AFN.C65_order`, `AFN.C65_repeated_points`, `AFN.C66_exact_knn`, `AFN.C67_exact`, `AFN.C67_fails`, `AFN.C67_fsai`, `AFN.C67_full`, `AFN.C67_posDef`, `AFN.C67_unique`, `AFN.C68_afn`, `AFN.C68_exact`, `AFN.C69_nystrom`, `AFN.C69_rank_zero`, `AFN.C73_afn`, `AFN.C73_approx_knn`, `AFN.C73_too_many`, `AFN.C78_build`, `AFN.C78_large_shift`, `AFN.C78_maxk_too_large`, `AFN.C78_overflow`, `AFN.C78_range`, `AFN.C78_rank`, `AFN.C78_rank_zero`, `AFN.C78_returns`, `AFN.C78_search`, `AFN.C78_too_few_points`, `AFN.C94_limits`, `AFN.C94_order`, `AFN.C94_random_nystrom`, `BJ.C93_build`, `BJ.C93_history`, `BJ.C93_layout`, `BJ.C93_leaf_order`, `BJ.C93_pcg`, `BJ.C93_solves`, `C01_blocks_balanced`, `C01_blocks_contiguous`, `C01_blocks_tile`, `CSR.C04_coo_to_csr`, `CSR.C05_lookup_of_coo`, `CSR.C05_set`, `CSRP.C96_parallel_spmv`, `CSRP.C97_spmv_limits`, `DAG.C15_at_most_once`, `DAG.C15_finished_once`, `DAG.C16_dependencies`, `DAG.C17_bounded_work`, `DAG.C17_fair_termination`, `DAG.C17_no_deadlock`, `DAG.C18_reset`, `DAG.C18_reuse`, `DAG.C19_results`, `DAG.C19_schedule_independent`, `DAG.C19_upward_equals_sequential`, `DAG.C41_in_bounds`, `DAG.C90_queue_exhausted`, `DAG.C90_queue_returns`, `DAG.upward_executable`, `DAG.upward_periodic_executable`, `Dense.C35_select_columns`, `Dense.C35_select_rows`, `Dense.C36_permute_rows`, `Dense.C37_blkdiag`, `Dense.C37_copy`, `Dense.C37_horzcat`, `Dense.C37_vertcat`, `FKnn.C98_distance`, `FKnn.C98_knn`, `FKnn.C98_overflow`, `FKnn.C98_wrong_neighbour`, `FSB.C99_block_fsai`, `FSB.C99_exact`, `FSB.C99_pattern`, `FSB.C99_pcg`, `FSB.C99_spd`, `FSB.C99_tree`, `ID.C28_best`, `ID.C28_exact`, `ID.C28_independent`, `ID.C28_returns`, `ID.C28_selection`, `ID.C29_ends`, `ID.C29_rank`, `ID.C47_absolute`, `ID.C47_absolute_returns`, `ID.C47_dependent_group_fails`, `ID.C47_relative`, `ID.C47_relative_returns`, `ID.C47_zero_matrix_fails`, `IO.C30_box_overrun`, `IO.C30_box_overrun_h2`, `IO.C30_box_overrun_hss`, `IO.C30_matvec_aot`, `IO.C30_matvec_jit`, `IO.C30_store_load`, `IO.C31_conversion_iff`, `IO.C31_coordinates`, `IO.C31_hex`, `IntVec.C02_history`, `IntVec.C42_gather`, `IntVec.C42_gather_in_place`, `Kern.C84_constants`, `Kern.C84_eval`, `Kern.C84_simd_independent`, `Kern.C84_symmetric`, `Kern.C84_translation`, `Kern.C85_contract`, `Kern.C85_one_lane`, `Kern.C85_product`, `Kern.C86_rpy_contract`, `Kern.C86_rpy_eval`, `Kern.C86_rpy_mv_contract`, `Kern.C86_rpy_single`, `Kern.C86_stokes_contract`, `Kern.C86_stokes_eval`, `Kern.C86_stokes_single`, `Kern.C87_rpy_continuous`, `Kern.C87_rpy_symmetric`, `Kern.C87_rpy_translation`, `Kern.C87_stokes_symmetric`, `Kern.C87_stokes_translation`, `Kern.C88_builtin_h2`, `Kern.C89_eval`, `Kern.C89_fewer`, `Kern.C89_fewer_neg`, `Kern.C89_more`, `Kern.C89_nearest`, `Kern.C89_no_overlap`, `Kern.C89_symmetric`, `Kern.C89_wrap_far`, `LRD.C95_low_rank`, `LRD.C95_pcg`, `LRD.C95_rows_missing`, `LRD.C95_too_many`, `Life.C91_exact`, `Life.C91_file`, `Life.C91_ordered`, `Life.C91_runs`, `Life.C91_spd`, `Life.C91_twice`, `Life.C91_zero_leak`, `MV.C20_matvec`, `MV.C21_linear`, `MV.C21_symmetric`, `MV.C22_history_independent`, `MV.C22_rank_zero_stale`, `MV.C23_endless_row_block`, `MV.C23_eval_bimv`, `MV.C23_jit_eq_aot`, `MV.C23_jit_product`, `MV.C24_ext_bimv`, `MV.C24_ext_mv`, `MV.C24_workbuf_size`, `MV.C25_eq_matvec`, `MV.C25_matmul`, `MV.C26_permutations`, `MV.C27_B_metadata`, `MV.C27_D_metadata`, `MV.C27_get_Bij`, `MV.C27_get_Dij`, `MV.C27_no_pair_is_ub`, `MV.C45_h2_build`, `MV.C46_far_entry`, `MV.C46_near_entry`, `MV.C46_near_matvec`, `MV.Per.C53_periodic_matvec`, `MV.Per.C56_eq_matvec`, `MV.Per.C56_periodic_matmul`, `MV.basis_nested`, `MV.cuts_of_workload`, `MV.demo_build`, `MV.demo_case`, `MV.demo_jit`, `MV.demo_valid`, `MV.entry_unique`, `MV.goodBimv_spec`, `MV.jit_ok`, `MV.line_build`, `Modes.C92_flags`, `Modes.C92_lattice`, `Modes.C92_limits`, `Modes.C92_no_lattice`, `Modes.C92_order_matters`, `Modes.C92_rows`, `NBody.C100_bounds`, `NBody.C100_direct_nbody`, `NBody.C100_small_team`, `PCG.C70_flag`, `PCG.C71_afn`, `PCG.C71_exact_precond`, `PCG.C71_finite`, `PCG.C71_optimal`, `PCG.C71_poly`, `PCG.C71_rate`, `Part.C06_no_ub`, `Part.C06_permutation`, `Part.C07_clusters`, `Part.C08_leaf_limits`, `Part.C09_endless`, `Part.C09_terminates`, `Part.C10_tree_arrays`, `Part.C11_exact_cover`, `Part.C11_h2_pairs`, `Part.C12_exact_cover`, `Part.C12_hss_pairs_exact`, `Part.C12_hss_siblings`, `Part.C12_single_child_aborts`, `Part.C13_recorded`, `Part.C14_periodic_cover`, `Part.C40_in_box`, `Part.C44_few_points_ub`, `Part.C44_single_leaf_ub`, `Part.C44_upward_graph`, `Part.C45_hss_marks`, `Part.C72_inadm_lists`, `Part.C72_tiny_boxes_overflow`, `Part.C72_wide`, `Part.example_partition`, `Part.line_partition`, `Part.rootBox_holds`, `Part.wide_partition`, `Per.C54_absolute`, `Per.C54_determined`, `Per.C54_ends`, `Per.C54_periodic_build`, `Per.C54_relative`, `Per.C54_root_not_admissible`, `Per.C54_scalar`, `Per.C55_entry_error`, `Per.C55_exact`, `Per.C55_matvec_error`, `Proxy.C74_hang`, `Proxy.C74_hang_constant`, `Proxy.C74_proxy`, `Proxy.C74_ring`, `Proxy.C74_rows_missing`, `Proxy.C75_again`, `Proxy.C75_file`, `Proxy.C75_levels`, `Proxy.C75_loose`, `Proxy.C75_text`, `Proxy.C75_tiny`, `Proxy.C76_far`, `Proxy.C76_surface`, `Proxy.C77_contains`, `Proxy.C77_file`, `Proxy.C77_tight`, `SPD.C57_spdhss_build`, `SPD.C57_then_cholesky`, `SPD.C58_all_pairs`, `SPD.C58_level_pairs`, `SPD.C59_diagonal_exact`, `SPD.C59_offdiagonal_projection`, `SPD.C60_full_rank_exact`, `SPD.C61_common_level`, `SPD.C61_complete`, `SPD.C61_lost`, `SPD.C61_lost_case`, `SPD.C61_sample_then_build`, `SPD.C61_sampling`, `SPD.C62_adequate_exact`, `SPD.C62_sample_build_exact`, `SPD.C63_first_small`, `SPD.C63_rank_bound`, `SPD.C63_rank_one`, `SPD.C63_tolerance`, `Sample.C79_box`, `Sample.C79_decompose`, `Sample.C79_unique`, `Sample.C79_zero`, `Sample.C80_chebyshev`, `Sample.C80_grid`, `Sample.C80_positions`, `Sample.C80_schedule`, `Sample.C80_select`, `Sample.C81_bound`, `Sample.C81_flat`, `Sample.C81_len`, `Sample.C81_select`, `Sample.C81_undefined`, `Sample.C82_above`, `Sample.C82_above_example`, `Sample.C82_coincide`, `Sample.C82_defined`, `Sample.C82_empty`, `Sample.C82_points`, `Sample.C82_schedule`, `Sample.C82_single`, `Sample.C82_single_example`, `Sample.C82_size`, `Sample.C82_source`, `Sample.C83_absolute`, `Sample.C83_build`, `Sample.C83_determined`, `Sample.C83_ends`, `Sample.C83_lost`, `Sample.C83_lost_example`, `Sample.C83_point`, `Sample.C83_rank_zero`, `Sample.C83_relative`, `Sample.C83_returns`, `Sample.C83_scalar`, `Sample.C83_skeletons`, `UJ.C50_absolute`, `UJ.C50_h2_build`, `UJ.C50_h2_determined`, `UJ.C50_h2_ends`, `UJ.C50_h2_returns`, `UJ.C50_h2_skeletons`, `UJ.C50_hss_build`, `UJ.C50_hss_determined`, `UJ.C50_hss_skeletons`, `UJ.C50_nonempty`, `UJ.C50_relative`, `UJ.C50_scalar`, `UJ.C51_skeleton_exact`, `UJ.C52_entry_error`, `UJ.C52_exact`, `UJ.C52_matvec_error`, `UJ.C90_all_empty`, `UJ.C90_far_lost`, `UJ.C90_jit_division_by_zero`, `UJ.C90_second_product`, `ULV.C32_lu_factorize_returns`, `ULV.C32_lu_solve`, `ULV.C32_lu_two_steps`, `ULV.C32_other_op`, `ULV.C33_chol_factorize_returns`, `ULV.C33_chol_solve`, `ULV.C33_chol_two_steps`, `ULV.C34_chol_logdet`, `ULV.C34_lu_logdet`, `ULV.C48_chol_iff_posDef`, `ULV.C48_chol_solve_after_failure`, `ULV.C48_lu_posDef`, `ULV.C48_lu_rejects_nonsingular`, `ULV.C48_lu_solve_after_failure`, `ULV.C49_chol_solve_then_matvec`, `ULV.C49_hss_build`, `ULV.C49_lu_solve_then_matvec`, `Utils.C03_partition_workload`, `Utils.C38_terminates`, `Utils.C39_admissible_iff_gap`, `Utils.C39_monotone`, `Utils.C39_points_separated`, `Utils.C39_symmetric`, `Utils.C43_transpose`

(All names are in the namespace `H2Pack`.)
