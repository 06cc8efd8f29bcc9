import Mathlib.Data.Finset.Insert
import Mathlib.Data.Finset.Erase
import Verif.Model.Base
import Verif.Spec.Lifecycle

/-!
# The memory owned by a handle (src/H2Pack_typedef.c, `H2P_init`, `H2P_run_*`, `H2P_destroy`, and the allocations of the other calls)

A handle has pointer fields (`Fld`) and arrays of pointers (`Con`).  A block is what one `malloc` returns; a structure `H2P_int_vec`,
`H2P_dense_mat`, `H2P_thread_buf` or `DAG_task_queue` is one block together with its own arrays (they are created and destroyed together).  Blocks are
numbered in the order of their allocation.  `malloc` does not fail (the code aborts then).  Work arrays that a call allocates and frees itself are not
part of the state.  `is_H2ERI` is 0 (it is set only by another library).
-/

namespace H2Pack.Life

/-- src/H2Pack_typedef.h:88-204: the pointer fields of `struct H2Pack` that own one block each; `self` is the handle itself.  `pp`, `krnl_param` and
`pkrnl_param` belong to the user. -/
inductive Fld
  | self | parent | children | pt_cluster | mat_cluster | n_child | node_level | node_height | level_n_node | level_nodes | height_n_node | height_nodes
  | r_inadm_pairs | r_adm_pairs | HSS_r_inadm_pairs | HSS_r_adm_pairs | node_inadm_lists | node_n_r_inadm | node_n_r_adm
  | coord_idx | fwd_pmt_idx | bwd_pmt_idx | B_p2i_rowptr | B_p2i_colidx | B_p2i_val | D_p2i_rowptr | D_p2i_colidx | D_p2i_val
  | ULV_Ls | B_nrow | B_ncol | D_nrow | D_ncol | B_ptr | D_ptr | coord | coord0 | enbox | root_enbox
  | per_lattices | per_adm_shifts | per_inadm_shifts | B_data | D_data | per_blk | xT | yT | pmt_x | pmt_y | upward_tq | B_blk | D_blk0 | D_blk1
deriving DecidableEq, Repr

/-- src/H2Pack_typedef.h:88-204: the fields that are arrays of pointers to structures. -/
inductive Con
  | J | J_coord | U | ULV_idx | ULV_p | ULV_Q | ULV_L | y0 | y1 | tb
deriving DecidableEq, Repr

/-- Where a pointer is stored: in a field, as the address of an array, or as element `i` of an array. -/
inductive Slot
  | one (f : Fld)
  | arr (c : Con)
  | el (c : Con) (i : Nat)
deriving DecidableEq, Repr

/-- The heap as far as it concerns one handle: the pointers (`none` is `NULL`), the lengths of the arrays of pointers, the blocks that are allocated, the
number of the next block, and the counters and flags of the handle. -/
structure Heap where
  ptr : Slot → Option Nat
  cap : Con → Nat
  live : Finset Nat
  next : Nat
  nNode : Nat
  nUJ : Nat
  nThread : Nat
  dim : Nat
  mode : Mode

/-- `s = malloc(...)` : the old value of the pointer is overwritten. -/
def malloc (h : Heap) (s : Slot) : Heap :=
  { h with ptr := Function.update h.ptr s (some h.next), live := insert h.next h.live, next := h.next + 1 }

/-- `c = malloc(n pointers)` and the elements set to `NULL`; the pointers in an old array are no longer reachable. -/
def mallocArr (h : Heap) (c : Con) (n : Nat) : Heap :=
  malloc { h with ptr := fun s => match s with
                    | .el c' i => if c' = c then none else h.ptr (.el c' i)
                    | s => h.ptr s,
                  cap := Function.update h.cap c n } (.arr c)

/-- `c = malloc(n pointers)`, then a structure for each element with `p`. -/
def mallocCon (h : Heap) (c : Con) (n : Nat) (p : Nat → Bool) : Heap :=
  ((List.range n).filter p).foldl (fun h i => malloc h (.el c i)) (mallocArr h c n)

/-- A block is allocated at this address. -/
def alive (h : Heap) (s : Slot) : Bool := match h.ptr s with
  | some b => decide (b ∈ h.live)
  | none => false

/-- The pointer can be read: the handle, and for an element the array, is allocated, and the index is in its range. -/
def readable (h : Heap) : Slot → Bool
  | .one .self => true
  | .one _ => alive h (.one .self)
  | .arr _ => alive h (.one .self)
  | .el c i => alive h (.one .self) && alive h (.arr c) && decide (i < h.cap c)

/-- `free(s)`: nothing for `NULL`; undefined for a block that is not allocated.  The pointer keeps its value. -/
def free (h : Heap) (s : Slot) : Res Heap :=
  if readable h s then
    match h.ptr s with
    | none => .ok h
    | some b => if b ∈ h.live then .ok { h with live := h.live.erase b } else .ub
  else .ub

/-- src/H2Pack_aux_structs.c:67-74, 165-172, 430-442, src/DAG_task_queue.c: `H2P_..._destroy(&s)`: free the structure and set the pointer to `NULL`. -/
def release (h : Heap) (s : Slot) : Res Heap := do
  let h ← free h s
  .ok { h with ptr := Function.update h.ptr s none }

/-- Heap effects of the calls: `one f`: `f = malloc`; `con c n p`: an array with structures; `renew f`: `free(f); f = malloc` (src/H2Pack_matmul.c:467-470 and
src/H2Pack_matmul_periodic.c:258-261 free both buffers before they allocate both, which makes no difference). -/
inductive Op
  | one (f : Fld)
  | con (c : Con) (n : Nat) (p : Nat → Bool)
  | renew (f : Fld)

/-- One effect. -/
def Op.apply (h : Heap) : Op → Res Heap
  | .one f => .ok (malloc h (.one f))
  | .con c n p => .ok (mallocCon h c n p)
  | .renew f => do
    let h ← free h (.one f)
    .ok (malloc h (.one f))

/-- Effects in order. -/
def ops (h : Heap) (L : List Op) : Res Heap := L.foldlM Op.apply h

/-- All elements. -/
def every : Nat → Bool := fun _ => true

/-- src/H2Pack_typedef.c:15-120, `H2P_init`: all pointers `NULL`, then the handle and its three block lists. -/
def init (dim nThread : Nat) : Heap :=
  let h : Heap := ⟨fun _ => none, fun _ => 0, ∅, 0, 0, 0, nThread, dim, ⟨false, false, false⟩⟩
  [Fld.self, .B_blk, .D_blk0, .D_blk1].foldl (fun h f => malloc h (.one f)) h

/-- src/H2Pack_partition.c:567-569, 606-617, 647-650, 670-671, 681-684, 703 (and src/H2Pack_partition_periodic.c:173-175, 212-223, 254-257): the
arrays of the tree, the buffers of the products, the thread buffers and the task queue; `shifts`: the extra arrays of src/H2Pack_partition_periodic.c:280-281. -/
def partOps (nThread : Nat) (shifts : Bool) : List Op :=
  [.one .coord_idx, .one .coord, .one .coord0, .one .parent, .one .children, .one .pt_cluster, .one .mat_cluster, .one .n_child, .one .node_level,
    .one .node_height, .one .level_n_node, .one .level_nodes, .one .height_n_node, .one .height_nodes, .one .enbox, .one .xT, .one .yT, .one .pmt_x,
    .one .pmt_y, .one .r_inadm_pairs, .one .r_adm_pairs] ++
  (if shifts then [.one .per_inadm_shifts, .one .per_adm_shifts] else []) ++ [.con .tb nThread every, .one .upward_tq]

/-- src/H2Pack_partition.c:455-456, 502-503, 527-528, `H2P_HSS_calc_adm_inadm_pairs`. -/
def pairOps : List Op := [.one .HSS_r_inadm_pairs, .one .HSS_r_adm_pairs, .one .node_inadm_lists, .one .node_n_r_inadm]

/-- src/H2Pack_build.c:62-74, 240-265 (316-318, 612-638 in HSS mode; src/H2Pack_build_with_sample_point.c:840-843, 986-1011), 678-680, 702, 769-771, 806, 924-926,
1014-1016, 1052, 1197-1208 and src/H2Pack_build_periodic.c:36, 73, 145-156: bases and skeletons for all nodes, the tables of the blocks, the blocks in ahead-of-time
mode, the periodic block, the permutations. -/
def matOps (nNode : Nat) (jit per : Bool) : List Op :=
  [.con .U nNode every, .con .J nNode every, .con .J_coord nNode every, .one .B_nrow, .one .B_ncol, .one .B_ptr, .one .node_n_r_adm,
    .one .B_p2i_rowptr, .one .B_p2i_colidx, .one .B_p2i_val] ++ (if jit then [] else [.one .B_data]) ++
  [.one .D_nrow, .one .D_ncol, .one .D_ptr, .one .D_p2i_rowptr, .one .D_p2i_colidx, .one .D_p2i_val] ++ (if jit then [] else [.one .D_data]) ++
  (if per then [.one .per_blk] else []) ++ [.one .fwd_pmt_idx, .one .bwd_pmt_idx]

/-- src/H2Pack_matvec.c:68-92, 234-249, src/H2Pack_matmul.c:16-38, 115-129: the buffers `y0` and `y1` are created by the first product. -/
def prodOps (h : Heap) : List Op :=
  (if h.ptr (.arr .y0) = none then [.con .y0 h.nNode every] else []) ++ (if h.ptr (.arr .y1) = none then [.con .y1 h.nNode every] else [])

/-- src/H2Pack_HSS_ULV.c:42-46, 399-403 (LU) and 627-630, 953-956 (Cholesky, no pivots). -/
def factOps (nNode : Nat) (idx : Nat → Bool) (piv : Option (Nat → Bool)) (q l : Nat → Bool) : List Op :=
  [.one .ULV_Ls, .con .ULV_idx nNode idx] ++ (match piv with | some p => [.con .ULV_p nNode p] | none => []) ++ [.con .ULV_Q nNode q, .con .ULV_L nNode l]

/-- The pointer is not `NULL`. -/
def has (h : Heap) (s : Slot) : Bool := (h.ptr s).isSome

/-- The effects of a construction, then `n_UJ = n_node` (src/H2Pack_build.c:62). -/
def build (h : Heap) (jit per : Bool) : Res Heap := do
  let h' ← ops h (matOps h.nNode jit per)
  .ok { h' with nUJ := h.nNode }

/-- One call on a handle.  A `NULL` array that the call certainly reads gives undefined behaviour: thread buffers, task queue (H2 mode) or neighbour lists
and pairs (HSS mode) for a construction; the bases and the counters of admissible pairs for a product; boxes for the HSS pairs; bases for a factorization. -/
def exec (h : Heap) : Call → Res Heap
  -- src/H2Pack_gen_proxy_point.c:361-413, called with `&h2pack->root_enbox`
  | .enclosingBox => ops h [.one .root_enbox]
  -- src/H2Pack_typedef.c:122-137
  | .runHSS => .ok { h with mode := { h.mode with hss := true, ewald := false } }
  | .runRPY => .ok { h with mode := { h.mode with rpy := true, ewald := false } }
  -- src/H2Pack_typedef.c:183-209
  | .runEwald =>
    if h.mode.hss || h.mode.rpy then .ok h
    else
      let h := { h with mode := ⟨false, false, true⟩ }
      if h.dim = 2 then ops h [.one .per_lattices] else if h.dim = 3 then ops h [.one .per_lattices] else .ok h
  -- src/H2Pack_partition.c:543-715
  | .partition n => do
    let h ← ops h (partOps h.nThread false)
    let h := { h with nNode := n }
    if h.mode.hss then ops h pairOps else .ok h
  -- src/H2Pack_partition_periodic.c:150-340
  | .partitionPer n => do
    let h ← ops h (partOps h.nThread true)
    .ok { h with nNode := n }
  -- src/H2Pack_partition.c:507-541
  | .hssPairs => if has h (.one .enbox) then ops h pairOps else .ub
  -- src/H2Pack_build.c:1143-1209
  | .build args jit =>
    if args then
      if has h (.arr .tb) && (if h.mode.hss then has h (.one .node_inadm_lists) && has h (.one .HSS_r_adm_pairs) else has h (.one .upward_tq)) then build h jit false
      else .ub
    else .ok h
  -- src/H2Pack_build_periodic.c:78-157
  | .buildPer args jit =>
    if args && jit then
      if has h (.arr .tb) && has h (.one .upward_tq) && (!h.mode.hss || has h (.one .HSS_r_adm_pairs)) then build h true true else .ub
    else .ok h
  -- src/H2Pack_build_with_sample_point.c:1023-1089
  | .buildSample args jit =>
    if args then
      if has h (.arr .tb) && has h (.one .upward_tq) && (!h.mode.hss || has h (.one .HSS_r_adm_pairs)) then build h jit false else .ub
    else .ok h
  -- src/H2Pack_matvec.c, src/H2Pack_matvec_periodic.c
  | .matvec per =>
    if has h (.arr .U) && has h (.one (if h.mode.hss then .node_n_r_inadm else .node_n_r_adm)) && (!per || has h (.one .per_adm_shifts)) then ops h (prodOps h) else .ub
  -- src/H2Pack_matmul.c:456-, src/H2Pack_matmul_periodic.c:245-
  | .matmul per nvec => do
    let h ← ops h [.renew .pmt_x, .renew .pmt_y]
    if nvec = 0 then .ok h
    else if has h (.arr .U) && has h (.one (if h.mode.hss then .node_n_r_inadm else .node_n_r_adm)) && (!per || has h (.one .per_adm_shifts)) then ops h (prodOps h)
    else .ub
  -- src/H2Pack_HSS_ULV.c:16-426
  | .lu idx piv q l => if h.mode.hss then (if has h (.arr .U) then ops h (factOps h.nNode idx (some piv) q l) else .ub) else .ok h
  -- src/H2Pack_HSS_ULV.c:600-975
  | .chol idx q l => if h.mode.hss then (if has h (.arr .U) then ops h (factOps h.nNode idx none q l) else .ub) else .ok h
  -- the solves allocate nothing that stays
  | .solve => .ok h

/-- A sequence of calls. -/
def run (h : Heap) (cs : List Call) : Res Heap := cs.foldlM exec h

/-- src/H2Pack_typedef.c:218-263: the order of the plain fields. -/
def plain : List Fld :=
  [.parent, .children, .pt_cluster, .mat_cluster, .n_child, .node_level, .node_height, .level_n_node, .level_nodes, .height_n_node, .height_nodes,
    .r_inadm_pairs, .r_adm_pairs, .HSS_r_inadm_pairs, .HSS_r_adm_pairs, .node_inadm_lists, .node_n_r_inadm, .node_n_r_adm, .coord_idx, .fwd_pmt_idx,
    .bwd_pmt_idx, .B_p2i_rowptr, .B_p2i_colidx, .B_p2i_val, .D_p2i_rowptr, .D_p2i_colidx, .D_p2i_val, .ULV_Ls, .B_nrow, .B_ncol, .D_nrow, .D_ncol, .B_ptr,
    .D_ptr, .coord, .coord0, .enbox, .root_enbox, .per_lattices, .per_adm_shifts, .per_inadm_shifts, .B_data, .D_data, .per_blk, .xT, .yT, .pmt_x, .pmt_y]

/-- One of the blocks of src/H2Pack_typedef.c:272-338: if the arrays are there, destroy the elements `0 .. n-1` of each, then free the arrays. -/
def destroyCons (cs : List Con) (test : List Con) (n : Nat) (h : Heap) : Res Heap :=
  if test.all (fun c => has h (.arr c)) then do
    let h ← (List.range n).foldlM (fun h i => cs.foldlM (fun h c => release h (.el c i)) h) h
    cs.foldlM (fun h c => free h (.arr c)) h
  else .ok h

/-- src/H2Pack_typedef.c:212-341, `H2P_destroy`. -/
def destroy (h : Heap) : Res Heap := do
  let h ← plain.foldlM (fun h f => free h (.one f)) h
  let h ← [Fld.upward_tq, .B_blk, .D_blk0, .D_blk1].foldlM (fun h f => release h (.one f)) h
  let h ← destroyCons [.J] [.J] h.nUJ h
  let h ← destroyCons [.ULV_idx] [.ULV_idx] h.nNode h
  let h ← destroyCons [.ULV_p] [.ULV_p] h.nNode h
  let h ← destroyCons [.J_coord] [.J_coord] h.nUJ h
  let h ← destroyCons [.U] [.U] h.nUJ h
  -- src/H2Pack_typedef.c:309-318: only `ULV_Q` is tested
  let h ← destroyCons [.ULV_Q, .ULV_L] [.ULV_Q] h.nNode h
  let h ← destroyCons [.y0, .y1] [.y0, .y1] h.nNode h
  let h ← destroyCons [.tb] [.tb] h.nThread h
  free h (.one .self)

/-- src/H2Pack_file_IO.c:197-755, `H2P_read_from_file`: lines 258, 283-294 (HSS pairs or H2 pairs), 311-316, 343-346, 361-380 and 548-556 (a basis for every node), 388-390, 412-414,
451-453, 484-500 (skeletons if the file has them), 514, 529, 577, 636-638, 706-708, 721-724, 730-742, 744-749. -/
def readOps (n nThread : Nat) (hss skel jit : Bool) : List Op :=
  (if hss then [.one .HSS_r_inadm_pairs, .one .HSS_r_adm_pairs] else [.one .r_inadm_pairs, .one .r_adm_pairs]) ++
  [.one .node_level, .one .pt_cluster, .one .mat_cluster, .one .n_child, .one .children, .one .parent, .one .level_n_node, .one .height_n_node, .one .level_nodes,
    .one .height_nodes, .con .U n every, .con .J n (fun _ => skel), .con .J_coord n (fun _ => skel), .one .B_nrow, .one .B_ncol, .one .B_ptr, .one .D_nrow,
    .one .D_ncol, .one .D_ptr, .one .coord, .one .coord0, .one .coord_idx] ++
  (if skel && jit then [] else [.one .B_data, .one .D_data]) ++
  [.one .node_n_r_adm, .one .B_p2i_rowptr, .one .B_p2i_colidx, .one .B_p2i_val, .one .D_p2i_rowptr, .one .D_p2i_colidx, .one .D_p2i_val, .one .xT, .one .yT,
    .one .pmt_x, .one .pmt_y, .one .fwd_pmt_idx, .one .bwd_pmt_idx, .one .enbox, .one .node_inadm_lists, .one .node_n_r_inadm, .con .tb nThread every]

/-- src/H2Pack_file_IO.c:197-755: the new handle (for readable files). -/
def readFile (dim nThread n : Nat) (hss skel jit : Bool) : Res Heap := do
  let h ← ops (init dim nThread) (readOps n nThread hss skel jit)
  .ok { h with nNode := n, nUJ := n, mode := ⟨hss, false, false⟩ }

/-- src/H2Pack_SPDHSS_H2.c:1263-1629: the handle that `H2P_SPDHSS_H2_build` returns; lines 1282-1283, 1296-1307, 1344-1350, 1367-1370, 1388-1404, 1424-1427, 1457-1468, 1519-1522,
1553-1565, 1609-1623 (all arrays are copies). -/
def spdOps (n nThread : Nat) : List Op :=
  [.one .coord_idx, .one .coord, .one .parent, .one .children, .one .pt_cluster, .one .mat_cluster, .one .n_child, .one .node_level, .one .node_height,
    .one .level_n_node, .one .level_nodes, .one .height_n_node, .one .height_nodes, .one .enbox, .one .r_inadm_pairs, .one .r_adm_pairs, .one .HSS_r_inadm_pairs,
    .one .HSS_r_adm_pairs, .one .node_inadm_lists, .one .node_n_r_inadm, .one .node_n_r_adm, .con .tb nThread every, .con .U n every, .one .B_nrow, .one .B_ncol, .one .B_ptr,
    .one .B_p2i_rowptr, .one .B_p2i_colidx, .one .B_p2i_val, .one .B_data, .one .D_nrow, .one .D_ncol, .one .D_ptr, .one .D_p2i_rowptr, .one .D_p2i_colidx,
    .one .D_p2i_val, .one .D_data, .one .fwd_pmt_idx, .one .bwd_pmt_idx, .one .xT, .one .yT, .one .pmt_x, .one .pmt_y]

/-- src/H2Pack_SPDHSS_H2.c:1263-1629. -/
def spdHandle (dim nThread n : Nat) : Res Heap := do
  let h ← ops (init dim nThread) (spdOps n nThread)
  .ok { h with nNode := n, nUJ := n, mode := ⟨true, false, false⟩ }

end H2Pack.Life
