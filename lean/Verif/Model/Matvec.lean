import Verif.Model.Partition
import Verif.Model.BlockPart
import Verif.Spec.ClusterTree
import Mathlib.Algebra.BigOperators.Group.Finset.Basic
import Mathlib.Algebra.Ring.Basic

/-!
# H2 matvec with stored generator matrices (src/H2Pack_matvec.c, src/H2Pack_build.c:1192-1208, src/utils.c:124-153)

Numbers are elements of a commutative ring (exact arithmetic).  A buffer is a total function from positions to
numbers; the sizes of the buffers are the subject of `DenseMat`.  After `H2P_dense_mat_resize` the contents of a
buffer are arbitrary (either left over from an earlier use or freshly allocated): they are given by the `junk`
functions of `Env`, over which all theorems quantify.

Parallel regions: the iterations of one level of the sweeps are executed in an arbitrary order
(`Env.fwdOrd`, `Env.bwdOrd`; each iteration touches only data of its own node and of its children).  The tasks of
the intermediate and dense multiplications are executed in an arbitrary order by arbitrary threads
(`Env.schedB` etc. are lists of `(tid, block)`); tasks of different threads only write thread-private memory
(`y1` rows and `y` buffers of the thread), so interleaving them inside a task has no further effect.
-/

namespace H2Pack.MV
open H2Pack.Part (Arr kids)

section
variable {K : Type}

/-- A matrix: sizes and entries (`data[i*ld+j]`). -/
structure Mat (K : Type) where
  nrow : Nat
  ncol : Nat
  e : Nat → Nat → K

/-- The part of `struct H2Pack` (src/H2Pack_typedef.h) that matvec reads.  `adm`, `inadm`, `minAdm` are the
`HSS_` versions when `is_HSS` is set; `mark` is `node_n_r_adm` (`node_n_r_inadm` when `is_HSS` is set);
`B i` is the block at `B_ptr[i]` for pair `i`; `D i` are the diagonal blocks of the leaves for `i < n_leaf_node`
and then the blocks of the inadmissible pairs. -/
structure Rep (K : Type) where
  arr : Arr K
  nPoint : Nat
  kdim : Nat
  coordIdx : Nat → Nat
  U : Nat → Mat K
  adm : List (Nat × Nat)
  inadm : List (Nat × Nat)
  B : Nat → Mat K
  D : Nat → Mat K
  minAdm : Nat
  mark : Nat → Nat

namespace Rep
variable (R : Rep K)

/-- `krnl_mat_size`. -/
def size : Nat := R.nPoint * R.kdim

/-- src/H2Pack_partition.c:696-700: `mat_cluster[2*v]`, `mat_cluster[2*v+1]+1`. -/
def rowS (v : Nat) : Nat := R.kdim * R.arr.ptS v
def rowE (v : Nat) : Nat := R.kdim * (R.arr.ptE v + 1)

/-- `leaf_nodes[i] = height_nodes[i]`. -/
def leaf (i : Nat) : Nat := R.arr.heightNodes i

/-- `level_nodes + l * n_leaf_node`, the first `level_n_node[l]` entries. -/
def levelList (l : Nat) : List Nat := (List.range (R.arr.levelN l)).map fun r => R.arr.levelNodes (l * R.arr.nLeaf + r)

end Rep

/-- Everything that is not determined by the H2 matrix and the input vector: number of threads, team size of the
parallel region without `num_threads` clause, contents of buffers, schedules. -/
structure Env (K : Type) where
  nThread : Nat
  team : Nat
  /-- contents of `y0[node]`, `y1[node]`, `y1_tmp` (when used for `node`), pushed `y1[node]` after resizing, and
  of the permuted output vectors before they are filled -/
  junk0 : Nat → Nat → K
  junk1 : Nat → Nat → K
  junkT : Nat → Nat → K
  junkP : Nat → Nat → K
  /-- headers of `y0` left by the initialization or an earlier call -/
  nrow0 : Nat → Nat
  ncol1 : Nat → Nat
  fwdOrd : Nat → List Nat
  bwdOrd : Nat → List Nat
  nB : Nat
  blkB : Nat → Nat
  schedB : List (Nat × Nat)
  nD0 : Nat
  blkD0 : Nat → Nat
  schedD0 : List (Nat × Nat)
  nD1 : Nat
  blkD1 : Nat → Nat
  schedD1 : List (Nat × Nat)
  redOrd : List Nat

/-- Memory cells: `y1[node]->data[k]`, `thread_buf[tid]->y[k]`, `y_[k]` (the output in the permuted order). -/
inductive Loc where
  | y1 (node k : Nat)
  | ty (tid k : Nat)
  | y (k : Nat)
deriving DecidableEq

end

section
variable {K : Type} [CommRing K]

/-! ## BLAS and BI_GEMV -/

/-- `cblas_dgemv` with `CblasNoTrans`, alpha = 1 and beta = 0 (`acc = false`) or 1: as in all BLAS
implementations nothing is done when a dimension is zero. -/
def gemvN (m n : Nat) (a : Nat → Nat → K) (x : Nat → K) (acc : Bool) (y : Nat → K) : Nat → K :=
  if m = 0 ∨ n = 0 then y
  else fun i => if i < m then (∑ j ∈ Finset.range n, a i j * x j) + (if acc then y i else 0) else y i

/-- `cblas_dgemv` with `CblasTrans`; the matrix is `m`-by-`n`. -/
def gemvT (m n : Nat) (a : Nat → Nat → K) (x : Nat → K) (acc : Bool) (y : Nat → K) : Nat → K :=
  if m = 0 ∨ n = 0 then y
  else fun j => if j < n then (∑ i ∈ Finset.range m, a i j * x i) + (if acc then y j else 0) else y j

/-- `mem[a] += v`. -/
def addAt {ι : Type} [DecidableEq ι] (mem : ι → K) (a : ι) (v : K) : ι → K := Function.update mem a (mem a + v)

variable {ι : Type} [DecidableEq ι]

/-- src/H2Pack_matvec.c:32-49: the body of the loop over pairs of rows; `a0`, `a1` are the addresses of
`x_out_0[·]`, `x_out_1[·]`. -/
def biRow2 (ncol : Nat) (a : Nat → Nat → K) (x0 x1 : Nat → K) (a0 a1 : Nat → ι) (mem : ι → K) (i : Nat) : ι → K :=
  let x1i0 := x1 (i + 0)
  let x1i1 := x1 (i + 1)
  let r := (List.range ncol).foldl (fun (s : K × K × (ι → K)) j =>
    let x0j := x0 j
    let sum0 := s.1 + a (i + 0) j * x0j
    let sum1 := s.2.1 + a (i + 1) j * x0j
    let tmp := x1i0 * a (i + 0) j
    let tmp := tmp + x1i1 * a (i + 1) j
    (sum0, sum1, addAt s.2.2 (a1 j) tmp)) (0, 0, mem)
  addAt (addAt r.2.2 (a0 (i + 0)) r.1) (a0 (i + 1)) r.2.1

/-- src/H2Pack_matvec.c:52-62: the body of the loop over the remaining rows. -/
def biRow1 (ncol : Nat) (a : Nat → Nat → K) (x0 x1 : Nat → K) (a0 a1 : Nat → ι) (mem : ι → K) (i : Nat) : ι → K :=
  let x1i := x1 i
  let r := (List.range ncol).foldl (fun (s : K × (ι → K)) j =>
    (s.1 + a i j * x0 j, addAt s.2 (a1 j) (x1i * a i j))) (0, mem)
  addAt r.2 (a0 i) r.1

/-- src/H2Pack_matvec.c:25-63 `CBLAS_BI_GEMV`. -/
def biGemv (nrow ncol : Nat) (a : Nat → Nat → K) (x0 x1 : Nat → K) (a0 a1 : Nat → ι) (mem : ι → K) : ι → K :=
  let mem := (List.range (nrow / 2)).foldl (fun mem t => biRow2 ncol a x0 x1 a0 a1 mem (2 * t)) mem
  (List.range (nrow - nrow / 2 * 2)).foldl (fun mem t => biRow1 ncol a x0 x1 a0 a1 mem (nrow / 2 * 2 + t)) mem

/-! ## Forward transformation -/

/-- `y0[node]`: number of rows and data. -/
abbrev Y0 (K : Type) := Nat → Nat × (Nat → K)

/-- src/H2Pack_matvec.c:137-150: the loop over the children, from child number `k` on. -/
def fwdKids (Un : Mat K) (y0 : Y0 K) : List Nat → Nat → Nat → (Nat → K) → (Nat → K)
  | [], _, _, y => y
  | c :: cs, k, srow, y =>
    let y := gemvT (y0 c).1 Un.ncol (fun i j => Un.e (srow + i) j) (y0 c).2 (decide (k ≠ 0)) y   -- lines 144-147
    fwdKids Un y0 cs (k + 1) (srow + (y0 c).1) y                                                 -- line 148

/-- src/H2Pack_matvec.c:119-151: one iteration of the loop over the nodes of a level. -/
def fwdNode (R : Rep K) (E : Env K) (x : Nat → K) (y0 : Y0 K) (v : Nat) : Y0 K :=
  let Un := R.U v
  if R.arr.nChild v = 0 then
    Function.update y0 v (Un.ncol, gemvT Un.nrow Un.ncol Un.e (fun k => x (R.rowS v + k)) false (E.junk0 v))
  else
    Function.update y0 v (Un.ncol, fwdKids Un y0 (kids R.arr v) 0 0 (E.junk0 v))

/-- src/H2Pack_matvec.c:95-176 `H2P_matvec_fwd_transform`: levels `max_level` down to `min_adm_level`. -/
def fwdTransform (R : Rep K) (E : Env K) (x : Nat → K) : Y0 K :=
  ((List.range' R.minAdm (R.arr.maxLevel + 1 - R.minAdm)).reverse.flatMap E.fwdOrd).foldl (fwdNode R E x)
    (fun v => (E.nrow0 v, E.junk0 v))

/-! ## Intermediate multiplication -/

/-- src/H2Pack_matvec.c:253-257: `y1[i]->ld` and `y1[i]->ncol`. -/
def y1ld (R : Rep K) (v : Nat) : Nat := if R.mark v ≠ 0 then (R.U v).ncol else 0
def y1ncol (R : Rep K) (E : Env K) (v : Nat) : Nat := if R.mark v ≠ 0 then (R.U v).ncol else E.ncol1 v

/-- src/H2Pack_matvec.c:258-267: each thread of the team clears its row of every visited `y1[i]`; and
src/H2Pack_matvec.c:1190-1202: the thread buffers and the output are cleared. -/
def initMem (R : Rep K) (E : Env K) : Loc → K
  | .y1 v k => if y1ld R v ≠ 0 ∧ k < E.team * y1ncol R E v then 0 else E.junk1 v k
  | .ty _ _ => 0
  | .y _ => 0

/-- src/H2Pack_matvec.c:322-379: one pair. -/
def intmdPair (R : Rep K) (E : Env K) (x : Nat → K) (y0 : Y0 K) (tid : Nat) (mem : Loc → K) (i : Nat) : Loc → K :=
  let n0 := (R.adm.getD i (0, 0)).1
  let n1 := (R.adm.getD i (0, 0)).2
  let l0 := R.arr.level n0
  let l1 := R.arr.level n1
  let Bi := R.B i
  if l0 = l1 then                                                                       -- line 334
    biGemv Bi.nrow Bi.ncol Bi.e (y0 n1).2 (y0 n0).2
      (fun k => .y1 n0 (tid * y1ncol R E n0 + k)) (fun k => .y1 n1 (tid * y1ncol R E n1 + k)) mem
  else if l1 < l0 then                                                                  -- line 349
    biGemv Bi.nrow Bi.ncol Bi.e (fun k => x (R.rowS n1 + k)) (y0 n0).2
      (fun k => .y1 n0 (tid * y1ncol R E n0 + k)) (fun k => .ty tid (R.rowS n1 + k)) mem
  else                                                                                  -- line 366
    biGemv Bi.nrow Bi.ncol Bi.e (y0 n1).2 (fun k => x (R.rowS n0 + k))
      (fun k => .ty tid (R.rowS n0 + k)) (fun k => .y1 n1 (tid * y1ncol R E n1 + k)) mem

/-- The loop `for (i = blk[b]; i < blk[b+1]; i++)` of a task. -/
def taskBlock {σ : Type} (blk : Nat → Nat) (f : σ → Nat → σ) (s : σ) (b : Nat) : σ :=
  (List.range' (blk b) (blk (b + 1) - blk b)).foldl f s

/-- src/H2Pack_matvec.c:385-437 `H2P_matvec_intmd_mult_AOT`, step 2. -/
def intmdAOT (R : Rep K) (E : Env K) (x : Nat → K) (y0 : Y0 K) (mem : Loc → K) : Loc → K :=
  E.schedB.foldl (fun mem tb => taskBlock E.blkB (intmdPair R E x y0 tb.1) mem tb.2) mem

/-- src/H2Pack_matvec.c:287-294: rows 1, 2, ... of a thread-local buffer are added to row 0. -/
def sumRows (nThread ncol : Nat) (d : Nat → K) : Nat → K :=
  (List.range' 1 (nThread - 1)).foldl (fun d j =>
    (List.range ncol).foldl (fun d k => Function.update d k (d k + d (j * ncol + k))) d) d

/-- src/H2Pack_matvec.c:272-299 `H2P_matvec_sum_y1_thread`. -/
def sumY1 (R : Rep K) (E : Env K) (mem : Loc → K) : Loc → K
  | .y1 v k => if v < R.arr.nNode ∧ y1ld R v ≠ 0 then sumRows E.nThread (y1ncol R E v) (fun k => mem (.y1 v k)) k else mem (.y1 v k)
  | l => mem l

/-! ## Backward transformation -/

/-- `y1[·]->ld` and the memory. -/
structure BwdSt (K : Type) where
  ld : Nat → Nat
  mem : Loc → K

/-- src/H2Pack_matvec.c:818-836: pushing `y1_tmp` down to the children. -/
def pushKids (R : Rep K) (E : Env K) (tmp : Nat → K) : List Nat → Nat → BwdSt K → BwdSt K
  | [], _, s => s
  | c :: cs, idx, s =>
    let len := (R.U c).ncol                                                             -- line 822
    let s : BwdSt K :=
      if s.ld c = 0 then
        ⟨Function.update s.ld c 1, fun l => match l with                                -- lines 826-827
          | .y1 v k => if v = c then (if k < len then tmp (idx + k) else E.junkP c k) else s.mem (.y1 v k)
          | l => s.mem l⟩
      else
        ⟨s.ld, (List.range len).foldl (fun mem k => addAt mem (.y1 c k) (tmp (idx + k))) s.mem⟩   -- lines 829-831
    pushKids R E tmp cs (idx + len) s                                                   -- line 833

/-- src/H2Pack_matvec.c:793-836: one node. -/
def bwdNode (R : Rep K) (E : Env K) (s : BwdSt K) (v : Nat) : BwdSt K :=
  if s.ld v = 0 then s                                                                  -- line 797
  else
    let Un := R.U v
    let tmp := gemvN Un.nrow Un.ncol Un.e (fun k => s.mem (.y1 v k)) false (E.junkT v)  -- lines 799-805
    if R.arr.nChild v = 0 then
      ⟨s.ld, (List.range (R.rowE v - R.rowS v)).foldl (fun mem k => addAt mem (.y (R.rowS v + k)) (tmp k)) s.mem⟩
    else pushKids R E tmp (kids R.arr v) 0 s

/-- src/H2Pack_matvec.c:767-861 `H2P_matvec_bwd_transform`. -/
def bwdTransform (R : Rep K) (E : Env K) (s : BwdSt K) : BwdSt K :=
  ((List.range' R.minAdm (R.arr.maxLevel + 1 - R.minAdm)).flatMap E.bwdOrd).foldl (bwdNode R E) s

/-! ## Dense multiplication -/

/-- src/H2Pack_matvec.c:882-896: one diagonal block. -/
def dense0 (R : Rep K) (x : Nat → K) (tid : Nat) (mem : Loc → K) (i : Nat) : Loc → K :=
  let v := R.leaf i
  let Di := R.D i
  if Di.nrow = 0 ∨ Di.ncol = 0 then mem
  else (List.range Di.nrow).foldl (fun mem r =>
    addAt mem (.ty tid (R.rowS v + r)) (∑ j ∈ Finset.range Di.ncol, Di.e r j * x (R.rowS v + j))) mem

/-- src/H2Pack_matvec.c:919-940: one inadmissible pair. -/
def dense1 (R : Rep K) (x : Nat → K) (tid : Nat) (mem : Loc → K) (i : Nat) : Loc → K :=
  let n0 := (R.inadm.getD i (0, 0)).1
  let n1 := (R.inadm.getD i (0, 0)).2
  let Di := R.D (R.arr.nLeaf + i)
  biGemv Di.nrow Di.ncol Di.e (fun k => x (R.rowS n1 + k)) (fun k => x (R.rowS n0 + k))
    (fun k => .ty tid (R.rowS n0 + k)) (fun k => .ty tid (R.rowS n1 + k)) mem

/-- src/H2Pack_matvec.c:943-1000 `H2P_matvec_dense_mult_AOT`. -/
def denseAOT (R : Rep K) (E : Env K) (x : Nat → K) (mem : Loc → K) : Loc → K :=
  E.schedD1.foldl (fun mem tb => taskBlock E.blkD1 (dense1 R x tb.1) mem tb.2)
    (E.schedD0.foldl (fun mem tb => taskBlock E.blkD0 (dense0 R x tb.1) mem tb.2) mem)

/-! ## The whole -/

/-- src/H2Pack_matvec.c:1247-1254: the reduction executed by thread `me`. -/
def reduceBlk (size nThread : Nat) (mem : Loc → K) (me : Nat) : Loc → K :=
  match calcBlockSposLen size nThread me with
  | none => mem
  | some b =>
    (List.range nThread).foldl (fun mem tid =>
      (List.range b.len.toNat).foldl (fun mem t =>
        addAt mem (.y (b.spos.toNat + t)) (mem (.ty tid (b.spos.toNat + t)))) mem) mem

/-- src/H2Pack_build.c:1196-1206: the permutation index arrays (`i` outer, `j` inner loop). -/
def pmtIdx (R : Rep K) (g : (Nat → Nat) × (Nat → Nat)) : (Nat → Nat) × (Nat → Nat) :=
  (List.range R.nPoint).foldl (fun s i =>
    (List.range R.kdim).foldl (fun (s : (Nat → Nat) × (Nat → Nat)) j =>
      (Function.update s.1 (i * R.kdim + j) (R.coordIdx i * R.kdim + j),
       Function.update s.2 (R.coordIdx i * R.kdim + j) (i * R.kdim + j))) s) g

/-- src/utils.c:124-153 `gather_vector_elements`. -/
def gather (n : Nat) (idx : Nat → Nat) (src dst : Nat → K) : Nat → K :=
  (List.range n).foldl (fun d i => Function.update d i (src (idx i))) dst

/-- src/H2Pack_matvec.c:1149-1153 `H2P_permute_vector_forward` into a buffer with contents `d`. -/
def permuteFwd (R : Rep K) (g : (Nat → Nat) × (Nat → Nat)) (x d : Nat → K) : Nat → K := gather R.size (pmtIdx R g).1 x d

/-- src/H2Pack_matvec.c:1156-1160 `H2P_permute_vector_backward`. -/
def permuteBwd (R : Rep K) (g : (Nat → Nat) × (Nat → Nat)) (x d : Nat → K) : Nat → K := gather R.size (pmtIdx R g).2 x d

/-- src/H2Pack_matvec.c:1215-1256, AOT mode: the output in the permuted order from the input in the permuted
order. -/
def matvecPmt (R : Rep K) (E : Env K) (px : Nat → K) : Nat → K :=
  let y0 := fwdTransform R E px
  let mem := sumY1 R E (intmdAOT R E px y0 (initMem R E))
  let s := bwdTransform R E ⟨y1ld R, mem⟩
  let mem := denseAOT R E px s.mem
  let mem := E.redOrd.foldl (reduceBlk R.size E.nThread) mem
  fun k => mem (.y k)

/-- src/H2Pack_matvec.c:1162-1285 `H2P_matvec` with `BD_JIT = 0`; `g` are the initial contents of the index
arrays, `dx`, `dy` those of `pmt_x` and of the output vector. -/
def matvec (R : Rep K) (E : Env K) (g : (Nat → Nat) × (Nat → Nat)) (dx dy : Nat → K) (x : Nat → K) : Nat → K :=
  let px := permuteFwd R g x dx                   -- line 1184
  permuteBwd R g (matvecPmt R E px) dy            -- line 1278

end

end H2Pack.MV
