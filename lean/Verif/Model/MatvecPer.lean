import Verif.Model.Metadata

/-!
# Periodic systems: root block and matvec (src/H2Pack_build_periodic.c:18-74, src/H2Pack_matvec_periodic.c, src/H2Pack_utils.c:526-535)

As in `Model/Matvec.lean` numbers are elements of a commutative ring and buffers are total functions with arbitrary
previous contents.  The iterations of the two parallel loops over `node0` are executed in an arbitrary order
(`PerEnv.ordB`, `PerEnv.ordD`): an iteration only writes `y1[node0]`, the rows of `node0` of the output and buffers of its
own thread.
-/

namespace H2Pack.MV
open H2Pack.Part (Arr kids)

section
variable {K : Type} [CommRing K]

/-- src/H2Pack_utils.c:526-535 `H2P_shift_coord` on a matrix with `nrow` rows, `ncol` columns and leading dimension `ld`. -/
def shiftCoord (nrow ncol ld : Nat) (shift : Nat → K) (scale : K) (c : Nat → K) : Nat → K :=
  (List.range nrow).foldl (fun c i => (List.range ncol).foldl (fun c j =>
    Function.update c (i * ld + j) (c (i * ld + j) + scale * shift i)) c) c

/-- What a periodic system holds besides the data of the JIT mode.  `J.R.adm`, `J.R.inadm` are the (directed) pairs of
`r_adm_pairs`, `r_inadm_pairs`, `J.R.mark` is `node_n_r_adm`; `J.bimv` is not used.  `pdim` is `pt_dim` (`J.xdim` is
`xpt_dim`), `admShift`, `inadmShift` are `per_adm_shifts`, `per_inadm_shifts`, `perBlk` is `per_blk` and `mv` is `krnl_mv`;
`pad` is `1e100`; `junkC i` are the contents of `coord1_s` before it is used for block `i`. -/
structure Per (K : Type) where
  J : JIT K
  pdim : Nat
  admShift : Nat → K
  inadmShift : Nat → K
  perBlk : Nat → K
  mv : Option (KMv K)
  pad : K
  junkC : Nat → Nat → K

/-- What is not determined by the matrix and the input vector, besides `Env`: order of the node loops, numbers of rows of
`y1[i]` left by an earlier call, contents of the buffers of the transpositions (`g0`, `g1`, `gr`), of `xT` and of `y1[root]`
after resizing. -/
structure PerEnv (K : Type) where
  E : Env K
  ordB : List Nat
  ordD : List Nat
  nrow1 : Nat → Nat
  g0 : Nat → Nat → K
  g1 : Nat → Nat → K
  gr : Nat → K
  gx : Nat → K
  junkR : Nat → K

namespace Per
variable (P : Per K)

/-- src/H2Pack_matvec_periodic.c:135, 160-161: the array `shift` for number `i` of the shifts `sh` (entries beyond `pt_dim`
stay 0). -/
def shiftOf (sh : Nat → K) (i : Nat) : Nat → K := fun k => if k < P.pdim then sh (i * P.pdim + k) else 0

/-- src/H2Pack_matvec_periodic.c:172-173, 204-206, 350-352: the points `q` are copied to `coord1_s` (leading dimension = number of
points) and shifted. -/
def shifted (q : (Nat → K) × Nat × Nat) (shift junk : Nat → K) : (Nat → K) × Nat × Nat :=
  (shiftCoord P.J.xdim q.2.2 q.2.2 shift 1 (copyMatrix P.J.xdim q.2.2 q.1 q.2.1 junk q.2.2), q.2.2, q.2.2)

/-- One of the two variants of the product with a block: `H2P_ext_krnl_mv` (input `xm`, output addresses `am`, leading
dimensions `ldi`, `ldo`), or `krnl_eval` into `mat0` followed by `CBLAS_GEMV` with beta = 1 (input `xe`, output addresses
`ae`).  `id` selects the previous contents of the buffers. -/
def call (id nrow ncol : Nat) (p q : (Nat → K) × Nat × Nat) (xm : Nat → K) (ldi : Nat) (am : Nat → Loc) (ldo : Nat)
    (xe : Nat → K) (ae : Nat → Loc) (mem : Loc → K) : Loc → K :=
  match P.mv with
  | some f =>
    extMv P.J.simd P.J.xdim P.J.R.kdim P.pad f p.1 p.2.1 p.2.2 q.1 q.2.1 q.2.2 xm ldi am ldo (P.J.junkW id) mem
  | none =>
    let mat := evalAt P.J p q 0 ncol (P.J.junkM id)
    if nrow = 0 ∨ ncol = 0 then mem
    else (List.range nrow).foldl (fun mem r =>
      addAt mem (ae r) (∑ c ∈ Finset.range ncol, mat (r * ncol + c) * xe c)) mem

/-- src/H2Pack_matvec_periodic.c:402: `need_trans` (`BD_JIT` is 1). -/
def needTrans : Bool := P.mv.isSome && decide (P.J.R.kdim > 1)

/-- src/H2Pack_matvec_periodic.c:412: the vector `y_` is `yT` (cells `ty 0`) or `pmt_y`. -/
def yLoc (k : Nat) : Loc := if P.needTrans then .ty 0 k else .y k

/-- The entries `(colidx, val)` of a row of the index matrix, in the order of the loop
`for (i = B_p2i_rowptr[node0]; i < B_p2i_rowptr[node0 + 1]; i++)` (src/H2Pack_matvec_periodic.c:154, 327). -/
def csrRow (M : Meta) (r : Nat) : List (Int × Int) :=
  (List.range' (M.csr.rp r) (M.csr.rp (r + 1) - M.csr.rp r)).map fun k => (M.csr.col k, M.csr.val k)

/-- src/H2Pack_matvec_periodic.c:156-262: one entry `(node1, pair_idx + 1)` of row `n0` of the index matrix. -/
def intmdPair (M : Meta) (x : Nat → K) (y0 : Y0 K) (n0 : Nat) (mem : Loc → K) (ent : Int × Int) : Loc → K :=
  let J := P.J
  let R := J.R
  let n1 := ent.1.toNat
  let i := (ent.2 - 1).toNat
  let l0 := R.arr.level n0
  let l1 := R.arr.level n1
  let shift := P.shiftOf P.admShift i
  let nrow := M.nrow i
  let ncol := M.ncol i
  let kd := R.kdim
  let n := R.nPoint
  if l0 = l1 then                                                                       -- line 170
    P.call i nrow ncol (J.jPts n0) (P.shifted (J.jPts n1) shift (P.junkC i))
      (y0 n1).2 (ncol / kd) (fun k => .y1 n0 k) (nrow / kd)
      (y0 n1).2 (fun k => .y1 n0 k) mem
  else if l0 > l1 then                                                                  -- line 198
    P.call i nrow ncol (J.jPts n0) (P.shifted (J.cPts n1) shift (P.junkC i))
      (fun k => x (R.arr.ptS n1 + k)) n (fun k => .y1 n0 k) (nrow / kd)
      (fun k => x (R.rowS n1 + k)) (fun k => .y1 n0 k) mem
  else                                                                                  -- line 233
    P.call i nrow ncol (J.cPts n0) (P.shifted (J.jPts n1) shift (P.junkC i))
      (y0 n1).2 (ncol / kd) (fun k => P.yLoc (R.arr.ptS n0 + k)) n
      (y0 n1).2 (fun k => P.yLoc (R.rowS n0 + k)) mem

/-- src/H2Pack_matvec_periodic.c:139-144: `y1[i]->data[0 .. ncol)` is cleared for every visited node. -/
def clearRow (E : Env K) (mem : Loc → K) : Loc → K
  | .y1 v k => if v < P.J.R.arr.nNode ∧ y1ld P.J.R v ≠ 0 ∧ k < y1ncol P.J.R E v then 0 else mem (.y1 v k)
  | l => mem l

/-- src/H2Pack_matvec_periodic.c:151-152: `y1[node0]->data[0 .. nrow*ncol)` is cleared. -/
def clearNode (PE : PerEnv K) (n0 : Nat) (mem : Loc → K) : Loc → K
  | .y1 v k => if v = n0 ∧ k < (if P.J.R.mark v ≠ 0 then PE.E.nThread else PE.nrow1 v) * y1ncol P.J.R PE.E v then 0 else mem (.y1 v k)
  | l => mem l

/-- src/H2Pack_matvec_periodic.c:147-264: one iteration of the loop over `node0`. -/
def intmdNode (PE : PerEnv K) (M : Meta) (x : Nat → K) (y0 : Y0 K) (mem : Loc → K) (n0 : Nat) : Loc → K :=
  (csrRow M n0).foldl (P.intmdPair M x y0 n0) (P.clearNode PE n0 mem)

/-- src/H2Pack_matvec_periodic.c:329-373: one entry of row `n0` of the index matrix of the dense blocks. -/
def densePair (M : Meta) (x : Nat → K) (n0 : Nat) (mem : Loc → K) (ent : Int × Int) : Loc → K :=
  let J := P.J
  let R := J.R
  let n1 := ent.1.toNat
  let i := (ent.2 - 1).toNat
  let shift : Nat → K := if i < R.arr.nLeaf then fun _ => 0 else P.shiftOf P.inadmShift (i - R.arr.nLeaf)   -- lines 340-348
  P.call (R.adm.length + i) (M.nrow i) (M.ncol i) (J.cPts n0) (P.shifted (J.cPts n1) shift (P.junkC (R.adm.length + i)))
    (fun k => x (R.arr.ptS n1 + k)) R.nPoint (fun k => P.yLoc (R.arr.ptS n0 + k)) R.nPoint
    (fun k => x (R.rowS n1 + k)) (fun k => P.yLoc (R.rowS n0 + k)) mem

/-- src/H2Pack_matvec_periodic.c:320-374: one iteration of the loop over `node0`. -/
def denseNode (M : Meta) (x : Nat → K) (mem : Loc → K) (n0 : Nat) : Loc → K :=
  (csrRow M n0).foldl (P.densePair M x n0) mem

/-- `root_idx`. -/
def root : Nat := P.J.R.arr.nNode - 1

/-- src/H2Pack_matvec_periodic.c:466: `per_blk_size`. -/
def blkSize : Nat := P.J.jn P.root * P.J.R.kdim

/-- src/H2Pack_matvec_periodic.c:464-480: `y1[root]` is resized and becomes the product of the root block and `y0[root]`. -/
def rootMult (PE : PerEnv K) (y0 : Y0 K) (mem : Loc → K) : Loc → K :=
  let m := P.blkSize
  let r := P.root
  let y0r : Nat → K := if P.needTrans then                                              -- lines 470-476
      fun k => if k < m then JIT.transp P.J.R.kdim (P.J.jn r) (y0 r).2 PE.gr k else (y0 r).2 k
    else (y0 r).2
  let y1r := gemvN m m (fun i j => P.perBlk (i * m + j)) y0r false PE.junkR             -- lines 477-480
  fun l => match l with
    | .y1 v k => if v = r then y1r k else mem (.y1 v k)
    | l => mem l

/-- src/H2Pack_matvec_periodic.c:394-514 without the permutations: output in the permuted order.  `MB`, `MD` are the
metadata of the generator and dense blocks.  Undefined behaviour: `krnl_dim` is 0 (divisions), or the array `shift[8]` is too
short (every system has dense blocks, for which `H2P_shift_coord` reads `xpt_dim` entries). -/
def matvecPmt (PE : PerEnv K) (MB MD : Meta) (px : Nat → K) : Res (Nat → K) :=
  let J := P.J
  let R := J.R
  let E := PE.E
  if R.kdim = 0 ∨ 8 < J.xdim ∨ 8 < P.pdim then .ub
  else
    let x := if P.needTrans then JIT.transp R.nPoint R.kdim px PE.gx else px            -- lines 411, 438
    let y0 := fwdTransform R E px                                                       -- line 446
    let y0 := if P.needTrans then J.transY0 PE.g0 y0 else y0                            -- line 454
    let mem := P.clearRow E (initMem R E)                                               -- lines 126, 139-144, 430-434
    let mem := PE.ordB.foldl (P.intmdNode PE MB x y0) mem                               -- line 455
    let mem := if P.needTrans then J.transY1 E PE.g1 mem else mem                       -- line 456
    let mem := P.rootMult PE y0 mem
    let s := bwdTransform R E ⟨Function.update (y1ld R) P.root P.blkSize, mem⟩          -- line 486
    let mem := PE.ordD.foldl (P.denseNode MD x) s.mem                                   -- line 494
    .ok (if P.needTrans then                                                            -- lines 506-512
      let t := JIT.transp R.kdim R.nPoint (fun k => mem (.ty 0 k)) x
      fun k => if k < R.size then mem (.y k) + t k else mem (.y k)
    else fun k => mem (.y k))

/-- src/H2Pack_matvec_periodic.c:394-524 `H2P_matvec_periodic` with `BD_JIT = 1`. -/
def matvec (PE : PerEnv K) (MB MD : Meta) (g : (Nat → Nat) × (Nat → Nat)) (dx dy x : Nat → K) : Res (Nat → K) := do
  let y ← P.matvecPmt PE MB MD (permuteFwd P.J.R g x dx)                                -- line 422
  .ok (permuteBwd P.J.R g y dy)                                                         -- line 518

end Per

/-! ## The root block -/

/-- src/H2Pack_build_periodic.c:52-71: the loop over the lattice vectors; the state is `per_blk` and the shifted
coordinates. `width` is `enbox0_width`, `lattice l j` is `per_lattices[l*pt_dim+j]`, `junk l` the contents of `krnl_mat_blk`. -/
def perBlkStep (J : JIT K) (pdim root : Nat) (width : Nat → K) (lattice : Nat → Nat → K) (junk : Nat → Nat → K)
    (s : (Nat → K) × (Nat → K)) (l : Nat) : (Nat → K) × (Nat → K) :=
  let n := J.jn root
  let m := n * J.R.kdim
  let shift : Nat → K := fun j => if j < pdim then width j * lattice l j else 0         -- line 57
  let cs := shiftCoord J.xdim n n shift 1 s.2                                           -- line 59
  let mat := evalAt J (J.jPts root) (cs, n, n) 0 m (junk l)                             -- lines 61-65
  let blk : Nat → K := fun i => if i < m * m then s.1 i - mat i else s.1 i              -- lines 66-68
  (blk, shiftCoord J.xdim n n shift (-1) cs)                                            -- line 70

/-- src/H2Pack_build_periodic.c:18-74 `H2P_build_periodic_block`; `JP` is `J` with the periodic kernel, `junkB`, `junkC` are
contents of newly allocated buffers. -/
def buildPerBlk (J JP : JIT K) (pdim root nLattice : Nat) (width : Nat → K) (lattice : Nat → Nat → K)
    (junkB junkC : Nat → K) (junk : Nat → Nat → K) : Nat → K :=
  let n := J.jn root
  let m := n * J.R.kdim
  let blk := evalAt JP (JP.jPts root) (JP.jPts root) 0 m junkB                          -- lines 40-44
  let cs := copyMatrix J.xdim n (J.jc root) n junkC n                                   -- lines 47-51
  ((List.range nLattice).foldl (perBlkStep J pdim root width lattice junk) (blk, cs)).1

end

end H2Pack.MV
