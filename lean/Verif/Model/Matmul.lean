import Verif.Model.Metadata

/-!
# H2 matmul (src/H2Pack_matmul.c)

Exact arithmetic in a commutative ring, unbounded integers.  Matrices with several columns are flat arrays, positions are
computed as in the C code.  The iterations of the parallel loops are executed one after the other in an arbitrary order:
the nodes of one level (`fwdOrd`, `bwdOrd`) and the loops over `node0` (`ordB`, `ordD`).  The input and the output matrix do
not overlap.  Timers and statistics are left out.
-/

namespace H2Pack.MV
open H2Pack.Part (Arr kids)

section
variable {K : Type} [CommRing K]

/-- Entry `(i, j)` of `op(X)` in a `CblasRowMajor` call: `tr` is `CblasTrans`. -/
def opAt (tr : Bool) (ld : Nat) (X : Nat → K) (i j : Nat) : K := if tr then X (j * ld + i) else X (i * ld + j)

/-- `cblas_dgemm(CblasRowMajor, ..., m, n, k, 1.0, a, b, beta, C + o, ld)` with beta = 1 (`acc`) or 0; `n ≤ ld`.  Nothing is
done when `m` or `n` is zero; for `k = 0` only beta is applied (reference BLAS). -/
def gemm (m n k : Nat) (a b : Nat → Nat → K) (acc : Bool) (C : Nat → K) (o ld : Nat) : Nat → K := fun p =>
  if o ≤ p ∧ (p - o) / ld < m ∧ (p - o) % ld < n then
    (if acc then C p else 0) + ∑ t ∈ Finset.range k, a ((p - o) / ld) t * b t ((p - o) % ld)
  else C p

/-- Storage of the multi-vectors: `x_trans` (= `y_trans`), `ldx` (= `ldy`), `x_row_stride` (= `y_row_stride`). -/
structure View where
  tr : Bool
  ld : Nat
  stride : Nat

/-- What the H2 matrix and the input do not determine: order of the iterations, contents of buffers, sizes left in the
headers by earlier calls, contents of the matrix returned for a pair without block. -/
structure MMEnv (K : Type) where
  fwdOrd : Nat → List Nat
  bwdOrd : Nat → List Nat
  ordB : List Nat
  ordD : List Nat
  junk0 : Nat → Nat → K
  junk1 : Nat → Nat → K
  junkT : Nat → Nat → K
  junkP : Nat → Nat → K
  nrow0 : Nat → Nat
  hdr1 : Nat → Nat
  dstB : Nat → Nat → Nat → K
  dstD : Nat → Nat → Nat → K
  staleB : Nat → Nat → Blk K
  staleD : Nat → Nat → Blk K

/-! ## Forward transformation -/

/-- src/H2Pack_matmul.c:91-103: the loop over the children, from child number `k` on (`y0[·]->ld = n_vec`). -/
def mmFwdKids (Un : Mat K) (nv : Nat) (y0 : Y0 K) : List Nat → Nat → Nat → (Nat → K) → (Nat → K)
  | [], _, _, y => y
  | c :: cs, k, srow, y =>
    let y := gemm Un.ncol nv (y0 c).1 (fun i t => Un.e (srow + t) i) (opAt false nv (y0 c).2) (decide (k ≠ 0)) y 0 nv   -- lines 97-101
    mmFwdKids Un nv y0 cs (k + 1) (srow + (y0 c).1) y                                          -- line 102

/-- src/H2Pack_matmul.c:71-104: one node. -/
def mmFwdNode (R : Rep K) (E : MMEnv K) (V : View) (nv : Nat) (x : Nat → K) (y0 : Y0 K) (v : Nat) : Y0 K :=
  let Un := R.U v
  if R.arr.nChild v = 0 then
    Function.update y0 v (Un.ncol, gemm Un.ncol nv (R.rowE v - R.rowS v) (fun i t => Un.e t i)
      (opAt V.tr V.ld (fun k => x (R.rowS v * V.stride + k))) false (E.junk0 v) 0 nv)          -- lines 79-87
  else
    Function.update y0 v (Un.ncol, mmFwdKids Un nv y0 (kids R.arr v) 0 0 (E.junk0 v))

/-- src/H2Pack_matmul.c:43-108 `H2P_matmul_fwd_transform`. -/
def mmFwd (R : Rep K) (E : MMEnv K) (V : View) (nv : Nat) (x : Nat → K) : Y0 K :=
  ((List.range' R.minAdm (R.arr.maxLevel + 1 - R.minAdm)).reverse.flatMap E.fwdOrd).foldl (mmFwdNode R E V nv x)
    (fun v => (E.nrow0 v, E.junk0 v))

/-! ## Intermediate multiplication -/

/-- `y1[·]->data` and the output matrix. -/
structure MMSt (K : Type) where
  y1 : Nat → Nat → K
  y : Nat → K

/-- src/H2Pack_matmul.c:172-184 and 386-398: sizes, leading dimension and transposition flag used in the `gemm` calls. -/
def Blk.use (b : Blk K) : Nat × Nat × Nat × Bool :=
  if b.ld > 0 then (b.nrow, b.ncol, b.ld.toNat, false) else (b.ncol, b.nrow, (-b.ld).toNat, true)

/-- `C_{s..s+m-1} += op(A) * Z` on the rows of a multi-vector: the two branches of src/H2Pack_matmul.c:221-237 and 402-414.
`zN`, `zT` are the operand as it is passed in the two calls. -/
def rowsAdd (V : View) (nv s m k ldA : Nat) (trA : Bool) (A : Nat → K) (zN zT : Nat → Nat → K) (y : Nat → K) : Nat → K :=
  if V.tr = false then gemm m nv k (opAt trA ldA A) zN true y (s * V.stride) V.ld
  else gemm nv m k zT (opAt (!trA) ldA A) true y (s * V.stride) V.ld

/-- src/H2Pack_matmul.c:163-239: one entry of row `node0`. -/
def mmPair (R : Rep K) (V : View) (nv : Nat) (x : Nat → K) (y0 : Y0 K) (get : Nat → Nat → Blk K) (n0 : Nat) (s : MMSt K) (n1 : Nat) : MMSt K :=
  let l0 := R.arr.level n0
  let l1 := R.arr.level n1
  let Bij := get n0 n1                                                                          -- line 170
  let u := Bij.use
  let s := if l0 = l1 then                                                                      -- line 190
      { s with y1 := Function.update s.y1 n0 (
          gemm u.1 nv u.2.1 (opAt u.2.2.2 u.2.2.1 Bij.data) (opAt false nv (y0 n1).2) true (s.y1 n0) 0 nv) } else s
  let s := if l0 > l1 then                                                                      -- line 201
      { s with y1 := Function.update s.y1 n0 (
          gemm u.1 nv u.2.1 (opAt u.2.2.2 u.2.2.1 Bij.data) (opAt V.tr V.ld (fun k => x (R.rowS n1 * V.stride + k))) true (s.y1 n0) 0 nv) } else s
  if l0 < l1 then                                                                               -- line 214
    { s with y := rowsAdd V nv (R.rowS n0) u.1 u.2.1 u.2.2.1 u.2.2.2 Bij.data (opAt false nv (y0 n1).2) (opAt true nv (y0 n1).2) s.y } else s

/-- The numbers `colidx[i]` for `rowptr[r] <= i < rowptr[r+1]`. -/
def rowCols (M : Meta) (r : Nat) : List Nat := (List.range' (M.csr.rp r) (M.csr.rp (r + 1) - M.csr.rp r)).map fun k => (M.csr.col k).toNat

/-- src/H2Pack_matmul.c:156-240: one iteration of the `node0` loop. -/
def mmIntmdNode (J : JIT K) (M : Meta) (jit : Bool) (data : Nat → K) (E : MMEnv K) (V : View) (nv : Nat) (x : Nat → K) (y0 : Y0 K)
    (s : MMSt K) (n0 : Nat) : MMSt K :=
  let len := if J.R.mark n0 ≠ 0 then (J.R.U n0).ncol * nv else E.hdr1 n0
  let s := { s with y1 := Function.update s.y1 n0 (fun k => if k < len then 0 else s.y1 n0 k) }  -- line 161
  (rowCols M n0).foldl (mmPair J.R V nv x y0 (fun a b => (getBij J M jit data (E.dstB a b) a b).getD (E.staleB a b)) n0) s

/-- src/H2Pack_matmul.c:137-244 `H2P_matmul_intmd_mult`. -/
def mmIntmd (J : JIT K) (M : Meta) (jit : Bool) (data : Nat → K) (E : MMEnv K) (V : View) (nv : Nat) (x : Nat → K) (y0 : Y0 K) (y : Nat → K) : MMSt K :=
  E.ordB.foldl (mmIntmdNode J M jit data E V nv x y0) ⟨E.junk1, y⟩

/-- src/H2Pack_matmul.c:128-133: `y1[i]->ld`. -/
def mmLd (R : Rep K) (nv v : Nat) : Nat := if R.mark v ≠ 0 then nv else 0

/-! ## Backward transformation -/

/-- `y1[·]->ld`, `y1[·]->data` and the output matrix. -/
structure MMBwd (K : Type) where
  ld : Nat → Nat
  y1 : Nat → Nat → K
  y : Nat → K

/-- src/H2Pack_matmul.c:320-343: pushing `y1_tmp` down to the children (`y1[·]->ld` is 0 or `n_vec`). -/
def mmPush (R : Rep K) (E : MMEnv K) (nv : Nat) (tmp : Nat → K) : List Nat → Nat → MMBwd K → MMBwd K
  | [], _, s => s
  | c :: cs, idx, s =>
    let len := (R.U c).ncol
    let s : MMBwd K :=
      if s.ld c = 0 then
        { s with ld := Function.update s.ld c nv                                                -- lines 328-329
                 y1 := Function.update s.y1 c (copyMatrix len nv (fun k => tmp (idx * nv + k)) nv (E.junkP c) nv) }
      else
        { s with y1 := Function.update s.y1 c ((List.range len).foldl (fun d k0 =>               -- lines 331-338
            (List.range nv).foldl (fun d l => addAt d (k0 * s.ld c + l) (tmp (idx * nv + (k0 * nv + l)))) d) (s.y1 c)) }
    mmPush R E nv tmp cs (idx + len) s                                                          -- line 340

/-- src/H2Pack_matmul.c:281-344: one node. -/
def mmBwdNode (R : Rep K) (E : MMEnv K) (V : View) (nv : Nat) (s : MMBwd K) (v : Nat) : MMBwd K :=
  if s.ld v = 0 then s                                                                          -- line 285
  else
    let Un := R.U v
    let tmp := gemm Un.nrow nv Un.ncol Un.e (opAt false (s.ld v) (s.y1 v)) false (E.junkT v) 0 nv   -- lines 287-292
    let nr := R.rowE v - R.rowS v
    if R.arr.nChild v = 0 then
      if V.tr = false then
        { s with y := (List.range nr).foldl (fun y k => (List.range nv).foldl (fun y l =>       -- lines 302-309
            addAt y ((R.rowS v + k) * V.ld + l) (tmp (k * nv + l))) y) s.y }
      else
        { s with y := (List.range nv).foldl (fun y l => (List.range nr).foldl (fun y k =>       -- lines 311-318
            addAt y (l * V.ld + (R.rowS v + k)) (tmp (l + k * nv))) y) s.y }
    else mmPush R E nv tmp (kids R.arr v) 0 s

/-- src/H2Pack_matmul.c:248-350 `H2P_matmul_bwd_transform`. -/
def mmBwd (R : Rep K) (E : MMEnv K) (V : View) (nv : Nat) (s : MMBwd K) : MMBwd K :=
  ((List.range' R.minAdm (R.arr.maxLevel + 1 - R.minAdm)).flatMap E.bwdOrd).foldl (mmBwdNode R E V nv) s

/-! ## Dense multiplication -/

/-- src/H2Pack_matmul.c:380-415: one entry of row `node0`. -/
def mmDensePair (R : Rep K) (V : View) (nv : Nat) (x : Nat → K) (get : Nat → Nat → Blk K) (n0 : Nat) (y : Nat → K) (n1 : Nat) : Nat → K :=
  let xs := fun k => x (R.rowS n1 * V.stride + k)
  let Dij := get n0 n1
  let u := Dij.use
  rowsAdd V nv (R.rowS n0) u.1 u.2.1 u.2.2.1 u.2.2.2 Dij.data (opAt false V.ld xs) (opAt false V.ld xs) y

/-- src/H2Pack_matmul.c:353-418 `H2P_matmul_dense_mult`. -/
def mmDense (J : JIT K) (M : Meta) (jit : Bool) (data : Nat → K) (E : MMEnv K) (V : View) (nv : Nat) (x : Nat → K) (y : Nat → K) : Nat → K :=
  E.ordD.foldl (fun y n0 => (rowCols M n0).foldl
    (mmDensePair J.R V nv x (fun a b => (getDij J M jit data (E.dstD a b) a b).getD (E.staleD a b)) n0) y) y

/-! ## The whole -/

/-- src/utils.c:156-175 `gather_matrix_rows`. -/
def gatherRows (nrow ncol : Nat) (idx : Nat → Nat) (src : Nat → K) (lds : Nat) (dst : Nat → K) (ldd : Nat) : Nat → K :=
  (List.range nrow).foldl (fun d r k => if r * ldd ≤ k ∧ k < r * ldd + ncol then src (idx r * lds + (k - r * ldd)) else d k) dst

/-- src/utils.c:178-196 `gather_matrix_cols`. -/
def gatherCols (nrow ncol : Nat) (idx : Nat → Nat) (src : Nat → K) (lds : Nat) (dst : Nat → K) (ldd : Nat) : Nat → K :=
  (List.range nrow).foldl (fun d r k => if r * ldd ≤ k then
    gather ncol idx (fun t => src (r * lds + t)) (fun t => d (r * ldd + t)) (k - r * ldd) else d k) dst

/-- src/H2Pack_matmul.c:422-456: permuting the rows with the index array `idx` (`fwd_pmt_idx` or `bwd_pmt_idx`); `col` is
`CblasColMajor`. -/
def mmPermute (R : Rep K) (col : Bool) (nv : Nat) (idx : Nat → Nat) (src : Nat → K) (lds : Nat) (dst : Nat → K) (ldd : Nat) : Nat → K :=
  if col = false then gatherRows R.size nv idx src lds dst ldd else gatherCols nv R.size idx src lds dst ldd

/-- src/H2Pack_matmul.c:512-530: the output buffer is cleared. -/
def mmClear (R : Rep K) (col : Bool) (nv ld : Nat) (y : Nat → K) : Nat → K :=
  if col = false then (List.range R.size).foldl (fun y i k => if i * ld ≤ k ∧ k < i * ld + nv then 0 else y k) y
  else (List.range nv).foldl (fun y i => (List.range R.size).foldl (fun y j => Function.update y (i * ld + j) 0) y) y

/-- src/H2Pack_matmul.c:480-496: `x_trans`, `ld_pmt`, `pmt_row_stride`. -/
def mmView (R : Rep K) (col : Bool) (mm : Nat) : View := if col = false then ⟨false, mm, mm⟩ else ⟨true, R.size, 1⟩

/-- What a run of the build functions leaves behind for matmul: metadata, block data (unused in JIT mode), `BD_JIT`. -/
structure MMData (K : Type) where
  MB : Meta
  MD : Meta
  dB : Nat → K
  dD : Nat → K
  jit : Bool

/-- src/H2Pack_matmul.c:534-573: steps 3 to 6 for one block of columns. -/
def mmCore (J : JIT K) (D : MMData K) (E : MMEnv K) (V : View) (nv : Nat) (px py : Nat → K) : Nat → K :=
  let y0 := mmFwd J.R E V nv px
  let s := mmIntmd J D.MB D.jit D.dB E V nv px y0 py
  let s := mmBwd J.R E V nv ⟨mmLd J.R nv, s.y1, s.y⟩
  mmDense J D.MD D.jit D.dD E V nv px s.y

/-- src/H2Pack_matmul.c:498-580: the loop over blocks of columns from `i_vec = i` on; `core i` is steps 3 to 6 for the block that starts at
column `i` (the periodic function has the same loop with other steps).  `gx i`, `gy i` are the contents of `pmt_x`, `pmt_y` for that block;
`pf`, `pb` the permutation index arrays. -/
def mmLoop (R : Rep K) (core : Nat → View → Nat → (Nat → K) → (Nat → K) → Nat → K) (pf pb : Nat → Nat) (gx gy : Nat → Nat → K) (col : Bool) (mm nvec : Nat)
    (X : Nat → K) (ldx ldy : Nat) : Nat → Nat → (Nat → K) → Res (Nat → K)
  | 0, _, _ => .diverge
  | fuel + 1, i, Y =>
    if i < nvec then
      let V := mmView R col mm
      let xcs := if col = false then 1 else ldx                                                 -- lines 482, 489
      let ycs := if col = false then 1 else ldy
      let cur := if i + mm ≤ nvec then mm else nvec - i                                         -- line 500
      let px := mmPermute R col cur pf (fun k => X (i * xcs + k)) ldx (gx i) V.ld               -- line 506
      let py := mmClear R col cur V.ld (gy i)
      let py := core i V cur px py
      let Y := fun k => if i * ycs ≤ k then mmPermute R col cur pb py V.ld (fun t => Y (i * ycs + t)) ldy (k - i * ycs) else Y k
      mmLoop R core pf pb gx gy col mm nvec X ldx ldy fuel (i + mm) Y
    else .ok Y

/-- src/H2Pack_matmul.c:458-583 `H2P_matmul`; `E i` is the environment for the block of columns that starts at column `i`, `g` are the initial
contents of the permutation index arrays (src/H2Pack_build.c:1192-1208). -/
def matmul (J : JIT K) (D : MMData K) (E : Nat → MMEnv K) (g : (Nat → Nat) × (Nat → Nat)) (gx gy : Nat → Nat → K) (col : Bool) (mm nvec : Nat)
    (X : Nat → K) (ldx : Nat) (Y : Nat → K) (ldy fuel : Nat) : Res (Nat → K) :=
  mmLoop J.R (fun i => mmCore J D (E i)) (pmtIdx J.R g).1 (pmtIdx J.R g).2 gx gy col mm nvec X ldx ldy fuel 0 Y

end

end H2Pack.MV
