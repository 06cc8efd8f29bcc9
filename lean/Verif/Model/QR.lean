import Verif.Model.CSR
import Verif.Model.DenseMat

/-!
# Partial pivoting QR and interpolative decomposition (src/H2Pack_ID_compress.c)

The arithmetic is a parameter (`Ops`), so the model covers floating point with any rounding, any BLAS summation order and any
threshold constants; `realOps` (in `Verif.Spec.ID`) is exact arithmetic.  A matrix stored by columns is `R j k` (column `j`, row `k`):
the address `R + j * ldR + k` with `k < ldR`.  The iterations of the parallel loops over columns read and write only their own
column and norm; they are one pointwise update here.  Integers are unbounded.  `n_thread` has no influence on the model.
-/

namespace H2Pack.ID

/-- The arithmetic of `DTYPE`, without any law. -/
structure Ops (K : Type) where
  zero : K
  one : K
  two : K
  add : K → K → K
  sub : K → K → K
  mul : K → K → K
  neg : K → K
  /-- division; the outcome `ub` stands for a division by zero where the arithmetic has no result -/
  div : K → K → Res K
  sqrt : K → K
  lt : K → K → Bool
  le : K → K → Bool
  ofNat : Nat → K
  /-- `CBLAS_NRM2(n, x, 1)` -/
  nrm2 : Nat → (Nat → K) → K
  /-- `CBLAS_DOT(n, x, 1, y, 1)`, also used for the entries of `GEMV` and `GEMM` -/
  dot : Nat → (Nat → K) → (Nat → K) → K
  /-- `eps_t` -/
  eps : K
  /-- `fast_norm_threshold_t` -/
  fast : K
  /-- the literal `1e-15` of `H2P_ID_QR` -/
  tiny : K

variable {K : Type}

/-- `MAX(a, b)` (src/utils.h). -/
def Ops.max (O : Ops K) (a b : K) : K := if O.lt b a then a else b

/-! ## Householder vector -/

/-- src/H2Pack_ID_compress.c:120-129 and 282-290: `h_vec` (rows `i ...` of the column, relative to row `i`) and the value
`-sign * h_norm` stored in its first place at lines 167 and 315. -/
def house (O : Ops K) (nrow i : Nat) (c : Nat → K) : Res (K × (Nat → K)) := do
  let hlen := nrow - i
  let sign := if O.lt O.zero (c i) then O.one else O.neg O.one                      -- line 124
  let hnorm := O.nrm2 hlen (fun k => c (i + k))                                     -- line 125
  let h := fun k => if k = 0 then O.add (c i) (O.mul sign hnorm) else c (i + k)     -- line 126
  let inv ← O.div O.one (O.nrm2 hlen h)                                             -- line 127
  .ok (O.mul (O.neg sign) hnorm, fun k => O.mul (h k) inv)                          -- line 129

/-- src/H2Pack_ID_compress.c:142-147 and 297-308: one column, rows `i .. nrow-1`. -/
def reflect (O : Ops K) (nrow i : Nat) (h : Nat → K) (x : Nat → K) : Nat → K :=
  let hR := O.mul O.two (O.dot (nrow - i) h (fun k => x (i + k)))
  fun t => if i ≤ t ∧ t < nrow then O.sub (x t) (O.mul hR (h (t - i))) else x t

/-- src/H2Pack_ID_compress.c:167-168 and 315-316: the column after its own reflection. -/
def collapse (O : Ops K) (nrow i : Nat) (d : K) (x : Nat → K) : Nat → K := fun t =>
  if t = i then d else if i < t ∧ t < nrow then O.zero else x t

/-- src/H2Pack_ID_compress.c:84-93, 170-179 (and 404-413): the pivot search on `lo .. hi-1`. -/
def findPivot (O : Ops K) (cn : Nat → K) (lo hi : Nat) : Nat × K :=
  (List.range' lo (hi - lo)).foldl (fun s j => if O.lt s.2 (cn j) then (j, cn j) else s) (lo, O.zero)

/-- src/H2Pack_ID_compress.c:97-99 and 252-254: the stopping norm. -/
def stopNorm (O : Ops K) (nrow : Nat) (tol : K) (rel : Bool) (normp : K) : K :=
  let s := O.max (O.mul (O.sqrt (O.ofNat nrow)) O.eps) tol
  if rel then O.mul s normp else s

/-- Exchange of the two values `a` and `b` of an array. -/
def swap {α : Type} (f : Nat → α) (a b : Nat) : Nat → α := fun t => if t = a then f b else if t = b then f a else f t

/-- `p`, `col_norm` (or `blk_norm`), `R`, `pivot`, `norm_p`. -/
structure QRSt (K : Type) where
  p : Nat → Nat
  cn : Nat → K
  R : Nat → Nat → K
  pivot : Nat
  normp : K

/-- src/H2Pack_ID_compress.c:149-164: the new norm of column `j`; `x` is the updated column. -/
def newNorm (O : Ops K) (nrow i : Nat) (stop : K) (cn : K) (x : Nat → K) : K :=
  if O.lt cn stop then O.zero                                                      -- line 150
  else
    let tmp := O.sub (O.mul cn cn) (O.mul (x i) (x i))                             -- lines 155-156
    if O.le tmp O.fast then O.nrm2 (nrow - i - 1) (fun k => x (i + 1 + k)) else O.sqrt tmp

/-- src/H2Pack_ID_compress.c:112-179: one iteration after the stop test. -/
def qrStep (O : Ops K) (nrow ncol : Nat) (stop : K) (i : Nat) (s : QRSt K) : Res (QRSt K) := do
  let s := if i ≠ s.pivot then { s with p := swap s.p i s.pivot, cn := swap s.cn i s.pivot, R := swap s.R i s.pivot } else s
  let hv ← house O nrow i (s.R i)
  let R := fun j => if i < j ∧ j < ncol then reflect O nrow i hv.2 (s.R j) else if j = i then collapse O nrow i hv.1 (s.R i) else s.R j
  let cn := fun j => if i < j ∧ j < ncol then newNorm O nrow i stop (s.cn j) (R j) else s.cn j
  let f := findPivot O cn (i + 1) ncol
  .ok ⟨s.p, cn, R, f.1, f.2⟩

/-- src/H2Pack_ID_compress.c:101-181: the main loop from iteration `i` on, `n` iterations left; the result is the rank. -/
def qrLoop (O : Ops K) (nrow ncol : Nat) (stop : K) (stopRank : Int) : Nat → Nat → QRSt K → Res (Nat × QRSt K)
  | 0, i, s => .ok (i, s)                                                          -- line 181
  | n + 1, i, s =>
    if O.lt s.normp stop = true ∨ (i : Int) ≥ stopRank then .ok (i, s)             -- line 106
    else do
      let s ← qrStep O nrow ncol stop i s
      qrLoop O nrow ncol stop stopRank n (i + 1) s

/-- src/H2Pack_ID_compress.c:51-184 `H2P_partial_pivot_QR`: rank, permutation, matrix.  `p0`, `cn0` are the initial contents of the
arrays. -/
def partialPivotQR (O : Ops K) (nrow ncol : Nat) (tolRank : Int) (tol : K) (rel : Bool) (R : Nat → Nat → K) (p0 : Nat → Nat) (cn0 : Nat → K) :
    Res (Nat × (Nat → Nat) × (Nat → Nat → K)) := do
  let p := fun j => if j < ncol then j else p0 j
  let cn := fun j => if j < ncol then O.nrm2 nrow (R j) else cn0 j
  let f := findPivot O cn 0 ncol
  let stop := stopNorm O nrow tol rel f.2
  let r ← qrLoop O nrow ncol stop (Min.min ((Min.min nrow ncol : Nat) : Int) tolRank) (Min.min nrow ncol) 0 ⟨p, cn, R, f.1, f.2⟩
  .ok (r.1, r.2.p, r.2.R)

/-! ## Column blocks -/

/-- src/H2Pack_ID_compress.c:13-33: exchange of the `kdim` values of blocks `a` and `b` (`a ≠ b`). -/
def swapBlk {α : Type} (kdim : Nat) (f : Nat → α) (a b : Nat) : Nat → α := fun t =>
  if a * kdim ≤ t ∧ t < a * kdim + kdim then f (b * kdim + (t - a * kdim))
  else if b * kdim ≤ t ∧ t < b * kdim + kdim then f (a * kdim + (t - b * kdim)) else f t

/-- src/H2Pack_ID_compress.c:231-248: block norms and first pivot; the norms are written over the column norms. -/
def blkNorms (O : Ops K) (kdim nblk : Nat) (bn : Nat → K) : (Nat → K) × Nat × K :=
  (List.range nblk).foldl (fun s j =>
    let v := O.sqrt ((List.range kdim).foldl (fun t k => O.add t (O.mul (s.1 (kdim * j + k)) (s.1 (kdim * j + k)))) O.zero)
    let bn := Function.update s.1 j v
    if O.lt s.2.2 v then (bn, j, v) else (bn, s.2.1, s.2.2)) (bn, 0, O.zero)

/-- src/H2Pack_ID_compress.c:280-317: Householder vectors `blk, blk+1, ...` (`n` of them) of the block that starts at column `b`;
`V a t` is entry `t` of vector `a`. -/
def panel (O : Ops K) (nrow kdim b : Nat) : Nat → Nat → (Nat → Nat → K) → (Nat → Nat → K) → Res ((Nat → Nat → K) × (Nat → Nat → K))
  | 0, _, R, V => .ok (R, V)
  | n + 1, blk, R, V => do
    let ii := b + blk
    let hv ← house O nrow ii (R ii)
    let R' := fun j => if ii < j ∧ j < b + kdim then reflect O nrow ii hv.2 (R j) else if j = ii then collapse O nrow ii hv.1 (R ii) else R j
    let V := Function.update V blk (fun t => if t < blk then O.zero else if t < blk + (nrow - ii) then hv.2 (t - blk) else V blk t)
    panel O nrow kdim b n (blk + 1) R' V

/-- src/H2Pack_ID_compress.c:319-337: the matrix `W` (`vn` rows). -/
def wMat (O : Ops K) (vn : Nat) (V : Nat → Nat → K) : Nat → Nat → Nat → K
  | 0 => fun _ _ => O.zero
  | n + 1 => Function.update (wMat O vn V n) n (fun t =>
      if n = 0 then O.mul (O.neg O.two) (V 0 t)                                    -- line 321
      else O.mul (O.neg O.two) (O.add (V n t) (O.dot n (fun a => wMat O vn V n a t) (fun a => O.dot vn (V a) (V n)))))

/-- src/H2Pack_ID_compress.c:349-360: one column of the block update, rows `b ..`. -/
def wyCol (O : Ops K) (kdim vn b : Nat) (V W : Nat → Nat → K) (x : Nat → K) : Nat → K := fun t =>
  if b ≤ t ∧ t < b + vn then
    O.add (x t) (O.dot kdim (fun a => V a (t - b)) (fun a => O.dot vn (W a) (fun k => x (b + k))))
  else x t

/-- src/H2Pack_ID_compress.c:341-344: the number of columns in a chunk (`sizeof(DTYPE)` is `sz`). -/
def chunkSize (sz vn kdim : Nat) : Nat :=
  let c := 128 * 1024 / sz / (vn * kdim * 3)
  if c < 2 then 8 else c

/-- src/H2Pack_ID_compress.c:345-361: the chunks from column offset `off` on; `sc` is `R_blk_scol`, `rn` is `R_blk_ncol`. -/
def chunks (O : Ops K) (kdim vn b sc rn sz : Nat) (V W : Nat → Nat → K) : Nat → Nat → (Nat → Nat → K) → Res (Nat → Nat → K)
  | 0, _, _ => .diverge
  | fuel + 1, off, R =>
    if off < rn then
      let size := if chunkSize sz vn kdim + off > rn then rn - off else chunkSize sz vn kdim
      let R' := fun j => if sc + off ≤ j ∧ j < sc + off + size then wyCol O kdim vn b V W (R j) else R j
      chunks O kdim vn b sc rn sz V W fuel (off + chunkSize sz vn kdim) R'
    else .ok R

/-- src/H2Pack_ID_compress.c:366-401: the new norm of block `j`. -/
def newBlkNorm (O : Ops K) (nrow kdim i j : Nat) (stop : K) (bn : K) (R : Nat → Nat → K) : K :=
  if O.lt bn stop then O.zero
  else
    let tmp := (List.range kdim).foldl (fun t k0 => (List.range kdim).foldl (fun t k1 =>
      O.sub t (O.mul (R (j * kdim + k0) (i * kdim + k1)) (R (j * kdim + k0) (i * kdim + k1)))) t) (O.mul bn bn)
    if O.le tmp O.fast then
      O.sqrt ((List.range kdim).foldl (fun t k =>
        let n := O.nrm2 (nrow - (i + 1) * kdim) (fun u => R (j * kdim + k) ((i + 1) * kdim + u))
        O.add t (O.mul n n)) O.zero)
    else O.sqrt tmp

/-- src/H2Pack_ID_compress.c:267-413: one iteration after the stop test.  `V0` is the initial content of `Vblk`. -/
def qrkStep (O : Ops K) (sz nrow ncol kdim : Nat) (stop : K) (V0 : Nat → Nat → K) (fuel i : Nat) (s : QRSt K) : Res (QRSt K) := do
  let s := if i ≠ s.pivot then { s with p := swapBlk kdim s.p i s.pivot, cn := swap s.cn i s.pivot, R := swapBlk kdim s.R i s.pivot } else s
  let vn := nrow - i * kdim
  let q ← panel O nrow kdim (i * kdim) kdim 0 s.R V0
  let W := wMat O vn q.2 kdim
  let R ← chunks O kdim vn (i * kdim) (i * kdim + kdim) (ncol - (i * kdim + kdim)) sz q.2 W fuel 0 q.1
  let cn := fun j => if i < j ∧ j < ncol / kdim then newBlkNorm O nrow kdim i j stop (s.cn j) R else s.cn j
  let f := findPivot O cn (i + 1) (ncol / kdim)
  .ok ⟨s.p, cn, R, f.1, f.2⟩

/-- src/H2Pack_ID_compress.c:256-415: the main loop. -/
def qrkLoop (O : Ops K) (sz nrow ncol kdim : Nat) (stop : K) (stopRank : Int) (V0 : Nat → Nat → K) (fuel : Nat) : Nat → Nat → QRSt K → Res (Nat × QRSt K)
  | 0, i, s => .ok (i * kdim, s)
  | n + 1, i, s =>
    if O.lt s.normp stop = true ∨ (i : Int) ≥ stopRank then .ok (i * kdim, s)
    else do
      let s ← qrkStep O sz nrow ncol kdim stop V0 fuel i s
      qrkLoop O sz nrow ncol kdim stop stopRank V0 fuel n (i + 1) s

/-- src/H2Pack_ID_compress.c:191-418 `H2P_partial_pivot_QR_kdim`. -/
def partialPivotQRk (O : Ops K) (sz nrow ncol kdim : Nat) (tolRank : Int) (tol : K) (rel : Bool) (R : Nat → Nat → K) (p0 : Nat → Nat)
    (cn0 : Nat → K) (V0 : Nat → Nat → K) (fuel : Nat) : Res (Nat × (Nat → Nat) × (Nat → Nat → K)) := do
  let p := fun j => if j < ncol then j else p0 j
  let cn := fun j => if j < ncol then O.nrm2 nrow (R j) else cn0 j
  let f := blkNorms O kdim (ncol / kdim) cn
  let stop := stopNorm O nrow tol rel f.2.2
  let m := Min.min nrow ncol / kdim
  let r ← qrkLoop O sz nrow ncol kdim stop (Min.min (m : Int) (tolRank.tdiv kdim)) V0 fuel m 0 ⟨p, f.1, R, f.2.1, f.2.2⟩
  .ok (r.1, r.2.p, r.2.R)

/-! ## Interpolative decomposition -/

/-- `stop_type` with its parameter (src/H2Pack_config.h). -/
inductive Stop (K : Type) where
  | rank (n : Int)
  | rel (t : K)
  | abs (t : K)
  | other

/-- src/H2Pack_ID_compress.c:438-461: `tol_rank`, `tol_norm`, `rel_norm`. -/
def Stop.parse (O : Ops K) (nrow ncol kdim : Nat) : Stop K → Int × K × Bool
  | .rank n => (n, O.tiny, true)
  | .rel t => ((Min.min nrow ncol : Nat), O.mul t (O.sqrt (O.ofNat kdim)), true)
  | .abs t => ((Min.min nrow ncol : Nat), t, false)
  | .other => ((Min.min nrow ncol : Nat), O.tiny, true)

/-- Initial contents of the work arrays. -/
structure IDEnv (K : Type) where
  p0 : Nat → Nat
  cn0 : Nat → K
  V0 : Nat → Nat → K
  i1 : Nat → Nat
  p0inv : Nat → Nat
  u0 : Nat → K
  u1 : Nat → K

/-- src/H2Pack_ID_compress.c:433-487 `H2P_ID_QR` on a matrix with `nrow` rows and `ncol` columns: rank, permutation, matrix. -/
def idQR (O : Ops K) (sz nrow ncol kdim : Nat) (st : Stop K) (R : Nat → Nat → K) (E : IDEnv K) (fuel : Nat) :
    Res (Nat × (Nat → Nat) × (Nat → Nat → K)) := do
  let t := st.parse O nrow ncol kdim
  let r ← if kdim = 1 then partialPivotQR O nrow ncol t.1 t.2.1 t.2.2 R E.p0 E.cn0
    else partialPivotQRk O sz nrow ncol kdim t.1 t.2.1 t.2.2 R E.p0 E.cn0 E.V0 fuel
  if r.1 = 0 then .ok (0, fun j => if j < ncol then j else r.2.1 j, r.2.2) else .ok r

/-- `CBLAS_TRSM(ColMajor, Left, Upper, NoTrans, NonUnit)` on one column `b`: rows `n-1, ..., 0`. -/
def trsmCol (O : Ops K) (D : Nat → Nat → K) : Nat → (Nat → K) → Res (Nat → K)
  | 0, b => .ok b
  | k + 1, b => do
    let t ← O.div (b k) (D k k)
    trsmCol O D k (fun i => if i = k then t else if i < k then O.sub (b i) (O.mul t (D k i)) else b i)

/-- All columns `r, r+1, ...` (`n` of them). -/
def trsm (O : Ops K) (r : Nat) : Nat → Nat → (Nat → Nat → K) → Res (Nat → Nat → K)
  | 0, _, R => .ok R
  | n + 1, j, R => do
    let x ← trsmCol O R r (R j)
    trsm O r n (j + 1) (Function.update R j x)

/-- src/H2Pack_ID_compress.c:511-521: the inverse of a permutation, `p0[J[i]] = i` and `i1[i0[i]] = i` (`i0` is the `val` array of the
sort); `g` is the initial content. -/
def invPerm (n : Nat) (p : Nat → Nat) (g : Nat → Nat) : Nat → Nat := (List.range n).foldl (fun f i => Function.update f (p i) i) g

/-- src/H2Pack_ID_compress.c:536-562: `U` before the rows are permuted; `X` is the matrix after `TRSM`. -/
def formU (O : Ops K) (nrow r : Nat) (i0 : Nat → Nat) (X : Nat → Nat → K) (g : Nat → K) : Nat → K :=
  let d := (List.range r).foldl (fun d i => Function.update (fun k => if i * r ≤ k ∧ k < i * r + r then O.zero else d k) (i * r + i) O.one) g
  (List.range r).foldl (fun d icol => (List.range (nrow - r)).foldl (fun d irow =>
    Function.update d (r * r + icol + irow * r) (X (r + irow) (i0 icol))) d) d

/-- src/H2Pack_ID_compress.c:567-573: the last step for `kdim > 1`; `J->data` and `J->length`. -/
def groupJ (kdim : Nat) (J : Nat → Nat) (len : Nat) : (Nat → Nat) × Nat :=
  if kdim > 1 then
    let J := Function.update J 0 (J 0 / kdim)
    ((List.range' 1 (len / kdim - 1)).foldl (fun J i => Function.update J i (J (i * kdim) / kdim)) J, len / kdim)
  else (J, len)

/-- src/H2Pack_ID_compress.c:491-576 `H2P_ID_compress` on a matrix with `nrow` rows and `ncol` columns, `A i k` its entries:
`J->data`, `J->length`, `U`.  `wantU` is `U_ != NULL`; without it `U` is the empty matrix here. -/
def idCompress (O : Ops K) (sz nrow ncol kdim : Nat) (st : Stop K) (A : Nat → Nat → K) (wantU : Bool) (E : IDEnv K) (fuel : Nat) :
    Res (((Nat → Nat) × Nat) × H2Pack.Dense.Mat K) := do
  let q ← idQR O sz ncol nrow kdim st A E fuel
  let r := q.1
  let pinv := invPerm nrow q.2.1 E.p0inv
  let kv ← H2Pack.CSR.qsort (κ := Int) (ν := Int) nrow fuel ⟨fun k => q.2.1 k.toNat, fun k => k⟩ 0 ((r : Int) - 1)
  let J := fun i : Nat => (kv.key i).toNat
  let i0 := fun i : Nat => (kv.val i).toNat
  let i1 := invPerm nrow i0 E.i1
  let p1 := (List.range nrow).map fun i => i1 (pinv i)
  let U ← if r = 0 then Res.ok ⟨nrow, 0, 0, 0, E.u0⟩
    else if wantU then do
      let X ← trsm O r (nrow - r) r q.2.2
      H2Pack.Dense.permuteRows ⟨nrow, r, r, nrow * r, formU O nrow r i0 X E.u0⟩ p1 E.u1
    else Res.ok ⟨0, 0, 0, 0, E.u0⟩
  .ok (groupJ kdim J r, U)

end H2Pack.ID
