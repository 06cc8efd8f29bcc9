import Verif.Model.Metadata
import Mathlib.Algebra.Field.Basic
import Mathlib.Algebra.BigOperators.Fin

/-!
# ULV factorizations of an HSS matrix and solves (src/H2Pack_HSS_ULV.c)

Exact arithmetic in a field.  The LAPACK routines GEQRF, ORMQR, GETRF and POTRF are parameters (`Lapack`; what they have to
satisfy is stated in Spec/ULV.lean); GEMM, GEMV are sums and TRSM is forward / backward substitution.  Matrices are
functions of a row and a column; the four parts `tmpD11`, `tmpD12`, `tmpD21`, `tmpD22` of `tmpD`, which the code updates in
place, are different functions here.  `lg x` is `DLOG(DABS(x))`.

The nodes of one level are handled in an arbitrary order (`ord l`): an iteration reads only what belongs to its node and
the node's children, except for the flag `nonsingular` / `is_SPD`, which is only ever cleared, and the sum `HSS_logdet`, which is
updated atomically.  A node handled after the flag is cleared is skipped.  Assertions that fail, blocks that are not
found and missing (`NULL`) matrices give `ub`.  Timers, `mat_size` statistics, messages and allocation failures are left out.
-/

namespace H2Pack.ULV
open H2Pack.MV (Mat Rep Blk permuteFwd permuteBwd)
open H2Pack.Part (Arr kids)

section
variable {K : Type}

/-- `LAPACKE_dgeqrf(m, n, a)`: the overwritten matrix and `tau`; `orm m k A tau`: the matrix `Q` applied by
`LAPACKE_dormqr` with `m` rows and `k` reflectors; `LAPACKE_dgetrf(n, a)`: `info`, `ipiv` (1-based) and the overwritten matrix;
`LAPACKE_dpotrf('L', n, a)`: `info` and the overwritten matrix. -/
structure Lapack (K : Type) where
  geqrf : Nat → Nat → (Nat → Nat → K) → (Nat → Nat → K) × (Nat → K)
  orm : Nat → Nat → (Nat → Nat → K) → (Nat → K) → Nat → Nat → K
  getrf : Nat → (Nat → Nat → K) → Nat × (Nat → Nat) × (Nat → Nat → K)
  potrf : Nat → (Nat → Nat → K) → Nat × (Nat → Nat → K)

/-- `ULV_Ls[node]`, `ULV_idx[node]`, `ULV_p[node]` (length and data), `ULV_Q[node]`, `ULV_L[node]`. -/
structure NodeFac (K : Type) where
  ls : Nat
  idx : List Nat
  pLen : Nat
  p : Nat → Nat
  q : Mat K
  l : Mat K

/-- The state of a factorization; `none` is `NULL`. -/
structure FSt (K : Type) where
  fac : Nat → Option (NodeFac K)
  um : Nat → Option (Mat K)
  dm : Nat → Option (Mat K)
  ok : Bool
  logdet : K

end

section
variable {K : Type} [Field K]

/-! ## BLAS -/

/-- TRSM with one right-hand side, left, lower triangular (only entries on and below the diagonal are read); `unit`: `CblasUnit`. -/
def fsub (unit : Bool) (l : Nat → Nat → K) (b : Nat → K) (i : Nat) : K :=
  (b i - ∑ j : Fin i, l i j.1 * fsub unit l b j.1) / (if unit then 1 else l i i)
termination_by i
decreasing_by exact j.2

/-- TRSM with one right-hand side, left, upper triangular, `n` rows: substitution from the last row on. -/
def bsub (n : Nat) (u : Nat → Nat → K) (b : Nat → K) (i : Nat) : K :=
  fsub false (fun r c => u (n - 1 - r) (n - 1 - c)) (fun r => b (n - 1 - r)) (n - 1 - i)

/-- ORMQR, side L, `Q^T C` for a matrix with `m` rows. -/
def mulTL (m : Nat) (q c : Nat → Nat → K) : Nat → Nat → K := fun i j => ∑ t ∈ Finset.range m, q t i * c t j

/-- ORMQR, side R, `C Q` for a matrix with `m` columns. -/
def mulR (m : Nat) (c q : Nat → Nat → K) : Nat → Nat → K := fun i j => ∑ t ∈ Finset.range m, c i t * q t j

/-- `copy_matrix` / GEMM / `H2P_transpose_dmat` into the `nr`-by-`nc` part of `d` that starts at row `r`, column `c`. -/
def putBlock (r c nr nc : Nat) (f d : Nat → Nat → K) : Nat → Nat → K := fun i j =>
  if r ≤ i ∧ i < r + nr ∧ c ≤ j ∧ j < c + nc then f (i - r) (j - c) else d i j

/-! ## Assembling `tmpU` and `tmpD` -/

/-- Child number `k` of node `v` (`node_children[k]`). -/
def child (R : Rep K) (v k : Nat) : Nat := (kids R.arr v).getD k 0

/-- The matrix behind a pointer. -/
def deref (m : Option (Mat K)) : Mat K := m.getD ⟨0, 0, fun _ _ => 0⟩

/-- src/H2Pack_HSS_ULV.c:107-116 (690-699): `offset[k]`. -/
def offset (R : Rep K) (dm : Nat → Option (Mat K)) (v k : Nat) : Nat :=
  ∑ j ∈ Finset.range k, (deref (dm (child R v j))).nrow

/-- A block returned by `H2P_get_Bij_block`, read with its leading dimension. -/
def blkMat (b : Blk K) : Mat K := ⟨b.nrow, b.ncol, fun i j => b.data (i * b.ld.toNat + j)⟩

/-- The block returned for the pair `a`, `b`. -/
def getMat (get : Nat → Nat → Option (Blk K)) (a b : Nat) : Mat K :=
  match get a b with
  | some x => blkMat x
  | none => ⟨0, 0, fun _ _ => 0⟩

/-- A block is found and its leading dimension can be passed to BLAS. -/
def usable (b : Option (Blk K)) : Bool :=
  match b with
  | some x => decide (0 ≤ x.ld)
  | none => false

/-- src/H2Pack_HSS_ULV.c:140-155 (723-738): `U_mid{child_k} * B * U_mid{child_l}'`. -/
def offDiag (getB : Nat → Nat → Option (Blk K)) (um : Nat → Option (Mat K)) (ck cl : Nat) : Nat → Nat → K :=
  let tmpB := getMat getB ck cl
  let tmpM : Mat K := ⟨tmpB.nrow, (deref (um cl)).nrow, fun a j => ∑ c ∈ Finset.range tmpB.ncol, tmpB.e a c * (deref (um cl)).e j c⟩
  fun i j => ∑ a ∈ Finset.range tmpM.nrow, (deref (um ck)).e i a * tmpM.e a j

/-- src/H2Pack_HSS_ULV.c:119-159 (702-742): the entries of `tmpD` for a node with children. -/
def tmpDInner (R : Rep K) (getB : Nat → Nat → Option (Blk K)) (um dm : Nat → Option (Mat K)) (v : Nat) : Nat → Nat → K :=
  (List.range (R.arr.nChild v)).foldl (fun d k =>
    let ck := child R v k
    let d := putBlock (offset R dm v k) (offset R dm v k) (deref (dm ck)).nrow (deref (dm ck)).ncol (deref (dm ck)).e d   -- lines 129-132
    (List.range' (k + 1) (R.arr.nChild v - (k + 1))).foldl (fun d l =>
      let cl := child R v l
      let d := putBlock (offset R dm v k) (offset R dm v l) (deref (um ck)).nrow (deref (um cl)).nrow (offDiag getB um ck cl) d  -- lines 151-155
      let idxk := offset R dm v (k + 1) - offset R dm v k
      let idxl := offset R dm v (l + 1) - offset R dm v l
      putBlock (offset R dm v l) (offset R dm v k) idxl idxk                                                             -- line 157
        (fun i j => d (offset R dm v k + j) (offset R dm v l + i)) d) d) (fun _ _ => 0)

/-- src/H2Pack_HSS_ULV.c:161-174 (744-757): the entries of `tmpU` before the multiplication with `U{node}`. -/
def tmpUDiag (R : Rep K) (um dm : Nat → Option (Mat K)) (v : Nat) : Nat → Nat → K :=
  (List.range (R.arr.nChild v)).foldl (fun u k =>
    let ck := child R v k
    putBlock (offset R dm v k) (offset R dm v k) (deref (um ck)).nrow (deref (um ck)).ncol (deref (um ck)).e u) (fun _ _ => 0)

/-- src/H2Pack_HSS_ULV.c:94-191 (677-774): `tmpU`, `tmpD` of `node`; `lvl` is the level.  `ub`: a block or an
intermediate matrix is missing, or a leading dimension is not the one passed to LAPACK later, or the assertion of line 191. -/
def assemble (R : Rep K) (getB getD : Nat → Nat → Option (Blk K)) (shift : K) (lvl : Nat) (um dm : Nat → Option (Mat K)) (v : Nat) :
    Res (Mat K × Mat K) :=
  if R.arr.nChild v = 0 then
    let tmpU := R.U v
    match getD v v with
    | none => .ub
    | some b =>
      if b.ld = (tmpU.nrow : Int) ∧ tmpU.ncol ≤ tmpU.nrow then
        .ok (tmpU, ⟨b.nrow, b.ncol, fun i j => if i = j ∧ i < b.nrow then b.data (i * b.ld.toNat + j) + shift
          else b.data (i * b.ld.toNat + j)⟩)
      else .ub
  else
    if ((kids R.arr v).all fun c => (um c).isSome && (dm c).isSome) &&
       ((List.range (R.arr.nChild v)).all fun k => (List.range' (k + 1) (R.arr.nChild v - (k + 1))).all fun l =>
          usable (getB (child R v k) (child R v l))) then
      let m := offset R dm v (R.arr.nChild v)                                                             -- line 114
      let tmpD : Mat K := ⟨m, m, tmpDInner R getB um dm v⟩
      let tmpU : Mat K := ⟨m, m, tmpUDiag R um dm v⟩
      let tmpU : Mat K := if 0 < lvl then ⟨m, (R.U v).ncol, fun i j => ∑ t ∈ Finset.range m, tmpU.e i t * (R.U v).e t j⟩ else tmpU   -- lines 177-186
      if tmpU.ncol ≤ tmpU.nrow then .ok (tmpU, tmpD) else .ub
    else .ub

/-! ## Factorizing one node -/

/-- What step 2 of the loops produces for a node: `info`, `ULV_Ls`, `ULV_p`, `ULV_Q`, `ULV_L`, `U_mid`, `D_mid` and the number
added to `HSS_logdet`. -/
structure Step (K : Type) where
  info : Nat
  ls : Nat
  pLen : Nat
  p : Nat → Nat
  q : Mat K
  l : Mat K
  um : Option (Mat K)
  dm : Option (Mat K)
  ld : K

/-- src/H2Pack_HSS_ULV.c:243-251, 321-329: from row interchanges to a permutation vector. -/
def permOf (d : Nat) (ipiv : Nat → Nat) : Nat → Nat :=
  (List.range d).foldl (fun perm k =>
    let piv := ipiv k - 1
    let p0 := perm k
    let p1 := perm piv
    Function.update (Function.update perm piv p0) k p1) (fun k => k)

/-- `prod *= a[k][k]`, `k < d`. -/
def diagProd (d : Nat) (a : Nat → Nat → K) : K := (List.range d).foldl (fun s k => s * a k k) 1

/-- `ULV_Q[node]`: `U_nrow + 1` rows, the last one holds `tau` (lines 200-206, 783-789). -/
def packQ (m n : Nat) (a : (Nat → Nat → K) × (Nat → K)) : Mat K := ⟨m + 1, n, fun i j => if i < m then a.1 i j else a.2 j⟩

/-- The matrix `Q` that ORMQR applies, from the stored `ULV_Q[node]` (lines 497-499, 583-585). -/
def applyQ (Lp : Lapack K) (m : Nat) (q : Mat K) : Nat → Nat → K :=
  Lp.orm m q.ncol (fun i j => q.e i j) (fun j => q.e (q.nrow - 1) j)

/-- src/H2Pack_HSS_ULV.c:207-214 (790-797): `U_mid{node} = R(1 : U_ncol, :)`. -/
def upperPart (n : Nat) (a : Nat → Nat → K) : Mat K := ⟨n, n, fun i j => if j < i then 0 else a i j⟩

/-- src/H2Pack_HSS_ULV.c:198-300: step 2 of the LU factorization below the root. -/
def luStep (Lp : Lapack K) (lg : K → K) (tmpU tmpD : Mat K) : Step K :=
  let m := tmpU.nrow
  let n := tmpU.ncol
  let d := m - n
  let qr := Lp.geqrf m n tmpU.e                                                        -- line 206
  let q := packQ m n qr
  let Q := Lp.orm m n qr.1 qr.2
  let t := mulR m (mulTL m Q tmpD.e) Q                                                 -- lines 217-218
  let d12 := fun i j => t i (n + j)                                                    -- lines 223-226
  let d21 := fun i j => t (n + i) j
  let d22 := fun i j => t (n + i) (n + j)
  let f := Lp.getrf d d22                                                              -- line 236
  let perm := permOf d f.2.1
  let lu := f.2.2
  let ld21 := fun i j => fsub true lu (fun r => d21 (perm r) j) i                      -- lines 257-266
  let du12 := fun i j => fsub false (fun r c => lu c r) (fun c => d12 i c) j           -- lines 269-272
  { info := if 0 < d then f.1 else 0
    ls := n                                                                            -- line 215
    pLen := d
    p := perm
    q := q
    l := ⟨m, m, fun i j =>                                                             -- lines 275-290
      if i < n then if j < n then if i = j then 1 else 0 else du12 i (j - n)
      else if j < n then ld21 (i - n) j else lu (i - n) (j - n)⟩
    um := some (upperPart n qr.1)
    dm := some ⟨n, n, fun i j => t i j - ∑ s ∈ Finset.range d, du12 i s * ld21 s j⟩     -- lines 292-300
    ld := if 0 < d then lg (diagProd d lu) else 0 }                                    -- lines 238-241

/-- src/H2Pack_HSS_ULV.c:301-335: step 2 of the LU factorization at the root. -/
def luRoot (Lp : Lapack K) (lg : K → K) (tmpU tmpD : Mat K) : Step K :=
  let m := tmpU.nrow
  let f := Lp.getrf m tmpD.e                                                           -- line 314
  { info := f.1
    ls := 0
    pLen := m
    p := permOf m f.2.1
    q := ⟨1, 1, fun _ _ => 0⟩
    l := ⟨m, m, f.2.2⟩
    um := none
    dm := none
    ld := lg (diagProd m f.2.2) }

/-- src/H2Pack_HSS_ULV.c:781-863: step 2 of the Cholesky factorization below the root.  The part of `tmpD22` above the diagonal is
cleared after POTRF (lines 813-818). -/
def cholStep (Lp : Lapack K) (lg : K → K) (tmpU tmpD : Mat K) : Step K :=
  let m := tmpU.nrow
  let n := tmpU.ncol
  let d := m - n
  let qr := Lp.geqrf m n tmpU.e
  let q := packQ m n qr
  let Q := Lp.orm m n qr.1 qr.2
  let t := mulR m (mulTL m Q tmpD.e) Q
  let d21 := fun i j => t (n + i) j
  let d22 := fun i j => t (n + i) (n + j)
  let f := Lp.potrf d d22                                                              -- line 812
  let l22 := fun i j => if i < j then 0 else f.2 i j
  let ld21 := fun i j => fsub false l22 (fun r => d21 r j) i                           -- lines 831-834
  { info := if 0 < d then f.1 else 0
    ls := n
    pLen := 0
    p := fun _ => 0
    q := q
    l := ⟨m, m, fun i j =>                                                             -- lines 837-853
      if i < n then if j < n then if i = j then 1 else 0 else ld21 (j - n) i
      else if j < n then 0 else l22 (i - n) (j - n)⟩
    um := some (upperPart n qr.1)
    dm := some ⟨n, n, fun i j => t i j - ∑ s ∈ Finset.range d, ld21 s i * ld21 s j⟩     -- lines 855-863
    ld := if 0 < d then 2 * lg (diagProd d l22) else 0 }                               -- lines 825-828

/-- src/H2Pack_HSS_ULV.c:864-889: step 2 of the Cholesky factorization at the root. -/
def cholRoot (Lp : Lapack K) (lg : K → K) (tmpU tmpD : Mat K) : Step K :=
  let m := tmpU.nrow
  let f := Lp.potrf m tmpD.e
  let l := fun i j => if i < j then 0 else f.2 i j
  { info := f.1
    ls := 0
    pLen := 0
    p := fun _ => 0
    q := ⟨1, 1, fun _ _ => 0⟩
    l := ⟨m, m, l⟩
    um := none
    dm := none
    ld := 2 * lg (diagProd m l) }

/-- src/H2Pack_HSS_ULV.c:339-375 (893-929): `ULV_idx[node]`. -/
def nodeIdx (R : Rep K) (st : FSt K) (v : Nat) : List Nat :=
  if R.arr.nChild v = 0 then (List.range (R.rowE v - R.rowS v)).map fun k => R.rowS v + k
  else (kids R.arr v).flatMap fun c => (List.range (deref (st.dm c)).nrow).map fun l =>
    ((st.fac c).map fun f => f.idx.getD l 0).getD 0

/-- src/H2Pack_HSS_ULV.c:88-387 (671-941): one iteration of the loop over the nodes of level `lvl`; `step`, `root` are step 2
below and at the root.  The arrays `ULV_idx`, `ULV_p`, `ULV_Q`, `ULV_L` of a node whose factorization fails are not recorded (its
`ULV_idx` stays `NULL`). -/
def facNode (step root : Mat K → Mat K → Step K) (R : Rep K) (getB getD : Nat → Nat → Option (Blk K)) (shift : K) (lvl : Nat)
    (st : FSt K) (v : Nat) : Res (FSt K) :=
  if st.ok = false then .ok st                                                         -- line 90
  else do
    let (tmpU, tmpD) ← assemble R getB getD shift lvl st.um st.dm v
    let s := if 0 < lvl then step tmpU tmpD else root tmpU tmpD
    let idx := nodeIdx R st v
    if s.info ≠ 0 then .ok { st with ok := false, logdet := st.logdet + s.ld }         -- lines 252-256, 338
    else if idx.length = s.l.nrow then                                                 -- lines 348-352, 370-374
      let kill := fun (f : Nat → Option (Mat K)) => (kids R.arr v).foldl (fun f c => Function.update f c none) f   -- lines 378-386
      .ok { fac := Function.update st.fac v (some ⟨s.ls, idx, s.pLen, s.p, s.q, s.l⟩)
            um := kill (Function.update st.um v s.um)
            dm := kill (Function.update st.dm v s.dm)
            ok := true
            logdet := st.logdet + s.ld }
    else .ub

/-- A loop whose body can fail. -/
def loop {σ α : Type} (f : σ → α → Res σ) : List α → σ → Res σ
  | [], s => .ok s
  | x :: xs, s => do
    let s ← f s x
    loop f xs s

/-- The nodes of all levels, from level `max_level` to level 0, with their levels; `ord l` is the order for level `l`. -/
def upOrder (R : Rep K) (ord : Nat → List Nat) : List (Nat × Nat) :=
  (List.range (R.arr.maxLevel + 1)).reverse.flatMap fun l => (ord l).map fun v => (l, v)

/-- The same from level 0 to level `max_level`. -/
def downOrder (R : Rep K) (ord : Nat → List Nat) : List (Nat × Nat) :=
  (List.range (R.arr.maxLevel + 1)).flatMap fun l => (ord l).map fun v => (l, v)

/-- src/H2Pack_HSS_ULV.c:42-71. -/
def FSt.init : FSt K := ⟨fun _ => none, fun _ => none, fun _ => none, true, 0⟩

/-- src/H2Pack_HSS_ULV.c:16-426 `H2P_HSS_ULV_LU_factorize`: `ULV_*` arrays, `is_HSS_SPD` (`ok`) and `HSS_logdet`. -/
def luFactorize (Lp : Lapack K) (lg : K → K) (R : Rep K) (getB getD : Nat → Nat → Option (Blk K)) (shift : K) (ord : Nat → List Nat) : Res (FSt K) :=
  loop (fun st (x : Nat × Nat) => facNode (luStep Lp lg) (luRoot Lp lg) R getB getD shift x.1 st x.2) (upOrder R ord) FSt.init

/-- src/H2Pack_HSS_ULV.c:600-978 `H2P_HSS_ULV_Cholesky_factorize`. -/
def cholFactorize (Lp : Lapack K) (lg : K → K) (R : Rep K) (getB getD : Nat → Nat → Option (Blk K)) (shift : K) (ord : Nat → List Nat) : Res (FSt K) :=
  loop (fun st (x : Nat × Nat) => facNode (cholStep Lp lg) (cholRoot Lp lg) R getB getD shift x.1 st x.2) (upOrder R ord) FSt.init

/-! ## Solves -/

/-- `pmt_x[idx->data[k]] = x0->data[k]`. -/
def scatter (idx : List Nat) (x0 : Nat → K) (x : Nat → K) : Nat → K :=
  (List.range idx.length).foldl (fun x k => Function.update x (idx.getD k 0) (x0 k)) x

/-- src/H2Pack_HSS_ULV.c:490-525: the part of `x` on the positions of a node in the up sweep of the LU solve; `top`: the node is the
root (`i == 0`). -/
def luUpLocal (Lp : Lapack K) (top : Bool) (f : NodeFac K) (x0 : Nat → K) : Nat → K :=
  let m := f.l.nrow
  let n := f.ls
  let d := m - n
  let b0 := if top then x0 else fun i => ∑ t ∈ Finset.range m, applyQ Lp m f.q t i * x0 t   -- lines 495-500
  let b2 := fun k => b0 (n + f.p k)                                                    -- lines 505-508
  let x2 := fun i => fsub true (fun r c => f.l.e (n + r) (n + c)) b2 i                 -- lines 516-519
  let x1 := fun i => b0 i - ∑ s ∈ Finset.range d, f.l.e i (n + s) * x2 s               -- lines 522-525
  fun k => if k < n then x1 k else x2 (k - n)

/-- src/H2Pack_HSS_ULV.c:559-586: the same in the down sweep. -/
def luDownLocal (Lp : Lapack K) (top : Bool) (f : NodeFac K) (b0 : Nat → K) : Nat → K :=
  let m := f.l.nrow
  let n := f.ls
  let d := m - n
  let b2 := fun i => b0 (n + i) - ∑ s ∈ Finset.range n, f.l.e (n + i) s * b0 s         -- lines 570-573
  let x2 := fun i => bsub d (fun r c => f.l.e (n + r) (n + c)) b2 i                    -- lines 575-578
  let x0 := fun k => if k < n then b0 k else x2 (k - n)
  if top then x0 else fun i => ∑ t ∈ Finset.range m, applyQ Lp m f.q i t * x0 t        -- lines 581-586

/-- Gather the entries of a node, apply the local operation, scatter the result (lines 492, 527, 560, 587 and similar). -/
def applyNode (loc : NodeFac K → (Nat → K) → Nat → K) (fac : Nat → Option (NodeFac K)) (x : Nat → K) (v : Nat) : Res (Nat → K) :=
  match fac v with
  | none => .ub
  | some f => .ok (scatter f.idx (loc f (fun k => x (f.idx.getD k 0))) x)

/-- src/H2Pack_HSS_ULV.c:480-528: one node of the up sweep of the LU solve, with the assertion of line 489. -/
def luUp (Lp : Lapack K) (fac : Nat → Option (NodeFac K)) (x : Nat → K) (lv : Nat × Nat) : Res (Nat → K) :=
  match fac lv.2 with
  | none => .ub
  | some f => if f.l.nrow - f.ls = f.pLen then applyNode (luUpLocal Lp (decide (lv.1 = 0))) fac x lv.2 else .ub

/-- src/H2Pack_HSS_ULV.c:548-588: one node of the down sweep of the LU solve. -/
def luDown (Lp : Lapack K) (fac : Nat → Option (NodeFac K)) (x : Nat → K) (lv : Nat × Nat) : Res (Nat → K) :=
  applyNode (luDownLocal Lp (decide (lv.1 = 0))) fac x lv.2

/-- src/H2Pack_HSS_ULV.c:428-598 `H2P_HSS_ULV_LU_solve`; `g` are the index arrays before `H2P_build_...` filled them, `dp`, `dx` the
previous contents of `pmt_x` and `x`.  `none`: an error message and no effect. -/
def luSolve (Lp : Lapack K) (R : Rep K) (fac : Nat → Option (NodeFac K)) (up down : Nat → List Nat) (g : (Nat → Nat) × (Nat → Nat))
    (dp dx : Nat → K) (op : Nat) (b : Nat → K) : Res (Option (Nat → K)) :=
  if op < 1 ∨ 3 < op then .ok none                                                     -- lines 441-445
  else do
    let x := permuteFwd R g b dp                                                       -- line 462
    let x ← if op % 2 = 1 then loop (luUp Lp fac) (upOrder R up) x else .ok x
    let x ← if op / 2 % 2 = 1 then loop (luDown Lp fac) (downOrder R down) x else .ok x
    .ok (some (permuteBwd R g x dx))                                                   -- line 593

/-- src/H2Pack_HSS_ULV.c:1039-1065: the part of `x` on the positions of a node below the root in the up sweep of the Cholesky solve. -/
def cholUpLocal (Lp : Lapack K) (f : NodeFac K) (x0 : Nat → K) : Nat → K :=
  let m := f.l.nrow
  let n := f.ls
  let d := m - n
  let b0 := fun i => ∑ t ∈ Finset.range m, applyQ Lp m f.q t i * x0 t                  -- line 1045
  let x2 := fun i => fsub false (fun r c => f.l.e (n + r) (n + c)) (fun k => b0 (n + k)) i   -- lines 1056-1059
  let x1 := fun i => b0 i - ∑ s ∈ Finset.range d, f.l.e i (n + s) * x2 s               -- lines 1062-1065
  fun k => if k < n then x1 k else x2 (k - n)

/-- src/H2Pack_HSS_ULV.c:1079-1082: the root in the up sweep. -/
def cholUpRootLocal (f : NodeFac K) (x0 : Nat → K) : Nat → K := fun i => fsub false f.l.e x0 i

/-- src/H2Pack_HSS_ULV.c:1096-1099: the root in the down sweep. -/
def cholDownRootLocal (f : NodeFac K) (x0 : Nat → K) : Nat → K := fun i => bsub f.l.nrow (fun r c => f.l.e c r) x0 i

/-- src/H2Pack_HSS_ULV.c:1125-1147: a node below the root in the down sweep of the Cholesky solve. -/
def cholDownLocal (Lp : Lapack K) (f : NodeFac K) (b0 : Nat → K) : Nat → K :=
  let m := f.l.nrow
  let n := f.ls
  let d := m - n
  let b2 := fun i => b0 (n + i) - ∑ s ∈ Finset.range n, f.l.e s (n + i) * b0 s         -- lines 1135-1138
  let x2 := fun i => bsub d (fun r c => f.l.e (n + c) (n + r)) b2 i                    -- lines 1140-1143
  let x0 := fun k => if k < n then b0 k else x2 (k - n)
  fun i => ∑ t ∈ Finset.range m, applyQ Lp m f.q i t * x0 t                            -- line 1147

/-- The orders of the levels `max_level` to 1, and of the levels 1 to `max_level`. -/
def upOrder1 (R : Rep K) (ord : Nat → List Nat) : List (Nat × Nat) :=
  (List.range' 1 R.arr.maxLevel).reverse.flatMap fun l => (ord l).map fun v => (l, v)
def downOrder1 (R : Rep K) (ord : Nat → List Nat) : List (Nat × Nat) :=
  (List.range' 1 R.arr.maxLevel).flatMap fun l => (ord l).map fun v => (l, v)

/-- src/H2Pack_HSS_ULV.c:980-1159 `H2P_HSS_ULV_Cholesky_solve`. -/
def cholSolve (Lp : Lapack K) (R : Rep K) (fac : Nat → Option (NodeFac K)) (up down : Nat → List Nat) (g : (Nat → Nat) × (Nat → Nat))
    (dp dx : Nat → K) (op : Nat) (b : Nat → K) : Res (Option (Nat → K)) :=
  if op < 1 ∨ 3 < op then .ok none
  else do
    let x := permuteFwd R g b dp                                                       -- line 1013
    let x ← if op % 2 = 1 then do
        let x ← loop (fun x (lv : Nat × Nat) => applyNode (cholUpLocal Lp) fac x lv.2) (upOrder1 R up) x      -- lines 1020-1070
        applyNode cholUpRootLocal fac x (R.arr.levelNodes 0)                             -- lines 1073-1083
      else .ok x
    let x ← if op / 2 % 2 = 1 then do
        let x ← applyNode cholDownRootLocal fac x (R.arr.levelNodes 0)                   -- lines 1090-1100
        loop (fun x (lv : Nat × Nat) => applyNode (cholDownLocal Lp) fac x lv.2) (downOrder1 R down) x       -- lines 1103-1151
      else .ok x
    .ok (some (permuteBwd R g x dx))

end

end H2Pack.ULV
