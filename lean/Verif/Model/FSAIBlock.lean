import Verif.Model.FSAIKnn
import Verif.Model.FSAI
import Verif.Model.CSRPlus

/-!
# The block FSAI preconditioner for H2 matrices (examples/SPDHSS-H2/FSAI_precond.c:202-434)

Exact real arithmetic, unbounded integers, allocation does not fail.  `POTRF` is a parameter (`ULV.Lapack`), `GETRF` followed by `GETRS` is the parameter
`solve` (the code does not look at its return values), `TRSM` is modelled by what it computes.  A failing `ASSERT_PRINTF` ends the program: the outcome
`none`.  The kernel function of the user is a function of two points and of the components; it reads the first `xpt_dim` coordinates.
-/

namespace H2Pack.FSB
open H2Pack.CSR (COO Mat cooToCSR)
open H2Pack.ULV (Lapack fsub)
open H2Pack.AFN (fsaiEntries cooG cooGT)
open H2Pack.CSRP (Blk)

/-- What the build reads: `coord p d` is coordinate `d` of the sorted point `p`, `solve d A m B` is the result of GETRF and GETRS. -/
structure In where
  lp : Lapack ℝ
  solve : Nat → (Nat → Nat → ℝ) → Nat → (Nat → Nat → ℝ) → Nat → Nat → ℝ
  kern : (Nat → ℝ) → (Nat → ℝ) → Nat → Nat → ℝ
  xdim : Nat
  n : Nat
  kd : Nat
  coord : Nat → Nat → ℝ
  shift : ℝ

/-- The coordinates of point `p` the kernel function sees (lines 285-293). -/
def In.pt (F : In) (p : Nat) : Nat → ℝ := fun d => if d < F.xdim then F.coord p d else 0

/-- Lines 272-284: `nn_idx`. -/
def nbr (L : List Nat) (i : Nat) : List Nat := L.filter (fun q => decide (q < i)) ++ [i]

/-- Lines 353-359: `col_idx`. -/
def cols (kd : Nat) (N : List Nat) : List Nat := (List.range (N.length * kd)).map fun k => kd * N.getD (k / kd) 0 + k % kd

/-- Lines 294-304: `tmpA`. -/
def tmpA (F : In) (N : List Nat) (p q : Nat) : ℝ :=
  F.kern (F.pt (N.getD (p / F.kd) 0)) (F.pt (N.getD (q / F.kd) 0)) (p % F.kd) (q % F.kd) + if p = q then F.shift else 0

/-- Lines 305-309: `tmpU` before the solution. -/
def unitCols (kd m : Nat) (p j : Nat) : ℝ := if p = kd * (m - 1) + j then 1 else 0

/-- Lines 310-319: `tmpU`. -/
noncomputable def tmpU (F : In) (N : List Nat) : Nat → Nat → ℝ :=
  if N.length * F.kd = 1 then fun p j => unitCols F.kd N.length p j / tmpA F N 0 0
  else F.solve (N.length * F.kd) (tmpA F N) F.kd (unitCols F.kd N.length)

/-- Lines 320-352: `tmpY`. -/
noncomputable def tmpY (F : In) (N : List Nat) : Option (Nat → Nat → ℝ) :=
  let U := tmpU F N
  let a := N.length * F.kd
  if F.kd = 1 then some fun _ k => U k 0 * (1 / Real.sqrt (U (a - 1) 0))                 -- lines 324-327
  else
    let D := fun j k => U (a - F.kd + k) j                                               -- lines 329-332
    let f := F.lp.potrf F.kd (fun j k => 0.5 * (D j k + D k j))                          -- lines 333-345
    if f.1 = 0 then some fun j k => fsub false f.2 (fun r => U k r) j else none          -- lines 346-351

/-- Lines 360-370 for all points: the arrays `row`, `col`, `val`; the row `krnl_dim * i + j` of the loops over `i` and `j` is the index of one loop.  The
parallel iterations write to the disjoint parts the prefix sums in `row_ptr` (lines 242-254) reserve. -/
def entries (n kd : Nat) (N : Nat → List Nat) (Y : Nat → Nat → Nat → ℝ) : List (Nat × Nat × ℝ) :=
  fsaiEntries (n * kd) (fun r => cols kd (N (r / kd))) fun r => (List.range ((N (r / kd)).length * kd)).map fun k => Y (r / kd) (r % kd) k

/-- The preconditioner. -/
structure Precond where
  nblk : Nat
  g : Mat ℝ
  gp : Nat → Blk
  gt : Mat ℝ
  gtp : Nat → Blk

/-- Contents of fresh memory and the orders of the parallel loops of the conversions and of the copies. -/
structure Env where
  col0 : Nat → Int
  val0 : Nat → ℝ
  d0 : Nat → Nat
  ordG : List Nat
  ordGT : List Nat
  ordC : List Nat
  junk : Mat ℝ

/-- examples/SPDHSS-H2/FSAI_precond.c:203-419 `H2P_build_FSAI_precond` after the search of the neighbours (line 235): `k` is `n_neighbor`, `nn p` is
`knn[p * k ..]`.  The entries are written behind the arrays if there are more than `max_nnz` (line 223). -/
noncomputable def build (F : In) (k nThread : Nat) (nn : Nat → List Nat) (ev : Env) (fuel : Nat) : Res (Option Precond) :=
  let N := fun i => nbr (nn i) i
  if F.kd * F.kd * k * F.n < ((List.range F.n).map fun i => (N i).length * F.kd * F.kd).sum then .ub
  else if ∀ i < F.n, (tmpY F (N i)).isSome then do
    let E := entries F.n F.kd N fun i => (tmpY F (N i)).getD fun _ _ => 0
    let g ← cooToCSR (cooG (F.n * F.kd) E) ev.col0 ev.val0 ev.ordG fuel                  -- line 375
    let gt ← cooToCSR (cooGT (F.n * F.kd) E) ev.col0 ev.val0 ev.ordGT fuel               -- line 376
    let gp ← CSRP.partition (F.n * F.kd) g.rp nThread ev.d0 fuel                         -- line 377
    let gtp ← CSRP.partition (F.n * F.kd) gt.rp nThread ev.d0 fuel                       -- line 378
    .ok (some ⟨nThread, CSRP.optimize (F.n * F.kd) g gp ev.ordC ev.junk, gp, CSRP.optimize (F.n * F.kd) gt gtp ev.ordC ev.junk, gtp⟩)
  else .ok none

/-- Lines 423-434 `FSAI_precond_apply`; `merge` is the order of the writes of the threads, `fr0`, `lr0`, `y0`, `y1` are the previous contents of the arrays. -/
noncomputable def apply (size : Nat) (Q : Precond) (fwd bwd : Nat → Nat) (merge : List (List (Nat × ℝ)) → List (Nat × ℝ)) (fr0 lr0 y0 y1 b x : Nat → ℝ) :
    Res (Nat → ℝ) := do
  let x0 ← CSRP.spmv size Q.nblk Q.g Q.gp (fun r => b (fwd r)) merge fr0 lr0 y0
  let px ← CSRP.spmv size Q.nblk Q.gt Q.gtp x0 merge fr0 lr0 y1
  .ok fun r => if r < size then px (bwd r) else x r

end H2Pack.FSB
