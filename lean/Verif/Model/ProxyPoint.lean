import Verif.Model.QR
import Verif.Model.Utils
import Verif.Model.BlockPart
import Verif.Model.MatvecJIT
import Mathlib.Analysis.SpecialFunctions.Pow.Real
import Mathlib.Analysis.SpecialFunctions.Log.Base

/-!
# Proxy points (src/H2Pack_gen_proxy_point.c, src/H2Pack_utils.c:46-66, 96-210)

Exact real arithmetic.  A set of points is a list of functions (coordinate `j` of point `i`; the program stores one point per column, the layout is not
modelled; `H2P_dense_mat_select_columns` for increasing indices is C35).  `rnd` is the sequence of values of `drand48()`, `rb` of `rand()` after the calls of `srand48`
and `srand`; rejection loops have fuel `fr`, the loops of the ID the fuel `fuel`.  For `pt_dim > 8` the program stops in an assertion, which is not modelled.
-/

namespace H2Pack.Proxy
open H2Pack.ID (Ops Stop IDEnv idCompress)
open H2Pack.MV (kmat)

/-- A point. -/
abbrev Pt := Nat → ℝ

/-- Point number `i` of a list. -/
def at' (P : List Pt) (i : Nat) : Pt := P.getD i (fun _ => 0)

/-! ## Auxiliary functions of H2Pack_utils.c -/

/-- src/H2Pack_utils.c:98-111 `H2P_point_in_box`. -/
noncomputable def pointInBox (dim : Nat) (x : Pt) (L : ℝ) : Bool := (List.range dim).all fun i => !(decide (x i < -(L * (1/2))) || decide (x i > L * (1/2)))

/-- src/H2Pack_utils.c:123-131: draw until the point lies in the ring; `t` values have been used. -/
noncomputable def ringDraw (dim : Nat) (L0 L1 : ℝ) (rnd : Nat → ℝ) : Nat → Nat → Res (Pt × Nat)
  | 0, _ => .diverge
  | fr + 1, t =>
    let x : Pt := fun j => if j < dim then rnd (t + j) * L1 - (1/2) * L1 else 0
    if pointInBox dim x L1 = true ∧ pointInBox dim x L0 = false then .ok (x, t + dim) else ringDraw dim L0 L1 rnd fr (t + dim)

/-- src/H2Pack_utils.c:115-133 `H2P_gen_coord_in_ring`. -/
noncomputable def genRing (dim : Nat) (L0 L1 : ℝ) (rnd : Nat → ℝ) (fr : Nat) : Nat → Nat → Res (List Pt × Nat)
  | 0, t => .ok ([], t)
  | n + 1, t => do
    let a ← ringDraw dim L0 L1 rnd fr t
    let b ← genRing dim L0 L1 rnd fr n a.2
    .ok (a.1 :: b.1, b.2)

/-- src/H2Pack_utils.c:53-65: the rows of one thread.  The start row is `n0_blk_start`, not `n0_blk_start * krnl_dim`. -/
def evalThread {K : Type} (kern : (Nat → K) → (Nat → K) → Nat → Nat → K) (kdim : Nat) (p0 : Nat → Nat → K) (n0 : Nat) (p1 : Nat → Nat → K) (n1 nThread : Nat)
    (M : Nat → Nat → K) (tid : Nat) : Nat → Nat → K :=
  match H2Pack.calcBlockSposLen n0 nThread tid with
  | some b => fun r c =>
    if b.spos.toNat ≤ r ∧ r < b.spos.toNat + b.len.toNat * kdim ∧ c < n1 * kdim then
      kmat kern kdim (fun i => p0 (b.spos.toNat + i)) p1 (r - b.spos.toNat) c
    else M r c
  | none => M

/-- src/H2Pack_utils.c:46-66 `H2P_eval_kernel_matrix_OMP`: the threads, in the order `ord`, store their rows.  `junk` is the content of the matrix before.  (Single
stores of different threads to the same entry happen in some order; here the threads store one after the other.) -/
def evalOMP {K : Type} (kern : (Nat → K) → (Nat → K) → Nat → Nat → K) (kdim : Nat) (p0 : Nat → Nat → K) (n0 : Nat) (p1 : Nat → Nat → K) (n1 nThread : Nat) (ord : List Nat)
    (junk : Nat → Nat → K) : Nat → Nat → K :=
  ord.foldl (evalThread kern kdim p0 n0 p1 n1 nThread) junk

/-- src/H2Pack_utils.c:154-181 `H2P_gen_rand_sparse_mat_trans`, the rows that are left: column indices and values (`+1` or `-1`). -/
def sparseCols (rb : Nat → Nat) (k nz fr : Nat) : Nat → Nat → Res (List (List Nat))
  | 0, _ => .ok []
  | n + 1, t => do
    let a ← H2Pack.Utils.sampleLoop rb k fr nz (fun _ => false) t
    let b ← sparseCols rb k nz fr n a.2
    .ok (a.1 :: b)

/-- Lines 162, 171-172: the values come first in the sequence of random numbers. -/
def sparseVal {K : Type} [Ring K] (rb : Nat → Nat) (l : Nat) : K := 2 * ((rb l % 2 : Nat) : K) - 1

/-- src/H2Pack_utils.c:184-210 `H2P_calc_sparse_mm_trans` with the matrix generated before: entry `(i, j)` of `y`. -/
def sparseMM {K : Type} [Ring K] (rb : Nat → Nat) (nz : Nat) (cols : List (List Nat)) (x : Nat → Nat → K) (i j : Nat) : K :=
  (List.range nz).foldl (fun r l => r + sparseVal rb (j * nz + l) * x i ((cols.getD j []).getD l 0)) 0

/-! ## H2P_generate_proxy_point_nlayer -/

/-- `round` of C: halves away from zero. -/
noncomputable def dround (x : ℝ) : Int := if 0 ≤ x then ⌊x + 1/2⌋ else ⌈x - 1/2⌉

/-- The arguments, the random sequences and the contents of buffers; `e f t` are the constants of the arithmetic of the ID (`realOps`). -/
structure Gen where
  dim : Nat
  kdim : Nat
  reltol : ℝ
  kern : Pt → Pt → Nat → Nat → ℝ
  L1 : ℝ
  L2 : ℝ
  L3 : ℝ
  alg : Nat
  nX : Nat
  nY : Nat
  maxLayer : Int
  ops : Ops ℝ
  sz : Nat
  nThread : Nat
  rnd : Nat → ℝ
  rb : Nat → Nat
  ord : Nat → List Nat
  junk : Nat → Nat → Nat → ℝ
  env : Nat → IDEnv ℝ

/-- Lines 67-68. -/
noncomputable def nLayer (G : Gen) : Int := min (if G.alg = 0 then 1 else dround ((G.L3 - G.L2) / G.L1)) G.maxLayer

/-- Lines 97-102: the layers of candidates (`k` layers are left, the next one is `i`). -/
noncomputable def genLayers (G : Gen) (fr : Nat) : Nat → Nat → Nat → Res (List (List Pt) × Nat)
  | 0, _, t => .ok ([], t)
  | k + 1, i, t => do
    let w := (G.L3 - G.L2) / (nLayer G : ℝ)
    let a ← genRing G.dim (G.L2 + w * i) (G.L2 + w * (i + 1)) G.rnd fr G.nY t
    let b ← genLayers G fr k (i + 1) a.2
    .ok (a.1 :: b.1, b.2)

/-- The kernel matrix of two point sets, as the program computes it in call number `c`. -/
def evalK (G : Gen) (c : Nat) (P Q : List Pt) : Nat → Nat → ℝ := evalOMP G.kern G.kdim (at' P) P.length (at' Q) Q.length G.nThread (G.ord c) (G.junk c)

/-- `H2P_dense_mat_select_columns`. -/
def select (P : List Pt) (J : Nat → Nat) (len : Nat) : List Pt := (List.range len).map fun i => at' P (J i)

/-- Lines 166-183 (and 229-252): the points of `P` that the ID of their kernel matrix with `Q` selects. -/
noncomputable def idSelect (G : Gen) (c : Nat) (P Q : List Pt) (fuel : Nat) : Res (List Pt) := do
  let r ← idCompress G.ops G.sz (P.length * G.kdim) (Q.length * G.kdim) G.kdim (.rel (G.reltol / 100)) (evalK G c P Q) false (G.env c) fuel
  .ok (select P r.1.1 r.1.2)

/-- Lines 105-155: the skeleton points in X. -/
noncomputable def skelX (G : Gen) (X0 Y0 : List Pt) (fr fuel : Nat) : Res (List Pt) := do
  let nz := min 32 (Y0.length * G.kdim)
  let cols ← sparseCols G.rb (Y0.length * G.kdim) nz fr (X0.length * G.kdim) (X0.length * G.kdim * nz)
  let r ← idCompress G.ops G.sz (X0.length * G.kdim) (X0.length * G.kdim) G.kdim (.rel (G.reltol / 100)) (sparseMM G.rb nz cols (evalK G 0 X0 Y0)) false (G.env 0) fuel
  .ok (select X0 r.1.1 r.1.2)

/-- Lines 205-259: layer by layer; the next layer has number `i`. -/
noncomputable def byLayer (G : Gen) (Xp : List Pt) (fuel : Nat) : List (List Pt) → Nat → List Pt → Res (List Pt)
  | [], _, Yp => .ok Yp
  | l :: ls, i, Yp => do
    let Yp ← idSelect G (i + 1) (Yp ++ l) Xp fuel
    byLayer G Xp fuel ls (i + 1) Yp

/-- Lines 157-260: the proxy points before the density is increased. -/
noncomputable def selectY (G : Gen) (layers : List (List Pt)) (Xp : List Pt) (fuel : Nat) : Res (List Pt) :=
  if G.alg = 0 ∨ G.alg = 1 then idSelect G 1 layers.flatten Xp fuel
  else if G.alg = 2 then byLayer G Xp fuel layers 0 []
  else .ub

/-- Lines 281-285. -/
noncomputable def ptDist (dim : Nat) (x y : Pt) : ℝ := Real.sqrt ((List.range dim).foldl (fun s k => s + (x k - y k) * (x k - y k)) 0)

/-- Lines 270-289: `min_dist`; the pairs `(i, j)`, `j < i`, one after the other. -/
noncomputable def minDist (dim : Nat) (Y : List Pt) : Nat → ℝ :=
  ((List.range Y.length).flatMap fun i => (List.range i).map fun j => (i, j)).foldl (fun m p =>
    let d := ptDist dim (at' Y p.1) (at' Y p.2)
    let m1 := Function.update m p.1 (min (m p.1) d)
    Function.update m1 p.2 (min (m1 p.2) d)) fun _ => 10 ^ 99

/-- Lines 302-319: draw until the point near `x` lies in the ring.  A zero vector gives NaN coordinates, which `H2P_point_in_box` takes to be inside of every box: it
is drawn again. -/
noncomputable def nearDraw (G : Gen) (x : Pt) (rad : ℝ) : Nat → Nat → Res (Pt × Nat)
  | 0, _ => .diverge
  | fr + 1, t =>
    let u : Pt := fun j => G.rnd (t + j) - 1/2
    let r1 := (List.range G.dim).foldl (fun s j => s + u j * u j) 0
    let y : Pt := fun j => if j < G.dim then u j * (1 / Real.sqrt r1) * rad + x j else 0
    if r1 ≠ 0 ∧ pointInBox G.dim y G.L2 = false ∧ pointInBox G.dim y G.L3 = true then .ok (y, t + G.dim) else nearDraw G x rad fr (t + G.dim)

/-- Lines 291-328: a second point near every selected one; `i` is the number of the next point. -/
noncomputable def densify (G : Gen) (m : Nat → ℝ) (fr : Nat) : List Pt → Nat → Nat → Res (List Pt)
  | [], _, _ => .ok []
  | x :: Y, i, t => do
    let a ← nearDraw G x (m i * (33 / 100)) fr t
    let b ← densify G m fr Y (i + 1) a.2
    .ok (x :: a.1 :: b)

/-- src/H2Pack_gen_proxy_point.c:57-355 `H2P_generate_proxy_point_nlayer`: the points `pp`. -/
noncomputable def nlayer (G : Gen) (fr fuel : Nat) : Res (List Pt) := do
  let X0 ← genRing G.dim 0 G.L1 G.rnd fr G.nX 0
  let Y0 ← genLayers G fr (nLayer G).toNat 0 X0.2
  let Xp ← skelX G X0.1 Y0.1.flatten fr fuel
  let Yp ← selectY G Y0.1 Xp fuel
  if 1 / 10 ^ 12 ≤ G.reltol then .ok Yp else densify G (minDist G.dim Yp) fr Yp 0 Y0.2

end H2Pack.Proxy
