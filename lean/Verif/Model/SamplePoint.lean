import Verif.Model.BuildUJ
import Mathlib.Analysis.SpecialFunctions.Trigonometric.Basic
import Mathlib.Analysis.SpecialFunctions.Log.Base

/-!
# Sample points (src/H2Pack_build_with_sample_point.c)

Exact real arithmetic; `int` does not overflow.  A dense matrix with one point per column is the list of its columns (`Pt`: the coordinates of a point;
`pt_dim = xpt_dim`, which line 250 demands).  The conversion of a NaN or an infinity to `int` and a read of a column that does not exist are undefined
behaviour (`Res.ub`).  Memory allocation succeeds.
-/

namespace H2Pack.Sample
open H2Pack.Part (Arr kids)
open H2Pack.MV (kmat point)
open H2Pack.ID (Ops Stop IDEnv idCompress)

/-- A column of a coordinate matrix. -/
abbrev Pt := Nat → ℝ

/-- Lines 29-34 (and 180-185): largest of `x 0, ..., x (n-1)`. -/
noncomputable def maxC (x : Nat → ℝ) (n : Nat) : ℝ := (List.range' 1 (n - 1)).foldl (fun m j => if x j > m then x j else m) (x 0)

/-- Lines 29-34 (and 180-185): smallest of `x 0, ..., x (n-1)`. -/
noncomputable def minC (x : Nat → ℝ) (n : Nat) : ℝ := (List.range' 1 (n - 1)).foldl (fun m j => if x j < m then x j else m) (x 0)

/-- Coordinate `i` of column `j` of a matrix of points. -/
def crd (P : List Pt) (i j : Nat) : ℝ := P.getD j (fun _ => 0) i

/-- src/H2Pack_build_with_sample_point.c:24-37 `H2P_calc_enclosing_box_size`.  Line 29 reads column 0. -/
noncomputable def boxSize (dim : Nat) (P : List Pt) : Res (Nat → ℝ) :=
  if 0 < dim ∧ P.length = 0 then .ub
  else .ok fun i => maxC (crd P i) P.length - minC (crd P i) P.length

/-- Lines 62-72: position of the largest entry, the lowest one if there are several. -/
noncomputable def argMax (x : Nat → ℝ) (n : Nat) : Nat :=
  ((List.range' 1 (n - 1)).foldl (fun (m : ℝ × Nat) i => if x i > m.1 then (x i, i) else m) (x 0, 0)).2

/-- Lines 49-51: `sum_prop`. -/
noncomputable def sumProp (nelem : Nat) (prop : Nat → ℝ) : ℝ := (List.range nelem).foldl (fun s i => s + prop i) 0

/-- Lines 59-74, one iteration of the `k` loop. -/
noncomputable def bump (nelem : Nat) (q : Nat → ℝ) (d : Nat → Int) : Nat → Int :=
  let m := argMax (fun i => q i - d i) nelem
  Function.update d m (d m + 1)

/-- src/H2Pack_build_with_sample_point.c:47-78 `H2P_proportional_int_decompose`: `decomp` and the return value.  Line 55 divides by `sum_prop`; a zero
gives NaN or an infinity, which line 56 converts to `int`. -/
noncomputable def decompose (nelem : Nat) (sum : Int) (prop : Nat → ℝ) : Res ((Nat → Int) × Int) :=
  let s := sumProp nelem prop                                                            -- line 51
  if s = 0 then .ub
  else
    let q := fun i => (sum : ℝ) * prop i / s                                             -- line 55
    let d0 := fun i => ⌊q i⌋                                                             -- line 56
    let sum0 := (List.range nelem).foldl (fun t i => t + d0 i) (0 : Int)                 -- line 57
    let d := (bump nelem q)^[(sum - sum0).toNat] d0                                      -- lines 59-74
    .ok (d, (List.range nelem).foldl (fun t i => t * (d i + 1)) 1)                       -- lines 75-76

/-- src/H2Pack_build_with_sample_point.c:98-137: `anchor_dim_i[j]` for the dimension with the bounds `lo`, `hi` and `enbox_size` `e`, grid size `g`.  With
`grid_algo` 4, 5 or above 6 the constants `c0`, `c1`, `c2` are not set, with other values below 4 than 2 the array is not set for `g > 0`: not called (`0` here). -/
noncomputable def anchorDim (algo : Nat) (lo hi e : ℝ) (g j : Nat) : ℝ :=
  if algo = 6 then
    let size := 1 * e / ((g : ℝ) + 1 / 2)                                                -- line 132
    lo + 1 / 4 * size + size * (j : ℝ)                                                   -- line 135
  else if g = 0 then (lo + hi) * (1 / 2)                                                 -- line 102
  else if algo = 2 then
    let s0 := 1 / 2 * (hi + lo)                                                          -- lines 110-112
    let s1 := 1 / 2 * (hi - lo)
    let s2 := Real.pi / (2 * (g : ℝ) + 2)
    let v0 := 2 * (j : ℝ) + 1
    s0 + s1 * Real.cos (v0 * s2)                                                         -- lines 115-117
  else 0

/-- Lines 140-142: `stride[j]`. -/
def stride (g : Nat → Nat) : Nat → Nat
  | 0 => 1
  | j + 1 => stride g j * (g j + 1)

/-- src/H2Pack_build_with_sample_point.c:80-151 `H2P_select_anchor_grid`: the columns of `anchor_coord`.  Line 89 computes `anchor_npt` as `stride[pt_dim]`. -/
noncomputable def anchors (algo dim : Nat) (lo hi e : Nat → ℝ) (g : Nat → Nat) : List Pt :=
  (List.range (stride g dim)).map fun i j => anchorDim algo (lo j) (hi j) (e j) (g j) (i / stride g j % (g j + 1))

/-- src/H2Pack_utils.c:69-94 `H2P_calc_pdist2_OMP`: squared distance of two points. -/
noncomputable def dist2 (dim : Nat) (p q : Pt) : ℝ := (List.range dim).foldl (fun s d => s + (p d - q d) * (p d - q d)) 0

/-- Lines 216-225 (and 628-638, 686-695, 717-726): position of the smallest entry, the lowest one if there are several. -/
noncomputable def argMin (x : Nat → ℝ) (n : Nat) : Nat :=
  ((List.range' 1 (n - 1)).foldl (fun (m : ℝ × Nat) i => if x i < m.1 then (x i, i) else m) (x 0, 0)).2

/-- Lines 211-225: position of the point of `P` nearest to the anchor `a`. -/
noncomputable def nearest (dim : Nat) (P : List Pt) (a : Pt) : Nat := argMin (fun j => dist2 dim a (P.getD j fun _ => 0)) P.length

/-- Lines 203-228: the flags after the loop over the anchors `L`, in the order in which they are taken; lines 230-239: the flagged positions. -/
noncomputable def flagged (dim : Nat) (P : List Pt) (L : List Pt) : List Nat :=
  let flag := L.foldl (fun f a => Function.update f (nearest dim P a) (1 : Int)) (fun _ => -1)
  (List.range P.length).filter fun i => flag i ≠ -1

/-- src/H2Pack_build_with_sample_point.c:163-243 `H2P_select_cluster_sample`: `sample_idx`.  Line 180 reads column 0.  `sched` is the order in which the threads
take the anchors (line 208). -/
noncomputable def clusterSample (dim : Nat) (P : List Pt) (g : Nat → Nat) (algo : Nat) (sched : List Pt → List Pt) : Res (List Nat) :=
  if P.length = 0 then .ub
  else
    let lo := fun i => minC (crd P i) P.length
    let hi := fun i => maxC (crd P i) P.length
    .ok (flagged dim P (sched (anchors algo dim lo hi (fun i => hi i - lo i) g)))

/-- src/H2Pack_aux_structs.c `H2P_dense_mat_select_columns` on a list of columns (the storage is the subject of `Model/DenseMat.lean`). -/
def select (P : List Pt) (idx : List Nat) : List Pt := idx.map fun j => P.getD j fun _ => 0

/-! ### The grid size -/

/-- Inputs of `H2P_select_sample_point_r`: kernel, `k` of line 252, `L` of lines 257-260, `tau`, `reltol`, the values of `drand48()` in the order of the calls,
the arithmetic and the buffers of the ID. -/
structure RIn where
  dim : Nat
  kdim : Nat
  kern : Pt → Pt → Nat → Nat → ℝ
  k : Nat
  len : ℝ
  tau : ℝ
  reltol : ℝ
  rnd : Nat → ℝ
  ops : Ops ℝ
  sz : Nat
  env : Nat → IDEnv ℝ
  sched : List Pt → List Pt

/-- Lines 257-260: the shortest side of the root box, divided by 6. -/
noncomputable def boxLen (dim : Nat) (ext : Nat → ℝ) : ℝ :=
  (List.range' 1 (dim - 1)).foldl (fun L i => if L > ext i then ext i else L) (ext 0) / 6

/-- Lines 279-280: `stop_tol`. -/
noncomputable def RIn.tol (S : RIn) : ℝ := if S.reltol * (1 / 1000) < 1 / 10 ^ 14 then 1 / 10 ^ 14 else S.reltol * (1 / 1000)

/-- Lines 310-311: `stop_err`. -/
noncomputable def RIn.stopErr (S : RIn) : ℝ := if S.reltol * (1 / 10000) < 1 / 10 ^ 13 then 1 / 10 ^ 13 else S.reltol * (1 / 10000)

/-- Lines 285-290: the first set of points (`coord0->data[d * k + j]`). -/
noncomputable def RIn.c0 (S : RIn) : List Pt := (List.range S.k).map fun j d => S.len * S.rnd (2 * (d * S.k + j))

/-- Lines 285-290: the second set of points, shifted. -/
noncomputable def RIn.c1 (S : RIn) : List Pt := (List.range S.k).map fun j d => S.len * S.rnd (2 * (d * S.k + j) + 1) + S.len / S.tau

/-- Lines 294-297: the first value of `r`.  Line 296 takes the square root of a negative number and converts it to `int` when `stop_tol > 1`. -/
noncomputable def RIn.r0 (S : RIn) : Res Int :=
  let r1 := ⌊-(125 / 100) * Real.logb 10 S.tol - 25 / 100⌋
  let r1 := if r1 < 1 then 1 else r1
  let x := ⌊2 * Real.logb 10 S.tol / Real.logb 10 (7 / 10)⌋
  if x < 0 then .ub
  else
    let r2 := ⌈Real.sqrt (x : ℝ)⌉
    .ok (if r1 < r2 then r1 else r2)

/-- The points as the columns of a matrix with leading dimension the number of columns. -/
def col (P : List Pt) (j : Nat) : Pt := P.getD j fun _ => 0

/-- Lines 368-375: Frobenius norm of `A0 - U * A0(sub_idx, :)`; lines 305-308: of `A0`. -/
noncomputable def fnorm (n : Nat) (M : Nat → Nat → ℝ) : ℝ := Real.sqrt (∑ i ∈ Finset.range n, ∑ j ∈ Finset.range n, M i j * M i j)

/-- Lines 376 and 379: `relerr < stop_err`; NaN and infinity are not below. -/
noncomputable def below (err nrm stop : ℝ) : Prop := nrm ≠ 0 ∧ err / nrm < stop

/-- Lines 346-372: `A0 - U * A0(sub_idx, :)`. -/
noncomputable def resid (S : RIn) (J : Nat → Nat) (len : Nat) (U : H2Pack.Dense.Mat ℝ) : Nat → Nat → ℝ := fun i j =>
  kmat S.kern S.kdim (col S.c0) (col S.c1) i j -
    ∑ t ∈ Finset.range (len * S.kdim), U.entry i t * kmat S.kern S.kdim (col S.c0) (col S.c1) (J (t / S.kdim) * S.kdim + t % S.kdim) j

/-- Lines 314-376: one pass of the loop up to `relerr`: the number of selected rows and whether `relerr < stop_err`.  `t` counts the passes. -/
noncomputable def rPass (S : RIn) (t : Nat) (r : Int) (fuel : Nat) : Res (Nat × Prop) := do
  let e ← boxSize S.dim S.c1
  let d ← decompose S.dim r e
  let s ← clusterSample S.dim S.c1 (fun i => (d.1 i).toNat) 6 S.sched
  let c1s := select S.c1 s
  let id ← idCompress S.ops S.sz (S.k * S.kdim) (c1s.length * S.kdim) S.kdim (.rel S.tol) (kmat S.kern S.kdim (col S.c0) (col c1s)) true (S.env t) fuel
  .ok (id.1.2, below (fnorm (S.k * S.kdim) (resid S id.1.1 id.1.2 id.2)) (fnorm (S.k * S.kdim) (kmat S.kern S.kdim (col S.c0) (col S.c1))) S.stopErr)

open Classical in
/-- Lines 312-381: the loop; `fuel` bounds the passes and the inner loops of the ID. -/
noncomputable def rLoop (S : RIn) (idFuel : Nat) : Nat → Nat → Int → Int → Res Int
  | 0, _, _, _ => .diverge
  | fuel + 1, t, r, last => do
    let p ← rPass S t r idFuel
    let r' := if p.2 then r else r + 1                                                   -- line 379
    if (p.1 : Int) - last < 2 ∨ p.2 then .ok r'                                          -- lines 378-379
    else rLoop S idFuel fuel (t + 1) r' p.1

/-- src/H2Pack_build_with_sample_point.c:245-397 `H2P_select_sample_point_r`. -/
noncomputable def selectR (S : RIn) (fuel : Nat) : Res Int := do
  let r ← S.r0
  rLoop S fuel fuel 0 r 1

/-! ### Refined points and sample points of the nodes -/

/-- Inputs of `H2P_select_sample_point` (lines 400-793): tree, points in the order of the tree (`coord[d * n_point + j]`), the reduced admissible pairs and
`min_adm_level` (of H2 or HSS), `H2P_SELECT_SP_ALG`. -/
structure In where
  arr : Arr ℝ
  nPoint : Nat
  dim : Nat
  coord : Nat → ℝ
  adm : List (Nat × Nat)
  minAdm : Nat
  alg : Nat

/-- Point `j` in the order of the tree. -/
def In.pt (S : In) (j : Nat) : Pt := fun d => S.coord (d * S.nPoint + j)

/-- Lines 437-443: `adm_list[v]`. -/
def In.admList (S : In) (v : Nat) : List Nat :=
  (S.adm.foldl (fun (f : Nat → List Nat) (p : Nat × Nat) =>
    let f := Function.update f p.1 (f p.1 ++ [p.2])
    Function.update f p.2 (f p.2 ++ [p.1])) (fun _ => [])) v

/-- Lines 458-489, step (1) for one node: the points of a leaf, the refined points of the children of an inner node. -/
noncomputable def gatherUp (S : In) (v : Nat) (clu : Nat → List Pt) : List Pt :=
  if S.arr.nChild v = 0 then (List.range' (S.arr.ptS v) (S.arr.ptE v - S.arr.ptS v + 1)).map S.pt
  else (kids S.arr v).flatMap clu

/-- Lines 502-511, step (2) for one node; `r` is `r_up`. -/
noncomputable def refineUp (dim : Nat) (r : Int) (P : List Pt) : Res (List Pt) :=
  if P.length ≤ 5 then .ok P
  else do
    let e ← boxSize dim P
    let d ← decompose dim r e
    if d.2 < P.length then do
      let s ← clusterSample dim P (fun i => (d.1 i).toNat) 6 id
      .ok (select P s)
    else .ok P

/-- A parallel loop over the nodes `order`: every node computes a matrix of points from the state and writes it to the slots `W v`. -/
def sweep (W : Nat → List Nat) (g : Nat → (Nat → List Pt) → Res (List Pt)) (order : List Nat) (st : Nat → List Pt) : Res (Nat → List Pt) :=
  order.foldl (fun r v => r.bind fun st => (g v st).bind fun P => .ok fun u => if u ∈ W v then P else st u) (.ok st)

/-- Lines 454-516: one level of the bottom-up sweep: step (1) in the order `o1`, step (2) in the order `o2`. -/
noncomputable def upLevel (S : In) (r : Int) (o1 o2 : List Nat) (clu : Nat → List Pt) : Res (Nat → List Pt) := do
  let clu ← sweep (fun v => [v]) (fun v st => .ok (gatherUp S v st)) o1 clu
  sweep (fun v => [v]) (fun v st => refineUp S.dim r (st v)) o2 clu

/-- Lines 449-517: the levels `max_level, ..., min_adm_level`. -/
noncomputable def upSweep (S : In) (r : Int) (o1 o2 : Nat → List Nat) : Res (Nat → List Pt) :=
  ((List.range (S.arr.maxLevel + 1)).reverse.filter (fun l => S.minAdm ≤ l)).foldl
    (fun st l => st.bind fun clu => upLevel S r (o1 l) (o2 l) clu) (.ok fun _ => [])

/-- Lines 548-569: bounds of the refined points of the far-field nodes, from `1e100` and `-1e100`. -/
noncomputable def farLo (F : List Pt) (i : Nat) : ℝ := F.foldl (fun m p => if m < p i then m else p i) (10 ^ 100)

/-- Lines 548-569. -/
noncomputable def farHi (F : List Pt) (i : Nat) : ℝ := F.foldl (fun m p => if m > p i then m else p i) (-(10 ^ 100))

/-- Lines 593-605: the centre of the points of one far-field node. -/
noncomputable def centre (P : List Pt) : Pt := fun i => P.foldl (fun s p => s + p i) 0 / (P.length : ℝ)

/-- Lines 671-706: the points of `P` nearest to the anchors of its group, in the order of `P`; lines 710-732: without anchors, the point nearest to the centre. -/
noncomputable def groupPick (dim : Nat) (P : List Pt) (grp : List Pt) : List Pt :=
  if grp = [] then [P.getD (nearest dim P (centre P)) fun _ => 0] else select P (flagged dim P grp)

/-- Lines 590-742: the selection by anchors.  Lines 642-659 sort the anchors by groups, keeping the order inside a group: here a filter.  A far-field node without refined
points makes line 686 or 717 read past the end of `tmp_dist2`. -/
noncomputable def pickFar (dim : Nat) (far : List (List Pt)) (lo hi : Nat → ℝ) (g : Nat → Nat) : Res (List Pt) :=
  if ∃ P ∈ far, P = [] then .ub
  else
    let anc := anchors 2 dim lo hi (fun i => hi i - lo i) g
    let iG := fun a => argMin (fun k => dist2 dim a (centre (far.getD k []))) far.length
    .ok ((List.range far.length).flatMap fun k => groupPick dim (far.getD k []) (anc.filter fun a => iG a = k))

/-- Lines 546-742: `yFi`; `far` lists the refined points of the nodes of `adm_list`, `r` is `r_down`. -/
noncomputable def farPoints (dim alg : Nat) (r : Int) (far : List (List Pt)) : Res (List Pt) := do
  let F := far.flatten
  let lo := farLo F
  let hi := farHi F
  let d ← decompose dim r (fun i => hi i - lo i)
  if d.2 > F.length ∨ alg = 0 then .ok F
  else pickFar dim far lo hi (fun i => (d.1 i).toNat)

/-- Lines 757-763. -/
noncomputable def refineDown (dim : Nat) (r : Int) (P : List Pt) : Res (List Pt) := do
  let e ← boxSize dim P
  let d ← decompose dim r e
  if d.2 < P.length then do
    let s ← clusterSample dim P (fun i => (d.1 i).toNat) 2 id
    .ok (select P s)
  else .ok P

/-- Lines 546-763 for a node with a non-empty `adm_list`: its sample points; `sp v` was written by the parent. -/
noncomputable def downNode (S : In) (r : Int) (clu : Nat → List Pt) (v : Nat) (sp : Nat → List Pt) : Res (List Pt) := do
  let y ← farPoints S.dim S.alg r ((S.admList v).map clu)
  refineDown S.dim r (sp v ++ y)

/-- Lines 525-781: one level of the top-down sweep; nodes with an empty `adm_list` are skipped (line 544); lines 765-774: the children get a copy. -/
noncomputable def downLevel (S : In) (r : Int) (clu : Nat → List Pt) (order : List Nat) (sp : Nat → List Pt) : Res (Nat → List Pt) :=
  sweep (fun v => v :: kids S.arr v) (downNode S r clu) (order.filter fun v => S.admList v ≠ []) sp

/-- Lines 520-522: `r_down`. -/
def rDown (ri : Int) : Int := if ri > 3 then (if ri + 3 > 10 then ri + 3 else 10) else ri + 3

/-- Lines 523-782: the levels `min_adm_level, ..., max_level`. -/
noncomputable def downSweep (S : In) (r : Int) (clu : Nat → List Pt) (o : Nat → List Nat) : Res (Nat → List Pt) :=
  ((List.range (S.arr.maxLevel + 1)).filter (fun l => S.minAdm ≤ l)).foldl
    (fun st l => st.bind fun sp => downLevel S r clu (o l) sp) (.ok fun _ => [])

/-- src/H2Pack_build_with_sample_point.c:400-793 `H2P_select_sample_point`, with `ri` the result of `H2P_select_sample_point_r` (line 445); `o1`, `o2`, `o3`: the orders in which the threads
take the nodes of a level in the three loops. -/
noncomputable def samplePoints (S : In) (ri : Int) (o1 o2 o3 : Nat → List Nat) : Res (Nat → List Pt) := do
  let clu ← upSweep S ri o1 o2
  downSweep S (rDown ri) clu o3

/-! ### Skeleton points and bases -/

/-- Sample points as the columns of a matrix for the kernel function. -/
def spCol (dim : Nat) (P : List Pt) (j : Nat) : Pt := fun d => if d < dim then P.getD j (fun _ => 0) d else 0

/-- src/H2Pack_build_with_sample_point.c:871-965: the task of node `v` in `H2P_build_H2_UJ_sample`; steps (1), (2), (4), (5) are those of `H2P_build_H2_UJ_proxy`; the tolerance
`QR_stop_tol * 1e-4` of line 831 is in `S.stop`. -/
noncomputable def spNode (S : H2Pack.UJ.Input ℝ) (sp : Nat → List Pt) (fuel v : Nat) (st : Nat → Res (H2Pack.UJ.Slot ℝ)) : Res (H2Pack.UJ.Slot ℝ) := do
  let c ← H2Pack.UJ.candidates S v st
  H2Pack.UJ.compress S fuel v c.1 c.2.1 ((sp v).length * S.kdim) (kmat S.kern S.kdim (point S.xdim c.2.2 c.2.1) (spCol S.xdim (sp v)))

/-- The task queue hands out node numbers; the arrays of nodes have `n_node` elements. -/
noncomputable def spTask (S : H2Pack.UJ.Input ℝ) (sp : Nat → List Pt) (fuel v : Nat) (st : Nat → Res (H2Pack.UJ.Slot ℝ)) : Res (H2Pack.UJ.Slot ℝ) :=
  if v < S.arr.nNode then spNode S sp fuel v st else .ub

/-- Lines 830-837: the stopping criterion of the sample point build from `QR_stop_type`, `QR_stop_tol`, `QR_stop_rank`. -/
noncomputable def spStop : Stop ℝ → Stop ℝ
  | .rel t => .rel (t * (1 / 10000))
  | .abs t => .abs (t * (1 / 10000))
  | s => s

end H2Pack.Sample
