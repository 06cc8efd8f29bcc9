import Verif.Model.CSR
import Verif.Model.ULV
import Mathlib.Analysis.SpecialFunctions.Pow.Real

/-!
# The FSAI preconditioner (src/AFN_precond.c:206-319, 553-736)

Exact real arithmetic.  The points are numbered `0 .. n-1`; `coord d j` is `coord[d * ldc + j]`.  The kernel function the user supplies is modelled by a
function of two points (`kf`); it reads the first `pt_dim` coordinates.  `CBLAS` and `POTRS` are modelled by what they compute, `POTRF` is a
parameter (`ULV.Lapack`, contract in `Spec/ULV.lean`).  A failing `ASSERT_PRINTF` ends the program: the outcome `none`.  Memory allocation
is assumed to succeed.
-/

namespace H2Pack.AFN
open H2Pack.CSR (KV partLoop COO cooToCSR)
open H2Pack.ULV (Lapack fsub bsub)

section
variable {κ ν : Type} [LinearOrder κ]

/-- src/AFN_precond.c:206-223 `Qpart_DTYPE_int_key_val(key, val, l, r, k)`; the partition loop is the one of `H2P_qsort_int_key_val`
(src/H2Pack_utils.c:249-259) with other types.  `n` is the length of the arrays. -/
def qpart (n : Int) : Nat → KV κ ν → Int → Int → Int → Res (KV κ ν)
  | 0, _, _, _, _ => .diverge
  | fuel+1, kv, l, r, k =>
    let m := (l + r).tdiv 2
    if ¬ (0 ≤ m ∧ m < n) then .ub                                                        -- line 210
    else do
      let p ← partLoop n (kv.key m) fuel kv l r
      let kv ← if p.2.2 > l then qpart n fuel p.1 l p.2.2 k else .ok p.1                 -- line 221
      if p.2.1 < r ∧ p.2.1 < k then qpart n fuel kv p.2.1 r k else .ok kv                -- line 222

end

section
variable {K : Type} [Field K] [LinearOrder K]

/-- src/H2Pack_utils.c:69-94 `H2P_calc_pdist2_OMP`: entry `(i, j)`. -/
def pdist2 (dim : Nat) (coord : Nat → Nat → K) (i j : Nat) : K :=
  (List.range dim).foldl (fun s d => s + (coord d i - coord d j) * (coord d i - coord d j)) 0

/-- src/AFN_precond.c:298-314: iteration `i` of the loop of `FSAI_exact_KNN`; the first `nn_cnt[i]` entries of `nn_idx + i * fsai_npt`.  `m` is
`fsai_npt`, `n` the number of points and the length of a thread's part of the buffers.  Every buffer entry that is read has been written in the same iteration. -/
def exactRow (dim : Nat) (coord : Nat → Nat → K) (n m i fuel : Nat) : Res (List Nat) :=
  if i < m then .ok (List.range (i + 1))                                                 -- lines 302-305
  else if m = 0 then .ub                                                                 -- line 312: nn_idx_i[-1]
  else do
    let kv ← qpart (ν := Nat) n fuel ⟨fun j => pdist2 dim coord i j.toNat, fun j => j.toNat⟩ 0 ((i : Int) - 1) m
    .ok (((List.range m).map (fun j : Nat => kv.val j)).set (m - 1) i)                   -- lines 311-312

/-- src/AFN_precond.c:281-319 `FSAI_exact_KNN`: the parallel loop, iterations in any order. -/
def exactKNN (dim : Nat) (coord : Nat → Nat → K) (n m : Nat) (order : List Nat) (fuel : Nat) : Res (Nat → List Nat) :=
  order.foldl (fun r i => r.bind fun g => (exactRow dim coord n m i fuel).bind fun L => .ok (Function.update g i L)) (.ok fun _ => [])

end

/-- The arguments of `FSAI_precond_build_` (lines 553-560) without the neighbour search. -/
structure FsaiIn where
  lp : Lapack ℝ
  kf : (Nat → ℝ) → (Nat → ℝ) → ℝ
  n : Nat
  coord : Nat → Nat → ℝ
  n1 : Nat
  P : Nat → Nat → ℝ
  mu : ℝ

/-- Lines 619-631: `tmpK`, row major; `SYRK` with `CblasLower` changes the entries on and below the diagonal. -/
noncomputable def fsaiK (F : FsaiIn) (L : List Nat) (p q : Nat) : ℝ :=
  let v := F.kf (fun d => F.coord d (L.getD p 0)) (fun d => F.coord d (L.getD q 0)) + if p = q then F.mu else 0
  if 0 < F.n1 ∧ q ≤ p then v - ∑ t ∈ Finset.range F.n1, F.P (L.getD p 0) t * F.P (L.getD q 0) t else v

/-- Lines 632-657: the values of row `i` of `G` for the neighbours `L` of point `i`; `none`: `POTRF` failed.  `POTRF` with `LAPACK_COL_MAJOR` and `'U'`
is `POTRF` with row major and `'L'`. -/
noncomputable def fsaiRow (F : FsaiIn) (L : List Nat) : Option (List ℝ) :=
  let c := L.length
  let f := F.lp.potrf c (fsaiK F L)                                                      -- line 642
  if f.1 = 0 then
    let y := bsub c (fun i j => f.2 j i) (fsub false f.2 (fun r => if r = c - 1 then 1 else 0))   -- line 644
    some ((List.range c).map (fun j => y j * (1 / Real.sqrt (y (c - 1)))))               -- lines 656-657
  else none

/-- Lines 606-659: all rows; the parallel loop ends the program if `POTRF` fails in some row.  A row without neighbours accesses `tmpU[-1]`. -/
noncomputable def fsaiVals (F : FsaiIn) (nn : Nat → List Nat) : Res (Option (Nat → List ℝ)) :=
  if ∃ i < F.n, nn i = [] then .ub
  else if ∀ i < F.n, (fsaiRow F (nn i)).isSome then .ok (some fun i => (fsaiRow F (nn i)).getD []) else .ok none

/-- Lines 667-681: the packed arrays `row1`, `col1`, `val1`. -/
def fsaiEntries (n : Nat) (nn : Nat → List Nat) (vals : Nat → List ℝ) : List (Nat × Nat × ℝ) :=
  (List.range n).flatMap (fun i => ((nn i).zip (vals i)).map (fun cv => (i, cv.1, cv.2)))

/-- The argument of the first call of `COO2CSR` (line 688). -/
def cooG (n : Nat) (E : List (Nat × Nat × ℝ)) : COO ℝ :=
  ⟨n, E.length, fun k => (E.getD k (0, 0, 0)).1, fun k => ((E.getD k (0, 0, 0)).2.1 : Int), fun k => (E.getD k (0, 0, 0)).2.2⟩

/-- The argument of the second call of `COO2CSR` (line 689): rows and columns exchanged. -/
def cooGT (n : Nat) (E : List (Nat × Nat × ℝ)) : COO ℝ :=
  ⟨n, E.length, fun k => (E.getD k (0, 0, 0)).2.1, fun k => ((E.getD k (0, 0, 0)).1 : Int), fun k => (E.getD k (0, 0, 0)).2.2⟩

/-- The CSR matrices `G` and `G^T`. -/
structure FsaiMat where
  g : H2Pack.CSR.Mat ℝ
  gt : H2Pack.CSR.Mat ℝ

/-- The contents of freshly allocated memory and the orders of the parallel loops of the two calls of `COO2CSR`. -/
structure CsrEnv where
  col0 : Nat → Int
  val0 : Nat → ℝ
  ordG : List Nat
  ordGT : List Nat

/-- src/AFN_precond.c:590-697: steps 2 and 3 of `FSAI_precond_build_`.  `COO2CSR` (lines 226-269) is `H2P_int_COO_to_CSR` with values of type `DTYPE`. -/
noncomputable def fsaiBuild (F : FsaiIn) (nn : Nat → List Nat) (ev : CsrEnv) (fuel : Nat) : Res (Option FsaiMat) := do
  match ← fsaiVals F nn with
  | none => .ok none
  | some vals => do
    let E := fsaiEntries F.n nn vals
    let g ← cooToCSR (cooG F.n E) ev.col0 ev.val0 ev.ordG fuel
    let gt ← cooToCSR (cooGT F.n E) ev.col0 ev.val0 ev.ordGT fuel
    .ok (some ⟨g, gt⟩)

/-- src/AFN_precond.c:700-717 `FSAI_CSR_SpMV`: `y[i]`. -/
def spmv (M : H2Pack.CSR.Mat ℝ) (x : Nat → ℝ) (i : Nat) : ℝ :=
  (List.range' (M.rp i) (M.rp (i + 1) - M.rp i)).foldl (fun s j => s + M.val j * x (M.col j).toNat) 0

/-- src/AFN_precond.c:728-736 `FSAI_precond_apply_`. -/
def fsaiApply (M : FsaiMat) (x : Nat → ℝ) : Nat → ℝ := spmv M.gt (spmv M.g x)

end H2Pack.AFN
