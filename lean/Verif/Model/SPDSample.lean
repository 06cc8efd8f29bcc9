import Verif.Model.SPDHSS
import Verif.Model.Matmul

/-!
# Sampling the H2 matrix for the SPDHSS construction (src/H2Pack_SPDHSS_H2.c:19-530)

Exact real arithmetic.  The iterations of the parallel loops are executed one after the other in an arbitrary order.  The random matrix `vec` is a
parameter.  The loops over blocks of rows (one block per thread, `calc_block_spos_len`) are loops over all rows.  Failed
assertions and `NULL` pointers are `ub`.
-/

namespace H2Pack.SPD
open H2Pack.MV (Mat Rep Blk Meta MMEnv View JIT Y0 gemm opAt mmFwd rowCols getBij getDij addAt)
open H2Pack.ULV (loop)
open H2Pack.Part (Arr kids)

noncomputable section

/-- src/H2Pack_SPDHSS_H2.c:131-140: the path from a node on level `i` to the root; entries above `i` are not set. -/
def fillPath {K : Type} (A : Arr K) : Nat → Int → (Nat → Int) → (Nat → Int)
  | 0, p, w => Function.update w 0 p
  | i + 1, p, w => fillPath A i (A.parent p.toNat) (Function.update w (i + 1) p)

/-- src/H2Pack_SPDHSS_H2.c:121-152 `H2P_tree_common_ancestor_level`. -/
def commonLevel {K : Type} (A : Arr K) (n0 n1 : Nat) : Int :=
  let p0 := fillPath A (A.level n0) n0 (fun _ => 0)
  let p1 := fillPath A (A.level n1) n1 (fun _ => 0)
  match (List.range (min (A.level n0) (A.level n1) + 1)).find? fun i => decide (p0 i ≠ p1 i) with
  | some i => (i : Int) - 1
  | none => 0

/-! ## Explicit bases -/

/-- src/H2Pack_SPDHSS_H2.c:56-97: one node. -/
def exNode (R : Rep ℝ) (ex : Nat → Option (Mat ℝ)) (v : Nat) : Res (Nat → Option (Mat ℝ)) :=
  let U := R.U v
  let nrow := R.rowE v - R.rowS v
  if U.nrow = 0 then .ok ex                                                              -- line 64
  else if R.arr.nChild v = 0 then
    if nrow = U.nrow then .ok (Function.update ex v (some U)) else .ub                   -- lines 67-69
  else do
    let ws ← needAll ((kids R.arr v).map ex)
    if nrow = (ws.map Mat.nrow).sum ∧ U.nrow = (ws.map Mat.ncol).sum then                -- lines 80-81
      .ok (Function.update ex v (some ⟨(ws.map Mat.nrow).sum, U.ncol, (stackW ws U).2⟩))  -- lines 82-97
    else .ub

/-- src/H2Pack_SPDHSS_H2.c:24-112 `H2P_build_explicit_U`; `ord l` is the order of the nodes of level `l`. -/
def explicitU (R : Rep ℝ) (ord : Nat → List Nat) : Res (Nat → Mat ℝ) := do
  let ex ← loop (exNode R) ((List.range' 1 R.arr.maxLevel).reverse.flatMap ord) (fun _ => none)
  .ok fun v => (ex v).getD ⟨0, 0, fun _ _ => 0⟩                                          -- lines 101-109

/-! ## The products -/

/-- `Yk_mat + s_row * Yk_mat_ld + s_col` with `s_col = n_vec * (ca_level - 1)`. -/
def blkPos (R : Rep ℝ) (nvec n0 n1 : Nat) : Nat := R.rowS n0 * (nvec * R.arr.maxLevel) + nvec * (commonLevel R.arr n0 n1).toNat

/-- src/H2Pack_SPDHSS_H2.c:278-322: one inadmissible pair. -/
def samplePairD (R : Rep ℝ) (nvec : Nat) (vec : Nat → ℝ) (get : Nat → Nat → Blk ℝ) (n0 : Nat) (Y : Nat → ℝ) (n1 : Nat) : Res (Nat → ℝ) :=
  if n0 = n1 then .ok Y                                                                  -- line 281
  else if commonLevel R.arr n0 n1 < 0 then .ub
  else
    let D := get n0 n1
    let u := D.use
    if u.1 = R.rowE n0 - R.rowS n0 ∧ u.2.1 = R.rowE n1 - R.rowS n1 then                  -- line 312
      .ok (gemm (R.rowE n0 - R.rowS n0) nvec (R.rowE n1 - R.rowS n1) (opAt u.2.2.2 u.2.2.1 D.data)
        (opAt false nvec fun k => vec (R.rowS n1 * nvec + k)) true Y (blkPos R nvec n0 n1) (nvec * R.arr.maxLevel))
    else .ub

/-- src/H2Pack_SPDHSS_H2.c:342-438: one admissible pair; `y0` is `NULL` for the nodes above `min_adm_level`. -/
def samplePairB (R : Rep ℝ) (nvec : Nat) (vec : Nat → ℝ) (exU : Nat → Mat ℝ) (y0 : Y0 ℝ) (get : Nat → Nat → Blk ℝ) (n0 : Nat) (Y : Nat → ℝ) (n1 : Nat) :
    Res (Nat → ℝ) :=
  let l0 := R.arr.level n0
  let l1 := R.arr.level n1
  let nr0 := R.rowE n0 - R.rowS n0
  let nr1 := R.rowE n1 - R.rowS n1
  let ld := nvec * R.arr.maxLevel
  if n0 = n1 then .ok Y                                                                  -- line 345
  else if commonLevel R.arr n0 n1 < 0 then .ub
  else
    let B := get n0 n1
    let u := B.use
    let op := opAt u.2.2.2 u.2.2.1 B.data
    let e0 := exU n0
    if l0 = l1 then                                                                      -- line 378
      if l1 < R.minAdm then .ub
      else if (e0.ncol = u.1 ∧ u.2.1 = (y0 n1).1) ∧ nr0 = e0.nrow then                   -- lines 381-390
        let tmp := gemm u.1 nvec u.2.1 op (opAt false nvec (y0 n1).2) false (fun _ => 0) 0 nvec
        .ok (gemm e0.nrow nvec e0.ncol e0.e (opAt false nvec tmp) true Y (blkPos R nvec n0 n1) ld)
      else .ub
    else if l1 < l0 then                                                                 -- line 405
      if (e0.ncol = u.1 ∧ u.2.1 = nr1) ∧ nr0 = e0.nrow then                              -- lines 408-417
        let tmp := gemm u.1 nvec u.2.1 op (opAt false nvec fun k => vec (R.rowS n1 * nvec + k)) false (fun _ => 0) 0 nvec
        .ok (gemm e0.nrow nvec e0.ncol e0.e (opAt false nvec tmp) true Y (blkPos R nvec n0 n1) ld)
      else .ub
    else                                                                                 -- line 432
      if l1 < R.minAdm then .ub
      else if nr0 = u.1 ∧ u.2.1 = (y0 n1).1 then                                         -- lines 435-439
        .ok (gemm u.1 nvec u.2.1 op (opAt false nvec (y0 n1).2) true Y (blkPos R nvec n0 n1) ld)
      else .ub

/-- src/H2Pack_SPDHSS_H2.c:452-469: the results of a level are added to those of the next level. -/
def prefixY (n nvec maxLevel : Nat) (Y : Nat → ℝ) : Nat → ℝ :=
  (List.range' 1 (maxLevel - 1)).foldl (fun Y level =>
    (List.range n).foldl (fun Y i =>
      (List.range' (nvec * (level - 1)) nvec).foldl (fun Y j =>
        addAt Y (i * (nvec * maxLevel) + (j + nvec)) (Y (i * (nvec * maxLevel) + j))) Y) Y) Y

/-- src/H2Pack_SPDHSS_H2.c:480-500: one leaf of the loop "repack". -/
def repackLeaf (R : Rep ℝ) (nvec : Nat) (Ym : Nat → ℝ) (Y : Nat → Nat → Option (Mat ℝ)) (v : Nat) : Nat → Nat → Option (Mat ℝ) :=
  (List.range (R.arr.level v)).reverse.foldl (fun Y j =>
    Function.update Y v (Function.update (Y v) (R.arr.level v - 1 - j)
      (some ⟨R.rowE v - R.rowS v, nvec, fun i k => Ym (R.rowS v * (nvec * R.arr.maxLevel) + j * nvec + (i * (nvec * R.arr.maxLevel) + k))⟩))) Y

/-- src/H2Pack_SPDHSS_H2.c:472-509: the matrices `Yk`; `lf` is the order of the leaves. -/
def repack (R : Rep ℝ) (nvec : Nat) (lf : List Nat) (Ym : Nat → ℝ) (v l : Nat) : Option (Mat ℝ) :=
  let Y := lf.foldl (repackLeaf R nvec Ym) fun _ _ => none
  if v < R.arr.nNode ∧ l < R.arr.maxLevel then some ((Y v l).getD ⟨0, 0, fun _ _ => 0⟩) else none

/-- src/H2Pack_SPDHSS_H2.c:164-530 `H2P_SPDHSS_H2_acc_matvec` with the block lookups abstracted; `ord` is the order of the nodes of a level in step 1,
`E.fwdOrd` in step 3 (the same operations as the forward sweep of `H2P_matmul` on a row-major block of `nvec` columns, so `mmFwd` is reused), `E.bwdOrd` in step 4.2, `E.ordD` the order of the nodes in step 4.1. -/
def accWith (R : Rep ℝ) (MB MD : Meta) (getB getD : Nat → Nat → Blk ℝ) (E : MMEnv ℝ) (ord : Nat → List Nat) (lf : List Nat) (nvec : Nat) (vec : Nat → ℝ) :
    Res (Nat → Nat → Option (Mat ℝ)) := do
  let exU ← explicitU R ord                                                              -- line 189
  let y0 := mmFwd R E ⟨false, nvec, nvec⟩ nvec vec                                       -- lines 211-260
  let Y ← loop (fun Y n0 => loop (samplePairD R nvec vec getD n0) (rowCols MD n0) Y) E.ordD (fun _ => 0)   -- lines 269-323
  let Y ← loop (fun Y n0 => loop (samplePairB R nvec vec exU y0 getB n0) (rowCols MB n0) Y)
    ((List.range' R.minAdm (R.arr.maxLevel + 1 - R.minAdm)).reverse.flatMap E.bwdOrd) Y   -- lines 326-449
  .ok (repack R nvec lf (prefixY R.size nvec R.arr.maxLevel Y))

/-- src/H2Pack_SPDHSS_H2.c:164-530 `H2P_SPDHSS_H2_acc_matvec` on a matrix whose blocks are looked up in the metadata. -/
def accMatvec (J : JIT ℝ) (MB MD : Meta) (jit : Bool) (dB dD : Nat → ℝ) (E : MMEnv ℝ) (ord : Nat → List Nat) (lf : List Nat) (nvec : Nat) (vec : Nat → ℝ) :
    Res (Nat → Nat → Option (Mat ℝ)) :=
  accWith J.R MB MD (fun a b => (getBij J MB jit dB (E.dstB a b) a b).getD (E.staleB a b)) (fun a b => (getDij J MD jit dD (E.dstD a b) a b).getD (E.staleD a b))
    E ord lf nvec vec

end

end H2Pack.SPD
