import Verif.Model.MatvecJIT
import Verif.Model.Utils
import Verif.Model.ULV
import Verif.Model.SPDHSS
import Verif.Model.ProxyPoint

/-! # The low rank plus diagonal preconditioner (examples/SPDHSS-H2/LRD_precond.c)

Exact real arithmetic; `SYEVD` and `POTRF` are parameters (contracts in `Spec/SPDHSS.lean`, `Spec/ULV.lean`), `GEMM`, `TRSM` and `GEMV` are
modelled by what they compute.  A failing `ASSERT_PRINTF` ends the program: the outcome `none`.  Allocation does not fail, integers do not
overflow, statistics are not modelled.  Only the first `pt_dim` rows of the coordinates are copied (lines 35-38); the model is for handles
whose kernel reads no more of them. -/

namespace H2Pack.LRD
open H2Pack.MV
open H2Pack.ULV (Lapack fsub)
open H2Pack.SPD (Lapack2)
open H2Pack.Proxy (evalOMP)

/-- examples/SPDHSS-H2/LRD_precond.h: the structure (the permutations are those of the handle). -/
structure Precond where
  size : Nat
  rank : Nat
  shift : ℝ
  ut : Nat → Nat → ℝ

/-- examples/SPDHSS-H2/LRD_precond.c:71-76: `max_diag` for the eigenvalues `w`. -/
noncomputable def maxDiag (m : Nat) (w : Nat → ℝ) : ℝ := (List.range m).foldl (fun mx i => if w i > mx then w i else mx) 0

/-- Lines 77-78: `D[i]` after the loop.  (Division by zero is zero here; it is reached only if `max_diag` is zero.) -/
noncomputable def scale (m : Nat) (w : Nat → ℝ) (i : Nat) : ℝ := if w i ≥ 1 / 10000000000 * maxDiag m w then 1 / Real.sqrt (w i) else 0

/-- Lines 79-91: `Ut` before the factorization; `V` are the eigenvectors, `C` the rows of the kernel matrix of the sample. -/
noncomputable def u0 (m : Nat) (V : Nat → Nat → ℝ) (d : Nat → ℝ) (C : Nat → Nat → ℝ) (i c : Nat) : ℝ := ∑ t ∈ Finset.range m, V t i * d i * C t c

/-- Lines 66-107: from the blocks of the kernel matrix `S` and `C` to the matrix `Ut`. -/
noncomputable def factor (lp : Lapack ℝ) (lq : Lapack2) (m N : Nat) (shift : ℝ) (S C : Nat → Nat → ℝ) : Option (Nat → Nat → ℝ) :=
  let ev := lq.syevd m S                                                                               -- line 68
  if ev.1 = 0 then
    let U := u0 m ev.2.1 (scale m ev.2.2) C
    let f := lp.potrf m (fun i j => (∑ c ∈ Finset.range N, U i c * U j c) + if i = j then shift else 0)   -- lines 92-103
    if f.1 = 0 then some (fun i c => fsub false f.2 (fun t => U t c) i)                                -- lines 104-107
    else none
  else none

/-- The number of threads, the orders in which they store the blocks of the two kernel matrices, and what the fresh matrices `L` and `Ut` contained. -/
structure Env where
  nThread : Nat
  ordS : List Nat
  ordC : List Nat
  junkS : Nat → Nat → ℝ
  junkC : Nat → Nat → ℝ

/-- examples/SPDHSS-H2/LRD_precond.c:15-158 `H2P_build_LRD_precond`; `r` are the values of `rand()`. -/
noncomputable def build (lp : Lapack ℝ) (lq : Lapack2) (J : JIT ℝ) (E : Env) (rank : Nat) (shift : ℝ) (r : Nat → Nat) (fuel : Nat) : Res (Option Precond) :=
  (H2Pack.Utils.randSample r J.R.nPoint rank fuel).bind fun s =>                                       -- line 40
    let m := rank * J.R.kdim
    let N := J.R.nPoint * J.R.kdim
    let ps : Nat → Nat → ℝ := fun i => point J.xdim J.coord J.R.nPoint (s.1.getD i 0)                  -- line 43
    let pa : Nat → Nat → ℝ := fun i => point J.xdim J.coord J.R.nPoint i
    let S := evalOMP J.kern J.R.kdim ps rank ps rank E.nThread E.ordS E.junkS                          -- lines 54-59
    let C := evalOMP J.kern J.R.kdim ps rank pa J.R.nPoint E.nThread E.ordC E.junkC                    -- lines 60-65
    .ok ((factor lp lq m N shift S C).map fun U => ⟨N, m, shift, U⟩)

/-- examples/SPDHSS-H2/LRD_precond.c:161-187 `LRD_precond_apply`; `g` are the initial contents of the index arrays, `pb`, `px`, `x` those of
the buffers and of the output. -/
noncomputable def apply (R : Rep ℝ) (P : Precond) (g : (Nat → Nat) × (Nat → Nat)) (pb px x b : Nat → ℝ) : Nat → ℝ :=
  let pb := permuteFwd R g b pb                                                                        -- line 175
  let w : Nat → ℝ := fun i => ∑ c ∈ Finset.range P.size, P.ut i c * pb c                               -- line 178
  let px : Nat → ℝ := fun c => if c < P.size then (pb c + -1 * ∑ i ∈ Finset.range P.rank, P.ut i c * w i) * (1 / P.shift) else px c   -- lines 177, 179-182
  permuteBwd R g px x                                                                                  -- line 183

end H2Pack.LRD
