import Verif.Model.AFN
import Verif.Model.FSAI
import Verif.Model.SPDHSS

/-!
# The Nyström and AFN preconditioners (src/AFN_precond.c:24-174, 1015-1108, 1110-1213, 1239-1293)

Exact real arithmetic; `POTRF` and `SYEVD` are parameters (contracts in `Spec/ULV.lean`, `Spec/SPDHSS.lean`), `TRSM`, `GEMM`, `GEMV`, `SYRK` and
`POTRI` are modelled by what they compute.  A failing `ASSERT_PRINTF` ends the program: the outcome `none`.  Memory allocation is assumed to
succeed.  The rank estimation is not part of this model: its result is an argument.
-/

namespace H2Pack.AFN
open H2Pack.ULV (Lapack fsub)
open H2Pack.SPD (Lapack2)

/-- The libraries and the floating point constants: `ulp f` is `NEXTAFTER(f, f + 1) - f`, `eps` is `D_EPS`. -/
structure Env where
  lp : Lapack ℝ
  lq : Lapack2
  ulp : ℝ → ℝ
  eps : ℝ

/-- Entry `(i, j)` of the inverse of a lower triangular matrix, as computed by `TRSM` with the identity (lines 63-68, 1040-1045). -/
noncomputable def trInv (l : Nat → Nat → ℝ) (i j : Nat) : ℝ := fsub false l (fun r => if r = j then 1 else 0) i

/-- `nys_M` and `nys_U` (row major, `n` rows and `n1` columns). -/
structure Nys where
  m : Nat → ℝ
  u : Nat → Nat → ℝ

/-- src/AFN_precond.c:42-51: the shift `nu`; `k1` is `[K11, K12]`. -/
noncomputable def nysNu (E : Env) (n1 n : Nat) (k1 : Nat → Nat → ℝ) : ℝ :=
  Real.sqrt n * E.ulp (∑ i ∈ Finset.range n1, ∑ j ∈ Finset.range n, k1 i j * k1 i j)

/-- src/AFN_precond.c:108-111: `S[i]` after the square root, from the eigenvalues `w` in the order of `SYEVD`. -/
noncomputable def nysS (E : Env) (n1 : Nat) (w : Nat → ℝ) (i : Nat) : ℝ :=
  Real.sqrt (if w i < 0 then w (n1 - 1) * E.eps * E.eps else w i)

/-- src/AFN_precond.c:106, 112-114: `invS[i]`.  (Division by zero is zero here and infinity in the program; it is not reached unless `[K11, K12]` is zero.)
In exact arithmetic no eigenvalue is negative: the matrix is a Gram matrix. -/
noncomputable def nysInvS (E : Env) (n1 : Nat) (w : Nat → ℝ) (i : Nat) : ℝ :=
  if nysS E n1 w i < Real.sqrt (w (n1 - 1)) * E.eps * 10 then 0 else 1 / nysS E n1 w i

/-- src/AFN_precond.c:138-142: `S[i]` after the last loop. -/
noncomputable def nysLam (E : Env) (n1 : Nat) (nu : ℝ) (w : Nat → ℝ) (i : Nat) : ℝ :=
  if nysS E n1 w i * nysS E n1 w i - nu < 0 then 0 else nysS E n1 w i * nysS E n1 w i - nu

/-- src/AFN_precond.c:69-75: `M = K1' * invL'`. -/
noncomputable def nysM (n1 : Nat) (k1 l : Nat → Nat → ℝ) (i j : Nat) : ℝ := ∑ t ∈ Finset.range n1, k1 t i * trInv l j t

/-- src/AFN_precond.c:35-147 `Nys_precond_build_`; `k1 i j` is entry `(i, j)` of `[K11, K12]`.  With `n1 = 0` line 105 reads `S[-1]`. -/
noncomputable def nysBuild (E : Env) (mu : ℝ) (n1 n2 : Nat) (k1 : Nat → Nat → ℝ) : Res (Option Nys) :=
  if n1 = 0 then .ub
  else
    let n := n1 + n2
    let nu := nysNu E n1 n k1
    let f := E.lp.potrf n1 (fun i j => k1 i j + if i = j then nu else 0)                 -- lines 55, 60
    if f.1 = 0 then
      let M := nysM n1 k1 f.2
      let ev := E.lq.syevd n1 (fun i j => ∑ t ∈ Finset.range n, M t i * M t j)           -- lines 100, 104
      let U : Nat → Nat → ℝ := fun i j => ∑ t ∈ Finset.range n1, M i t * (ev.2.1 t j * nysInvS E n1 ev.2.2 j)   -- lines 116-125
      let lam := nysLam E n1 nu ev.2.2
      .ok (some ⟨fun i => (lam 0 + mu) / (lam i + mu), U⟩)                               -- lines 143-144
    else .ok none

/-- src/AFN_precond.c:159-174 `Nys_precond_apply_`. -/
noncomputable def nysApply (n1 n : Nat) (N : Nys) (x : Nat → ℝ) (i : Nat) : ℝ :=
  let t : Nat → ℝ := fun j => ∑ r ∈ Finset.range n, N.u r j * x r
  let y := x i - ∑ j ∈ Finset.range n1, N.u i j * t j
  y + ∑ j ∈ Finset.range n1, N.u i j * (t j * N.m j)

/-- The matrices of the AFN preconditioner. -/
structure Afn where
  invK11 : Nat → Nat → ℝ
  k12 : Nat → Nat → ℝ
  g : FsaiMat

/-- src/AFN_precond.c:1074-1080: the lower half computed by `POTRI` from the Cholesky factor, then the loop that symmetrizes. -/
noncomputable def potriSym (n1 : Nat) (l : Nat → Nat → ℝ) (i j : Nat) : ℝ :=
  let low : Nat → Nat → ℝ := fun i j => ∑ t ∈ Finset.range n1, trInv l t i * trInv l t j
  if i < j then low j i else low i j

/-- src/AFN_precond.c:1017-1108 `AFNi_AFN_precond_build`; `coord2 d j` is coordinate `d` of point `n1 + j` in the new order; `nn` are the neighbour
lists found by the search in `FSAI_precond_build_`. -/
noncomputable def afnBuild (E : Env) (kf : (Nat → ℝ) → (Nat → ℝ) → ℝ) (mu : ℝ) (n1 n2 : Nat) (k11 k12 : Nat → Nat → ℝ) (coord2 : Nat → Nat → ℝ)
    (nn : Nat → List Nat) (ev : CsrEnv) (fuel : Nat) : Res (Option Afn) :=
  let f := E.lp.potrf n1 (fun i j => k11 i j + if i = j then mu else 0)                  -- lines 1032, 1037
  if f.1 = 0 then
    let V21 : Nat → Nat → ℝ := fun i j => ∑ t ∈ Finset.range n1, k12 t i * trInv f.2 j t  -- lines 1054-1057
    (fsaiBuild ⟨E.lp, kf, n2, coord2, n1, V21, mu⟩ nn ev fuel).bind fun g =>             -- lines 1089-1096
      .ok (g.map fun g => ⟨potriSym n1 f.2, k12, g⟩)
  else .ok none

/-- src/AFN_precond.c:1257-1286: the AFN branch of `AFN_precond_apply`, `py` from `px`. -/
noncomputable def afnApply (n1 n2 : Nat) (A : Afn) (px : Nat → ℝ) : Nat → ℝ :=
  let t11 : Nat → ℝ := fun i => ∑ j ∈ Finset.range n1, A.invK11 i j * px j               -- line 1266
  let t12 : Nat → ℝ := fun i => px (n1 + i) - ∑ j ∈ Finset.range n1, A.k12 j i * t11 j   -- lines 1269-1270
  let y2 := fsaiApply A.g t12                                                            -- lines 1275-1279
  let t21 : Nat → ℝ := fun i => px i - ∑ j ∈ Finset.range n2, A.k12 i j * y2 j           -- lines 1281-1282
  let y1 : Nat → ℝ := fun i => ∑ j ∈ Finset.range n1, A.invK11 i j * t21 j               -- line 1284
  fun i => if i < n1 then y1 i else y2 (i - n1)

/-- The preconditioner: the order of the points, the sizes and one of the two variants. -/
structure Precond where
  n : Nat
  n1 : Nat
  perm : Nat → Nat
  kind : Nys ⊕ Afn

/-- src/AFN_precond.c:1239-1293 `AFN_precond_apply`; `y0` is the previous content of the output vector. -/
noncomputable def precondApply (P : Precond) (x y0 : Nat → ℝ) : Nat → ℝ :=
  let px : Nat → ℝ := fun i => x (P.perm i)                                              -- line 1254
  let py := match P.kind with
    | .inl N => nysApply P.n1 P.n N px
    | .inr A => afnApply P.n1 (P.n - P.n1) A px
  (List.range P.n).foldl (fun y i => Function.update y (P.perm i) (py i)) y0             -- line 1288

/-- src/AFN_precond.c:1127-1129, 1161-1213: steps 3 and 4 of `AFN_precond_build` for the estimated rank `est` and the order `perm` of the points. -/
noncomputable def precondBuild (E : Env) (kf : (Nat → ℝ) → (Nat → ℝ) → ℝ) (mu : ℝ) (n : Nat) (coord : Nat → Nat → ℝ) (est maxK : Nat) (perm : Nat → Nat)
    (nn : Nat → List Nat) (ev : CsrEnv) (fuel : Nat) : Res (Option Precond) :=
  let n1 := if est < maxK then est else maxK                                             -- line 1127
  let k : Nat → Nat → ℝ := fun i j => kf (fun d => coord d (perm i)) (fun d => coord d (perm j))
  if est < maxK then                                                                     -- line 1190
    (nysBuild E mu n1 (n - n1) k).bind fun N => .ok (N.map fun N => ⟨n, n1, perm, .inl N⟩)
  else
    (afnBuild E kf mu n1 (n - n1) k (fun i j => k i (n1 + j)) (fun d j => coord d (perm (n1 + j))) nn ev fuel).bind fun A =>
      .ok (A.map fun A => ⟨n, n1, perm, .inr A⟩)

end H2Pack.AFN
