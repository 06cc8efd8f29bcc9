import Mathlib.LinearAlgebra.Matrix.DotProduct
import Mathlib.Analysis.SpecialFunctions.Pow.Real

/-!
# The preconditioned conjugate gradient method (examples/PCG/pcg.c:11-152)

Exact real arithmetic; an array of length `n` is a function on `Fin n`.  The two operators are arbitrary functions.  Division by zero is an outcome of its own
(`none`: in the program the variables become infinite or NaN).  Memory allocation is assumed to succeed; timers and output are left out, and so is the
last check (lines 129-138), which only changes the local variables that are printed.
-/

namespace H2Pack.PCG

/-- The variables of the loop. -/
structure St (n : Nat) where
  iter : Nat
  x : Fin n → ℝ
  r : Fin n → ℝ
  p : Fin n → ℝ
  rho : ℝ
  rn : ℝ
  hist : Nat → ℝ

/-- The arguments of `pcg`; `mx = none` stands for a null pointer. -/
structure Args (n : Nat) where
  ax : (Fin n → ℝ) → Fin n → ℝ
  mx : Option ((Fin n → ℝ) → Fin n → ℝ)
  b : Fin n → ℝ
  x0 : Fin n → ℝ
  tol : ℝ
  maxIter : Nat

variable {n : Nat}

/-- Lines 42-50, 108-116: the 2-norm of an array. -/
noncomputable def norm2 (v : Fin n → ℝ) : ℝ := Real.sqrt (∑ i, v i * v i)

/-- Lines 29-51, 62-63: the state before the first iteration; `p0` and `h0` are the previous contents of `p` and `res_vec`. -/
noncomputable def init (a : Args n) (p0 : Fin n → ℝ) (h0 : Nat → ℝ) : St n :=
  let r : Fin n → ℝ := fun i => a.b i - a.ax a.x0 i
  ⟨0, a.x0, r, p0, 1, norm2 r, h0⟩

/-- Lines 68-69: applying the preconditioner. -/
def applyM (a : Args n) (r : Fin n → ℝ) : Fin n → ℝ := match a.mx with | some m => m r | none => r

/-- Lines 66-118: one iteration. -/
noncomputable def step (a : Args n) (s : St n) : Option (St n) :=
  let z := applyM a s.r
  let rho := ∑ i, s.r i * z i                                                       -- lines 77-80
  if s.rho = 0 then none
  else
    let beta := rho / s.rho                                                         -- line 81
    let p : Fin n → ℝ := if s.iter = 0 then z else fun i => z i + beta * s.p i      -- lines 84-89
    let q := a.ax p                                                                 -- line 96
    let t := ∑ i, p i * q i                                                         -- lines 101-103
    if t = 0 then none
    else
      let alpha := rho / t                                                          -- line 104
      let r : Fin n → ℝ := fun i => s.r i - alpha * q i
      some ⟨s.iter + 1, fun i => s.x i + alpha * p i, r, p, rho, norm2 r, Function.update s.hist s.iter (norm2 r)⟩   -- lines 108-118

/-- Lines 64-123: the loop; the first argument bounds the number of iterations and is `maxIter` at the start. -/
noncomputable def loop (a : Args n) : Nat → St n → Option (St n)
  | 0, s => some s
  | k + 1, s => if s.iter < a.maxIter ∧ norm2 a.b * a.tol < s.rn then (step a s).bind (loop a k) else some s

/-- `*flag_`, `*relres_`, `*iter_`, `x` and `res_vec`; `relres = none` stands for a division by zero. -/
structure Out (n : Nat) where
  flag : Nat
  relres : Option ℝ
  iter : Nat
  x : Fin n → ℝ
  hist : Nat → ℝ

/-- The function `pcg`. -/
noncomputable def pcg (a : Args n) (p0 : Fin n → ℝ) (h0 : Nat → ℝ) : Option (Out n) :=
  (loop a a.maxIter (init a p0 h0)).map fun s =>
    ⟨if s.rn ≤ norm2 a.b * a.tol then 0 else 1, if norm2 a.b = 0 then none else some (s.rn / norm2 a.b), s.iter, s.x, s.hist⟩   -- lines 124-126

end H2Pack.PCG
