import Mathlib.Analysis.SpecialFunctions.Log.Basic
import Mathlib.Analysis.SpecialFunctions.Pow.Real
import Mathlib.Analysis.SpecialFunctions.Trigonometric.Basic

/-!
# The kernel functions a user selects by name

A point is a function from coordinate number to value; the number of coordinates is `dim`.  `κ x y a b` is the entry in row
`a` and column `b` of the block of the points `x`, `y`; scalar kernels have one entry.  Written from the formulas of the
kernels, not from the routines.
-/

namespace H2Pack.KernSpec
open scoped Classical

noncomputable section

/-- Squared Euclidean distance of two points with `dim` coordinates. -/
def dist2 (dim : Nat) (x y : Nat → ℝ) : ℝ := ∑ d ∈ Finset.range dim, (x d - y d) ^ 2

/-- Euclidean distance. -/
def eucl (dim : Nat) (x y : Nat → ℝ) : ℝ := √(dist2 dim x y)

/-- `1 / |x - y|`; the value on coinciding points is the parameter of the kernel. -/
def coulomb (dim : Nat) (dv : ℝ) (x y : Nat → ℝ) (_ _ : Nat) : ℝ := if ∀ d < dim, x d = y d then dv else 1 / eucl dim x y

/-- `-log |x - y|`. -/
def laplace (dim : Nat) (dv : ℝ) (x y : Nat → ℝ) (_ _ : Nat) : ℝ := if ∀ d < dim, x d = y d then dv else -Real.log (eucl dim x y)

/-- `exp (-l |x - y|²)`. -/
def gaussian (dim : Nat) (l : ℝ) (x y : Nat → ℝ) (_ _ : Nat) : ℝ := Real.exp (-(l * eucl dim x y ^ 2))

/-- `exp (-l |x - y|)`. -/
def expon (dim : Nat) (l : ℝ) (x y : Nat → ℝ) (_ _ : Nat) : ℝ := Real.exp (-(l * eucl dim x y))

/-- `(1 + s l r) exp (-s l r)`; `s` is the decimal the library uses for `√3`. -/
def matern32 (s : ℝ) (dim : Nat) (l : ℝ) (x y : Nat → ℝ) (_ _ : Nat) : ℝ :=
  (1 + s * l * eucl dim x y) * Real.exp (-(s * l * eucl dim x y))

/-- `(1 + s l r + t (s l r)²) exp (-s l r)`; `s`, `t` are the decimals the library uses for `√5`, `1/3`. -/
def matern52 (s t : ℝ) (dim : Nat) (l : ℝ) (x y : Nat → ℝ) (_ _ : Nat) : ℝ :=
  (1 + s * l * eucl dim x y + t * (s * l * eucl dim x y) ^ 2) * Real.exp (-(s * l * eucl dim x y))

/-- `(1 + c |x - y|²) ^ a`. -/
def quadratic (dim : Nat) (c a : ℝ) (x y : Nat → ℝ) (_ _ : Nat) : ℝ := (1 + c * eucl dim x y ^ 2) ^ a

/-- The scalar kernels with their parameters. -/
inductive Scalar
  | coulomb (dv : ℝ)
  | laplace (dv : ℝ)
  | gaussian (l : ℝ)
  | expon (l : ℝ)
  | matern32 (l : ℝ)
  | matern52 (l : ℝ)
  | quadratic (c a : ℝ)

/-- The kernel function of a name, for points with `dim` coordinates. -/
def Scalar.kern (s3 s5 o3 : ℝ) (dim : Nat) : Scalar → (Nat → ℝ) → (Nat → ℝ) → Nat → Nat → ℝ
  | .coulomb dv => KernSpec.coulomb dim dv
  | .laplace dv => KernSpec.laplace dim dv
  | .gaussian l => KernSpec.gaussian dim l
  | .expon l => KernSpec.expon dim l
  | .matern32 l => KernSpec.matern32 s3 dim l
  | .matern52 l => KernSpec.matern52 s5 o3 dim l
  | .quadratic c a => KernSpec.quadratic dim c a

/-- The parameters for which the kernel is a real number for all points. -/
def Scalar.Valid : Scalar → Prop
  | .quadratic c _ => 0 ≤ c
  | _ => True

/-- Kronecker's delta. -/
def δ (a b : Nat) : ℝ := if a = b then 1 else 0

/-- Component `a` of the unit vector from `y` to `x` (0 if they coincide). -/
def unit (x y : Nat → ℝ) (a : Nat) : ℝ := (x a - y a) / eucl 3 x y

/-- Stokes kernel of spheres of radius `a0` in a fluid of viscosity `eta`: `1/(8 π η r) (I + r̂ r̂ᵀ)`, and `1/(6 π a0 η) I` for a sphere
with itself. -/
def stokes (eta a0 : ℝ) (x y : Nat → ℝ) (a b : Nat) : ℝ :=
  if ∀ d < 3, x d = y d then 1 / (6 * Real.pi * a0 * eta) * δ a b
  else 1 / (6 * Real.pi * a0 * eta) * (3 * a0 / 4) / eucl 3 x y * (δ a b + unit x y a * unit x y b)

/-- Rotne-Prager-Yamakawa tensor of spheres of radii `p`, `q` at distance `r` (without the factor `1/(6 π η)`): coefficient of `I`. -/
def rpyI (p q r : ℝ) : ℝ :=
  if r ≤ |p - q| then 1 / max p q
  else if r ≤ p + q then (16 * r ^ 3 * (p + q) - ((p - q) ^ 2 + 3 * r ^ 2) ^ 2) / (32 * p * q * r ^ 3)
  else 3 / (4 * r) * (1 + (p ^ 2 + q ^ 2) / (3 * r ^ 2))

/-- Coefficient of `r̂ r̂ᵀ`. -/
def rpyR (p q r : ℝ) : ℝ :=
  if r ≤ |p - q| then 0
  else if r ≤ p + q then 3 * ((p - q) ^ 2 - r ^ 2) ^ 2 / (32 * p * q * r ^ 3)
  else 3 / (4 * r) * (1 - (p ^ 2 + q ^ 2) / r ^ 2)

/-- The Rotne-Prager-Yamakawa kernel; coordinate 3 of a point is its radius. -/
def rpy (eta : ℝ) (x y : Nat → ℝ) (a b : Nat) : ℝ :=
  1 / (6 * Real.pi * eta) * (rpyI (x 3) (y 3) (eucl 3 x y) * δ a b + rpyR (x 3) (y 3) (eucl 3 x y) * (unit x y a * unit x y b))

end
end H2Pack.KernSpec
