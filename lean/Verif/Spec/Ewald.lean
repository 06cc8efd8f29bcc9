import Mathlib.Data.Int.Interval
import Mathlib.Order.Interval.Finset.Basic
import Mathlib.Algebra.Order.Floor.Ring
import Verif.Spec.Kernels

/-!
# The Ewald sum of the Rotne-Prager-Yamakawa tensor

Spheres in a cubic cell of side `L` that is repeated in all directions, truncated to `(2 nr + 1)³` cells and `(2 nk + 1)³ - 1` wave vectors.
Written from the formula: a sum over *all* lattice vectors and over *all* nonzero wave vectors.  `erfc` is the complementary error function
(a parameter: no property of it is used).
-/

namespace H2Pack.KernSpec
open scoped Classical

noncomputable section

/-- All integer vectors with entries between `-n` and `n`. -/
def lattice (n : Nat) : Finset (ℤ × ℤ × ℤ) := Finset.Icc (-(n : ℤ)) n ×ˢ Finset.Icc (-(n : ℤ)) n ×ˢ Finset.Icc (-(n : ℤ)) n

/-- Component `d` of an integer vector. -/
def comp (v : ℤ × ℤ × ℤ) (d : Nat) : ℤ := if d = 0 then v.1 else if d = 1 then v.2.1 else v.2.2

/-- Length of a vector. -/
def norm3 (v : Nat → ℝ) : ℝ := √(∑ d ∈ Finset.range 3, v d ^ 2)

/-- Real space: coefficient of `I` for distance `r`; `a` is the mean square radius. -/
def ewI (erfc : ℝ → ℝ) (xi a r : ℝ) : ℝ :=
  (3 / (4 * r) + a / (2 * r ^ 3)) * erfc (xi * r) +
    (4 * xi ^ 7 * a * r ^ 4 + 3 * xi ^ 3 * r ^ 2 - 20 * xi ^ 5 * a * r ^ 2 - 9 / 2 * xi + 14 * xi ^ 3 * a + xi * a / r ^ 2) * (Real.exp (-(xi ^ 2 * r ^ 2)) / √Real.pi)

/-- Real space: coefficient of `r̂ r̂ᵀ`. -/
def ewR (erfc : ℝ → ℝ) (xi a r : ℝ) : ℝ :=
  (3 / (4 * r) - 3 * a / (2 * r ^ 3)) * erfc (xi * r) +
    (-(4 * xi ^ 7 * a * r ^ 4) - 3 * xi ^ 3 * r ^ 2 + 16 * xi ^ 5 * a * r ^ 2 + 3 / 2 * xi - 2 * xi ^ 3 * a - 3 * xi * a / r ^ 2) * (Real.exp (-(xi ^ 2 * r ^ 2)) / √Real.pi)

/-- Real space: contribution of an image at the vector `v`; an image at distance 0 is the sphere itself and contributes nothing. -/
def realTerm (erfc : ℝ → ℝ) (xi a : ℝ) (v : Nat → ℝ) (s t : Nat) : ℝ :=
  if norm3 v = 0 then 0 else ewI erfc xi a (norm3 v) * δ s t + ewR erfc xi a (norm3 v) * (v s / norm3 v * (v t / norm3 v))

/-- Reciprocal space: contribution of the wave vector `k`, for the difference vector `d`. -/
def recipTerm (L xi a : ℝ) (k d : Nat → ℝ) (s t : Nat) : ℝ :=
  1 / L ^ 3 * (1 + norm3 k ^ 2 / (4 * xi ^ 2) + norm3 k ^ 4 / (8 * xi ^ 4)) * (6 * Real.pi / norm3 k ^ 2) * Real.exp (-(norm3 k ^ 2 / (4 * xi ^ 2))) *
    Real.cos (∑ e ∈ Finset.range 3, k e * d e) * (1 - a * norm3 k ^ 2 / 3) * (δ s t - k s / norm3 k * (k t / norm3 k))

/-- Difference to the nearest image: `d` minus the nearest multiple of `L`, in `(-L/2, L/2]`. -/
def nearest (L d : ℝ) : ℝ := d - L * ⌈d / L - 1 / 2⌉

/-- Far field coefficients of the RPY tensor. -/
def farI (p q r : ℝ) : ℝ := 3 / (4 * r) * (1 + (p ^ 2 + q ^ 2) / (3 * r ^ 2))
def farR (p q r : ℝ) : ℝ := 3 / (4 * r) * (1 - (p ^ 2 + q ^ 2) / r ^ 2)

/-- Correction for different spheres: the nearest images may overlap. `m` is the difference to the nearest image. -/
def overlap (p q : ℝ) (m : Nat → ℝ) (s t : Nat) : ℝ :=
  (rpyI p q (norm3 m) - farI p q (norm3 m)) * δ s t + (rpyR p q (norm3 m) - farR p q (norm3 m)) * (m s / norm3 m * (m t / norm3 m))

/-- Self part of a sphere of radius `p`. -/
def selfPart (xi p : ℝ) : ℝ := 1 / p - (6 - 40 / 3 * xi ^ 2 * p ^ 2) * (xi / √Real.pi)

/-- The Ewald sum of two spheres; coordinate 3 is the radius.  Spheres closer than `10⁻¹⁵` are the same sphere. -/
def ewald (erfc : ℝ → ℝ) (L xi : ℝ) (nr nk : Nat) (x y : Nat → ℝ) (s t : Nat) : ℝ :=
  let d := fun e => x e - y e
  let a := (x 3 ^ 2 + y 3 ^ 2) / 2
  (∑ v ∈ lattice nr, realTerm erfc xi a (fun e => d e + L * comp v e) s t) +
  (∑ v ∈ lattice nk with v ≠ 0, recipTerm L xi a (fun e => 2 * Real.pi / L * comp v e) d s t) +
  if (1 / 10 ^ 15) ^ 2 ≤ ∑ e ∈ Finset.range 3, d e ^ 2 then overlap (x 3) (y 3) (fun e => nearest L (d e)) s t else selfPart xi (x 3) * δ s t

end
end H2Pack.KernSpec
