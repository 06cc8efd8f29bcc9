import Verif.Model.RankEst
import Verif.Spec.AFNPrecond
import Verif.Spec.AFN
import Mathlib.LinearAlgebra.Matrix.Charpoly.Basic
import Mathlib.Order.Bounds.Defs

/-! # What the rank estimation should compute -/

namespace H2Pack.AFN
open Matrix

/-- The Frobenius norm. -/
noncomputable def frob {n : Nat} (A : Matrix (Fin n) (Fin n) ℝ) : ℝ := Real.sqrt (∑ i, ∑ j, A i j ^ 2)

/-- The Nyström approximation of `A` that uses the first `r` rows and columns. -/
noncomputable def nysLead {n : Nat} (A : Matrix (Fin n) (Fin n) ℝ) (r : Nat) (h : r ≤ n) : Matrix (Fin n) (Fin n) ℝ :=
  A.submatrix id (Fin.castLE h) * (A.submatrix (Fin.castLE h) (Fin.castLE h))⁻¹ * A.submatrix (Fin.castLE h) id

/-- `r` is the smallest number of leading rows and columns for which the relative error of the Nyström approximation is below 0.1. -/
def IsNysRank {n : Nat} (A : Matrix (Fin n) (Fin n) ℝ) (r : Nat) : Prop :=
  IsLeast {r | 1 ≤ r ∧ ∃ h : r ≤ n, frob (A - nysLead A r h) < 1 / 10 * frob A} r

/-- All kernel matrices are positive semidefinite. -/
def PSDKernel (kf : (Nat → ℝ) → (Nat → ℝ) → ℝ) : Prop := ∀ (n : Nat) (x : Fin n → Nat → ℝ), (Matrix.of fun i j => kf (x i) (x j)).PosSemidef

/-- `ss` different points. -/
def IsSample (npt ss : Nat) (s : List Nat) : Prop := s.length = ss ∧ s.Nodup ∧ ∀ x ∈ s, x < npt

/-- The sampled points, scaled. -/
noncomputable def scaledPts (coord : Nat → Nat → ℝ) (s : List Nat) (c : ℝ) : Nat → Nat → ℝ := fun d j => coord d (s.getD j 0) * c

/-- `ρ` is the rank for a sample of points that are moved together by the factor `(ss / npt)^(1/dim)` (so that their density is that of all points), in the order of farthest point
sampling, with the shift `nu` that makes the matrix definite. -/
def SampleRank (I : RankIn) (ρ : Nat) : Prop :=
  ∃ (s : List Nat) (p : Nat → Nat), IsSample I.npt I.ss s ∧
    Farthest (⟨I.ss, I.dim, scaledPts I.coord s (((I.ss : ℝ) / I.npt) ^ (1 / (I.dim : ℝ))), I.nThread, I.big⟩ : FpsIn ℝ) I.ss p ∧
    ∃ x : Nat → Nat → ℝ, (∀ d j, x d j = scaledPts I.coord s (((I.ss : ℝ) / I.npt) ^ (1 / (I.dim : ℝ))) d (p j)) ∧
      IsNysRank (kmat I.kf (Real.sqrt I.ss * I.env.ulp (frob (kmat I.kf 0 I.ss x) ^ 2)) I.ss x) ρ

/-- The number of eigenvalues (with multiplicity) above `t`. -/
noncomputable def nAbove {n : Nat} (A : Matrix (Fin n) (Fin n) ℝ) (t : ℝ) : Nat := (A.charpoly.roots.filter fun w => t < w).card

/-- `c` is the number of eigenvalues above `mu / 10` of the kernel matrix of a sample, moved together by the factor `(ss / maxK)^(1/dim)`. -/
def SampleCount (I : RankIn) (c : Nat) : Prop :=
  ∃ s : List Nat, IsSample I.npt I.ss s ∧ c = nAbove (kmat I.kf 0 I.ss (scaledPts I.coord s (((I.ss : ℝ) / I.maxK) ^ (1 / (I.dim : ℝ))))) (I.mu / 10)

/-- `r` is the maximum of `n` numbers with the property `P`, scaled by `a / b` and rounded up. -/
def MaxScaled (P : Nat → Prop) (n a b r : Nat) : Prop := ∃ ρ : Fin n → Nat, (∀ i, P (ρ i)) ∧ r = ⌈((Finset.univ.sup ρ : Nat) : ℝ) * a / b⌉₊

end H2Pack.AFN
