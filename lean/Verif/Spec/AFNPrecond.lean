import Verif.Model.AFNPrecond
import Verif.Spec.FSAI
import Verif.Spec.SPDHSS
import Mathlib.LinearAlgebra.Matrix.PosDef
import Mathlib.LinearAlgebra.Matrix.NonsingularInverse

/-! # What the AFN preconditioner should be -/

namespace H2Pack.AFN
open Matrix

/-- The shifted kernel matrix `K + mu I` in the order of the input points. -/
noncomputable def kmat (kf : (Nat → ℝ) → (Nat → ℝ) → ℝ) (mu : ℝ) (n : Nat) (coord : Nat → Nat → ℝ) : Matrix (Fin n) (Fin n) ℝ := fun i j =>
  kf (fun d => coord d i) (fun d => coord d j) + if i = j then mu else 0

/-- `perm` lists the points `0 .. n-1` in some order. -/
def IsOrder (n : Nat) (perm : Nat → Nat) : Prop := ((List.range n).map perm).Perm (List.range n)

/-- `B` is what applying the preconditioner multiplies with; entries of the output array after the first `n` are not touched. -/
def Applies (P : Precond) (n : Nat) (B : Matrix (Fin n) (Fin n) ℝ) : Prop :=
  ∀ x y0 : Nat → ℝ, (∀ i : Fin n, precondApply P x y0 i = (B.mulVec fun j => x j) i) ∧ ∀ i, n ≤ i → precondApply P x y0 i = y0 i

section
variable (kf : (Nat → ℝ) → (Nat → ℝ) → ℝ) (mu : ℝ) (n1 n2 : Nat) (pt : Nat → Nat → ℝ)

/-- The blocks of `K + mu I` in the new order; `pt i` are the coordinates of point `i` of the new order. -/
noncomputable def A11 : Matrix (Fin n1) (Fin n1) ℝ := fun i j => kf (pt i) (pt j) + if i = j then mu else 0
noncomputable def A12 : Matrix (Fin n1) (Fin n2) ℝ := fun i j => kf (pt i) (pt (n1 + j))
noncomputable def A22 : Matrix (Fin n2) (Fin n2) ℝ := fun i j => kf (pt (n1 + i)) (pt (n1 + j)) + if i = j then mu else 0

/-- The Schur complement of the first block. -/
noncomputable def schur : Matrix (Fin n2) (Fin n2) ℝ := A22 kf mu n1 n2 pt - (A12 kf n1 n2 pt)ᵀ * (A11 kf mu n1 pt)⁻¹ * A12 kf n1 n2 pt

end

/-- `SYEVD` returns the eigenvalues in ascending order. -/
def Ascending (Lq : H2Pack.SPD.Lapack2) : Prop := ∀ n a, ∀ i j, i ≤ j → j < n → (Lq.syevd n a).2.2 i ≤ (Lq.syevd n a).2.2 j

section
variable (kf : (Nat → ℝ) → (Nat → ℝ) → ℝ) (n1 n : Nat) (coord : Nat → Nat → ℝ) (lm : Nat → Nat)

/-- The rows of the kernel matrix for the landmarks `lm 0, ..., lm (n1 - 1)`. -/
noncomputable def lmRows : Matrix (Fin n1) (Fin n) ℝ := fun a j => kf (fun d => coord d (lm a)) (fun d => coord d j)

/-- The kernel matrix of the landmarks, with the shift `nu`. -/
noncomputable def lmBlock (nu : ℝ) : Matrix (Fin n1) (Fin n1) ℝ := fun a b =>
  kf (fun d => coord d (lm a)) (fun d => coord d (lm b)) + if a = b then nu else 0

/-- The Nyström approximation of the kernel matrix. -/
noncomputable def nysHat (nu : ℝ) : Matrix (Fin n) (Fin n) ℝ := (lmRows kf n1 n coord lm)ᵀ * (lmBlock kf n1 coord lm nu)⁻¹ * lmRows kf n1 n coord lm

/-- The nonzero eigenvalues of the Nyström approximation, as those of a pencil of matrices of size `n1`. -/
def lmEig (nu : ℝ) : Set ℝ := {w | ∃ y : Fin n1 → ℝ, y ≠ 0 ∧
  (lmRows kf n1 n coord lm * (lmRows kf n1 n coord lm)ᵀ) *ᵥ y = w • (lmBlock kf n1 coord lm nu *ᵥ y)}

end

/-- `B` is the function `h` of the matrix `A`: it acts on every eigenvector of `A` as the multiplication with `h` of the eigenvalue. -/
def FunOf {n : Nat} (h : ℝ → ℝ) (A B : Matrix (Fin n) (Fin n) ℝ) : Prop := ∀ (w : ℝ) (v : Fin n → ℝ), A *ᵥ v = w • v → B *ᵥ v = h w • v

end H2Pack.AFN
