import Mathlib.LinearAlgebra.Matrix.SchurComplement
import Mathlib.Analysis.Matrix.Order
import Mathlib.LinearAlgebra.Matrix.PosDef

/-! # Block factorization of a positive definite matrix -/

namespace H2Pack.AFN
open Matrix

variable {m n : Type} [Fintype m] [Fintype n] [DecidableEq m] [DecidableEq n]

theorem posDef_blocks {A : Matrix m m ℝ} (hA : A.PosDef) (B : Matrix m n ℝ) (D : Matrix n n ℝ) :
    (fromBlocks A B Bᵀ D).PosDef ↔ (D - Bᵀ * A⁻¹ * B).PosDef := by
  have hAu : IsUnit A.det := (Matrix.isUnit_iff_isUnit_det A).1 hA.isUnit
  haveI : Invertible A := Matrix.invertibleOfIsUnitDet A hAu
  have hps := Matrix.PosDef.fromBlocks₁₁ B D hA
  rw [Matrix.conjTranspose_eq_transpose_of_trivial] at hps
  have hdet := Matrix.det_fromBlocks₁₁ A B Bᵀ D
  rw [Matrix.invOf_eq_nonsing_inv] at hdet
  constructor
  · intro h
    have h1 := hps.1 h.posSemidef
    rw [h1.posDef_iff_det_ne_zero]
    have h2 := (h.posSemidef.posDef_iff_det_ne_zero).1 h
    rw [hdet] at h2
    exact right_ne_zero_of_mul h2
  · intro h
    have h1 := hps.2 h.posSemidef
    rw [h1.posDef_iff_det_ne_zero, hdet]
    exact mul_ne_zero hAu.ne_zero ((h.posSemidef.posDef_iff_det_ne_zero).1 h)

/-- The block form of the preconditioner is the inverse of a matrix that differs from the given one in the last block only. -/
theorem afn_block {A : Matrix m m ℝ} (hA : A.PosDef) (B : Matrix m n ℝ) {H : Matrix n n ℝ} (hH : H.PosDef) :
    (fromBlocks A B Bᵀ (Bᵀ * A⁻¹ * B + H⁻¹)).PosDef ∧
    fromBlocks (A⁻¹ + A⁻¹ * B * H * Bᵀ * A⁻¹) (-(A⁻¹ * B * H)) (-(H * Bᵀ * A⁻¹)) H = (fromBlocks A B Bᵀ (Bᵀ * A⁻¹ * B + H⁻¹))⁻¹ := by
  have hAu : IsUnit A.det := (Matrix.isUnit_iff_isUnit_det A).1 hA.isUnit
  have hHu : IsUnit H.det := (Matrix.isUnit_iff_isUnit_det H).1 hH.isUnit
  have h1 : (fromBlocks A B Bᵀ (Bᵀ * A⁻¹ * B + H⁻¹)).PosDef := by
    rw [posDef_blocks hA]
    simpa using hH.inv
  refine ⟨h1, ?_⟩
  symm
  apply Matrix.inv_eq_left_inv
  rw [fromBlocks_multiply, ← fromBlocks_one]
  have e1 : A⁻¹ * A = 1 := Matrix.nonsing_inv_mul _ hAu
  have e2 : H * H⁻¹ = 1 := Matrix.mul_nonsing_inv _ hHu
  congr 1
  · simp only [Matrix.add_mul, Matrix.neg_mul, Matrix.mul_assoc, e1, Matrix.mul_one]
    abel
  · simp only [Matrix.add_mul, Matrix.mul_add, Matrix.neg_mul, Matrix.mul_assoc, e2, Matrix.mul_one]
    abel
  · simp only [Matrix.neg_mul, Matrix.mul_assoc, e1, Matrix.mul_one]
    abel
  · simp only [Matrix.mul_add, Matrix.neg_mul, Matrix.mul_assoc, e2]
    abel

end H2Pack.AFN
