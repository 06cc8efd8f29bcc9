import Verif.Model.PCG
import Mathlib.LinearAlgebra.Matrix.PosDef
import Mathlib.LinearAlgebra.Matrix.NonsingularInverse
import Mathlib.Algebra.Polynomial.AlgebraMap

/-! # What the conjugate gradient method should do -/

namespace H2Pack.PCG
open Matrix

variable {n : Nat}

/-- The square of the energy norm of the error of `x` for the system `A x = b`. -/
noncomputable def errA (A : Matrix (Fin n) (Fin n) ℝ) (b x : Fin n → ℝ) : ℝ := (A⁻¹ *ᵥ b - x) ⬝ᵥ (A *ᵥ (A⁻¹ *ᵥ b - x))

/-- The operators passed to the solver are multiplications with `A` and `B` (`B = 1` if there is no preconditioner). -/
def Operators (a : Args n) (A B : Matrix (Fin n) (Fin n) ℝ) : Prop :=
  (∀ v, a.ax v = A *ᵥ v) ∧ match a.mx with | some m => ∀ v, m v = B *ᵥ v | none => B = 1

/-- The vector whose error is `q(B A)` times the error of `x0`. -/
noncomputable def polyIter (A B : Matrix (Fin n) (Fin n) ℝ) (b x0 : Fin n → ℝ) (q : Polynomial ℝ) : Fin n → ℝ :=
  A⁻¹ *ᵥ b - Polynomial.aeval (B * A) q *ᵥ (A⁻¹ *ᵥ b - x0)

end H2Pack.PCG
