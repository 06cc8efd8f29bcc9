import Verif.Model.FSAI
import Mathlib.LinearAlgebra.Matrix.PosDef

/-! # What the FSAI preconditioner should be -/

namespace H2Pack.AFN

/-- Squared distance of two points. -/
def dist2 {K : Type} [Field K] (dim : Nat) (coord : Nat → Nat → K) (i j : Nat) : K :=
  ∑ d ∈ Finset.range dim, (coord d i - coord d j) ^ 2

/-- `L` lists a set of at most `m` points that ends with `i` itself; the others have smaller indices. -/
structure Lower (m i : Nat) (L : List Nat) : Prop where
  last : L.getLast? = some i
  nodup : L.Nodup
  le : ∀ j ∈ L, j ≤ i
  card : L.length ≤ m

/-- `L` consists of `i` and of the `m - 1` points nearest to it among the points with smaller indices (all of them if there are fewer). -/
structure Nearest {K : Type} [LinearOrder K] (dist : Nat → Nat → K) (m i : Nat) (L : List Nat) : Prop where
  lower : Lower m i L
  full : L.length = min (i + 1) m
  nearest : ∀ j ∈ L, j ≠ i → ∀ k < i, k ∉ L → dist i j ≤ dist i k

/-- The matrix the preconditioner approximates the inverse of: `kernel(X, X) + mu I - P P'`. -/
noncomputable def target (F : FsaiIn) : Matrix (Fin F.n) (Fin F.n) ℝ := fun i j =>
  F.kf (fun d => F.coord d i) (fun d => F.coord d j) + (if i = j then F.mu else 0) - ∑ t ∈ Finset.range F.n1, F.P i t * F.P j t

/-- The matrix a CSR structure stands for: entries of the same row and column are added. -/
noncomputable def dense (n : Nat) (M : H2Pack.CSR.Mat ℝ) : Matrix (Fin n) (Fin n) ℝ := fun i j =>
  ∑ k ∈ Finset.range (M.rp (i + 1)), if M.rp i ≤ k ∧ M.col k = (j : Nat) then M.val k else 0

/-- `G` is the factorized sparse approximate inverse of `S` on the pattern `nn`: lower triangular with positive diagonal, no entries outside the
pattern, `G S G'` has ones on the diagonal and `G S` vanishes on the pattern except on the diagonal. -/
structure IsFSAI {n : Nat} (nn : Nat → List Nat) (S G : Matrix (Fin n) (Fin n) ℝ) : Prop where
  pattern : ∀ i j : Fin n, (j : Nat) ∉ nn i → G i j = 0
  diag : ∀ i, 0 < G i i
  unit : ∀ i, (G * S * G.transpose) i i = 1
  orth : ∀ i j : Fin n, (j : Nat) ∈ nn i → j ≠ i → (G * S) i j = 0

end H2Pack.AFN
