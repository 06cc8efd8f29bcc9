import Verif.Spec.SPDHSS
import Verif.Spec.H2Matrix
import Mathlib.LinearAlgebra.Matrix.Rank

/-!
# What the samples of an H2 matrix should contain
-/

namespace H2Pack.SPD
open H2Pack.MV (Mat Rep WF admEntry blockEntry inadmEntry entry)
open H2Pack.Part (Desc Pairs calcPairs)

/-- Entry `(r, q)` of the H2 matrix when the products of an admissible block with a row node above the level `min_adm_level` are left out. -/
noncomputable def seenEntry (R : Rep ℝ) (W : Nat → Nat → Nat → ℝ) (r q : Nat) : ℝ :=
  (∑ i ∈ Finset.range R.adm.length,
    ((if R.minAdm ≤ R.arr.level (R.adm.getD i (0, 0)).1 then admEntry R W i r q else 0) +
     (if R.minAdm ≤ R.arr.level (R.adm.getD i (0, 0)).2 then admEntry R W i q r else 0))) +
  (∑ i ∈ Finset.range R.arr.nLeaf, blockEntry R (R.leaf i) (R.leaf i) (R.D i) r q) +
  ∑ i ∈ Finset.range R.inadm.length, (inadmEntry R i r q + inadmEntry R i q r)

/-- `Y` holds samples of the matrix `A` with the random matrix `vec`: for a leaf `v` and a node `u` above it (or `u = v`), `l` levels up, `Y v l` is
`A(rows of v, all columns outside u) * vec(outside u, :)`. -/
def Samples (R : Rep ℝ) (A : Nat → Nat → ℝ) (nvec : Nat) (vec : Nat → ℝ) (Y : Nat → Nat → Option (Mat ℝ)) : Prop :=
  ∀ v < R.arr.nNode, R.arr.nChild v = 0 → ∀ l < R.arr.level v, ∀ u < R.arr.nNode, Desc R.arr v u → R.arr.level u + l = R.arr.level v →
    ∃ e, Y v l = some ⟨R.rowE v - R.rowS v, nvec, e⟩ ∧ ∀ i < R.rowE v - R.rowS v, ∀ j < nvec,
      e i j = ∑ q ∈ Finset.range R.size, if R.rowS u ≤ q ∧ q < R.rowE u then 0 else A (R.rowS v + i) q * vec (q * nvec + j)

/-- The part of the matrix `A` in the rows of node `v` and the columns outside `v` (zero elsewhere). -/
noncomputable def offRows (R : Rep ℝ) (A : Nat → Nat → ℝ) (v : Nat) : Matrix (Fin R.size) (Fin R.size) ℝ :=
  Matrix.of fun r q => if (R.rowS v ≤ r.1 ∧ r.1 < R.rowE v) ∧ ¬ (R.rowS v ≤ q.1 ∧ q.1 < R.rowE v) then A r q else 0

/-- The random matrix, stored by rows. -/
def randMat (N nvec : Nat) (vec : Nat → ℝ) : Matrix (Fin N) (Fin nvec) ℝ := Matrix.of fun q j => vec (q * nvec + j)

/-- The samples are adequate for `A`: for every node below the root the rows of `A` outside the diagonal block have at most rank `c`, and their products with
the random matrix have the same rank. -/
def Adequate (R : Rep ℝ) (A : Nat → Nat → ℝ) (c nvec : Nat) (vec : Nat → ℝ) : Prop :=
  ∀ v, v + 1 < R.arr.nNode → (offRows R A v).rank ≤ c ∧ (offRows R A v * randMat R.size nvec vec).rank = (offRows R A v).rank

/-- An H2 matrix whose pairs were found by the search with the admissibility test `adm`; at least one pair is admissible; nodes above `min_adm_level`
have no basis. -/
structure H2Input (R : Rep ℝ) (pv : Pairs) (adm : Nat → Nat → Bool) : Prop where
  wf : WF R
  found : Returns (fun fuel => calcPairs R.arr adm 0 fuel (R.arr.nNode - 1) (R.arr.nNode - 1) ⟨[], [], R.arr.maxLevel⟩) pv
  adm : R.adm = pv.adm
  inadm : R.inadm = pv.inadm
  min : R.minAdm = pv.minAdm
  some : R.adm ≠ []
  low : ∀ v < R.arr.nNode, R.arr.level v < R.minAdm → (R.U v).nrow = 0 ∧ (R.U v).ncol = 0

end H2Pack.SPD
