import Verif.Model.AFN
import Mathlib.Algebra.BigOperators.Group.Finset.Basic
import Mathlib.Algebra.BigOperators.Fin
import Mathlib.Data.Finset.Lattice.Fold

/-! # Specification of farthest point sampling -/

namespace H2Pack.AFN
open Finset

variable {K : Type} [Field K] [LinearOrder K]

/-- The squared distance of point `j` to the position `q`. -/
def sqDist (F : FpsIn K) (j : Nat) (q : Nat → K) : K := ∑ d ∈ range F.dim, (F.coord d j - q d) ^ 2

/-- The position of point `i`. -/
def pos (F : FpsIn K) (i : Nat) : Nat → K := fun d => F.coord d i

/-- The centre of the points. -/
def centroid (F : FpsIn K) : Nat → K := fun d => (∑ j ∈ range F.npt, F.coord d j) / (F.npt : K)

/-- The squared distance of point `j` to the nearest of the points `idx 0, ..., idx i`. -/
def gap (F : FpsIn K) (idx : Nat → Nat) (i j : Nat) : K := (range (i + 1)).inf' nonempty_range_add_one (fun s => sqDist F j (pos F (idx s)))

/-- The result of farthest point sampling of `k` points: the point nearest to the centre, then each time the point that is farthest from
the points selected so far; among points that are equally good the one with the lowest index. -/
structure Farthest (F : FpsIn K) (k : Nat) (idx : Nat → Nat) : Prop where
  firstLt : idx 0 < F.npt
  first : ∀ j < F.npt, sqDist F (idx 0) (centroid F) ≤ sqDist F j (centroid F)
  firstLow : ∀ j < idx 0, sqDist F (idx 0) (centroid F) < sqDist F j (centroid F)
  nextLt : ∀ i, i + 1 < k → idx (i + 1) < F.npt
  next : ∀ i, i + 1 < k → ∀ j < F.npt, gap F idx i j ≤ gap F idx i (idx (i + 1))
  nextLow : ∀ i, i + 1 < k → ∀ j < idx (i + 1), gap F idx i j < gap F idx i (idx (i + 1))

/-- The number of different positions among the points. -/
def nDistinct (F : FpsIn K) : Nat := ((range F.npt).image (fun j => fun d : Fin F.dim => F.coord d j)).card

end H2Pack.AFN
