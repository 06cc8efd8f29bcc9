import Verif.Model.ApproxKNN
import Verif.Spec.FSAI

/-! # What the neighbour search through the H2 tree should deliver -/

namespace H2Pack.AFN
open H2Pack.Part (Arr)

/-- `s` is the smallest level of a leaf. -/
def TopLeafLevel {K : Type} (A : Arr K) (s : Nat) : Prop :=
  (∃ v < A.nNode, A.nChild v = 0 ∧ A.level v = s) ∧ ∀ v < A.nNode, A.nChild v = 0 → s ≤ A.level v

/-- `L` consists of `i` and of `m - 1` points with smaller indices (all of them if there are fewer); a point that was not selected although it is nearer to `i`
than a selected one has at least the distance `r`. -/
structure NearestWithin {K : Type} [Field K] [LinearOrder K] (dist : Nat → Nat → K) (m i : Nat) (r : K) (L : List Nat) : Prop where
  lower : Lower m i L
  full : L.length = min (i + 1) m
  nearest : ∀ j ∈ L, j ≠ i → ∀ k < i, k ∉ L → dist i j ≤ dist i k ∨ r ^ 2 ≤ dist i k

end H2Pack.AFN
