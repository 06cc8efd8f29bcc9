import Verif.Model.BuildPer
import Verif.Spec.BuildUJ
import Verif.Spec.Built
import Verif.Spec.Periodic

/-!
# Specification of a constructed periodic representation
-/

namespace H2Pack.Per
open H2Pack.Part (PerPairs perPairs latShift Desc)
open H2Pack.MV (Per KMv MvSpec Mat point)
open H2Pack.UJ (Input Slot Skeleton cands pt assemble)

section
variable {K : Type} [Field K]

/-- Displacement of the image of the unit cell for lattice vector `l`: the width of the cell times the vector, in the first `pt_dim` coordinates. -/
def cellShift (S : Input K) (lat : Nat → Nat → K) (l : Nat) : Nat → K := fun d => if d < S.ptDim then latShift S.arr lat l d else 0

/-- What the root block stands for: the periodic kernel without the images that the blocks of the pairs account for. -/
def diffKern (S : Input K) (pkern : (Nat → K) → (Nat → K) → Nat → Nat → K) (nLat : Nat) (lat : Nat → Nat → K) (s t : Nat → K) (a b : Nat) : K :=
  pkern s t a b - ∑ l ∈ Finset.range nLat, S.kern s (fun d => t d + cellShift S lat l d) a b

/-- Error of interpolating the function `G` of a point and a component, at candidate number `i` of node `u`, from the skeleton points of `u` with the
coefficients in `U`. -/
def interpOf (S : Input K) (sl : Nat → Slot K) (G : (Nat → K) → Nat → K) (u i a : Nat) : K :=
  G (pt S ((cands S sl u).getD i 0)) a -
    ∑ k ∈ Finset.range (sl u).jl, ∑ a' ∈ Finset.range S.kdim, (sl u).U.entry (i * S.kdim + a) (k * S.kdim + a') * G (pt S ((sl u).jd k)) a'

variable [LinearOrder K]

/-- `P` is what `H2P_partition_points_periodic` and `H2P_build_periodic` leave, for the periodic kernel `pkern`, the pair lists `pv` and the skeleton points and
bases `sl`. -/
structure BuiltPer (S : Input K) (pkern : (Nat → K) → (Nat → K) → Nat → Nat → K) (nLat : Nat) (lat : Nat → Nat → K) (pv : PerPairs) (sl : Nat → Slot K) (P : Per K) : Prop where
  form : ∃ coordIdx mark simd B D junkM junkW mv pad junkC junkB junkR junk, P = assemblePer S sl pv lat coordIdx mark simd B D junkM junkW mv pad junkC
    (perBlkOf S (assemble S sl (pairsOf pv) coordIdx mark simd none B D junkM junkW) pkern nLat lat junkB junkR junk)
  skel : ∀ v < S.arr.nNode, Skeleton S sl v
  pairs : ∃ fuel, 2 * S.arr.nNode ≤ fuel ∧ perPairs S.ptDim S.arr nLat lat fuel = .ok pv
  ok : P.Ok

/-- The nodes interpolate the functions they are used for well: `ε` for the kernel values with the (moved) points of the other node of an admissible pair,
`εr` for what the root block stands for. -/
structure PerAccurate (S : Input K) (pkern : (Nat → K) → (Nat → K) → Nat → Nat → K) (nLat : Nat) (lat : Nat → Nat → K) (pv : PerPairs) (sl : Nat → Slot K) (ε εr : K) : Prop where
  row : ∀ x ∈ pv.adm, S.arr.level x.2.1 ≤ S.arr.level x.1 → ∀ u, Desc S.arr u x.1 → ∀ y, S.arr.ptS x.2.1 ≤ y → y ≤ S.arr.ptE x.2.1 → ∀ b < S.kdim,
    ∀ i < (cands S sl u).length, ∀ a < S.kdim, |interpOf S sl (fun s a => S.kern s (fun d => pt S y d + cellShift S lat x.2.2 d) a b) u i a| ≤ ε
  col : ∀ x ∈ pv.adm, S.arr.level x.1 ≤ S.arr.level x.2.1 → ∀ u, Desc S.arr u x.2.1 → ∀ y, S.arr.ptS x.1 ≤ y → y ≤ S.arr.ptE x.1 → ∀ a < S.kdim,
    ∀ i < (cands S sl u).length, ∀ b < S.kdim, |interpOf S sl (fun s b => S.kern (pt S y) (fun d => s d + cellShift S lat x.2.2 d) a b) u i b| ≤ ε
  rootRow : ∀ u < S.arr.nNode, ∀ y < S.nPoint, ∀ b < S.kdim, ∀ i < (cands S sl u).length, ∀ a < S.kdim,
    |interpOf S sl (fun s a => diffKern S pkern nLat lat s (pt S y) a b) u i a| ≤ εr
  rootCol : ∀ u < S.arr.nNode, ∀ y < S.nPoint, ∀ a < S.kdim, ∀ i < (cands S sl u).length, ∀ b < S.kdim,
    |interpOf S sl (fun s b => diffKern S pkern nLat lat (pt S y) s a b) u i b| ≤ εr

end
end H2Pack.Per
