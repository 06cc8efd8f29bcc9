import Verif.Spec.BuildUJ
import Verif.Props.Entries

/-!
# Specification of the constructed representation
-/

namespace H2Pack.UJ
open H2Pack.Part (Pairs)
open H2Pack.MV (JIT Covered point)

section
variable {K : Type} [Field K]

/-- `J` is the representation with the skeleton points and bases `sl` and the pair lists `pv`: every node that takes part in admissible pairs has
a proper skeleton, and the blocks cover every matrix entry once. -/
structure Built (S : Input K) (pv : Pairs) (sl : Nat → Slot K) (J : JIT K) : Prop where
  form : ∃ coordIdx mark simd bimv B D junkM junkW, J = assemble S sl pv coordIdx mark simd bimv B D junkM junkW
  skel : ∀ v < S.arr.nNode, pv.minAdm ≤ S.arr.level v → Skeleton S sl v
  covered : Covered J pv

/-- Coordinates of point `p` (position in the order of the tree). -/
def pt (S : Input K) (p : Nat) : Nat → K := point S.xdim S.coord S.nPoint p

/-- The points that stand for node `v` in the pair `v`, `w`: its skeleton points, or all points when `v` is on a higher level than `w`. -/
def OnSide (S : Input K) (sl : Nat → Slot K) (v w p : Nat) : Prop :=
  if S.arr.level w ≤ S.arr.level v then p ∈ (sl v).pts else S.arr.ptS v ≤ p ∧ p ≤ S.arr.ptE v

/-- Error of interpolating the kernel values of candidate number `i` of node `u` with point `y` from the skeleton points of `u` with the
coefficients in `U`. -/
def farErr (S : Input K) (sl : Nat → Slot K) (u i a y b : Nat) : K :=
  S.kern (pt S ((cands S sl u).getD i 0)) (pt S y) a b -
    ∑ k ∈ Finset.range (sl u).jl, ∑ a' ∈ Finset.range S.kdim, (sl u).U.entry (i * S.kdim + a) (k * S.kdim + a') * S.kern (pt S ((sl u).jd k)) (pt S y) a' b

end
end H2Pack.UJ
