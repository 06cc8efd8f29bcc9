import Verif.Model.BuildUJ
import Verif.Spec.ID

/-!
# Specification of skeleton points and bases
-/

namespace H2Pack.UJ
open H2Pack.Part (Arr kids)

section
variable {K : Type} [Field K]

/-- The skeleton points of a node (positions in the order of the tree). -/
def Slot.pts (s : Slot K) : List Nat := (List.range s.jl).map s.jd

/-- The points node `v` chooses from: all points of a leaf, the skeleton points of the children, in order, of an inner node. -/
def cands (S : Input K) (sl : Nat → Slot K) (v : Nat) : List Nat :=
  if S.arr.height v = 0 then List.range' (S.arr.ptS v) (S.arr.ptE v - S.arr.ptS v + 1)
  else (kids S.arr v).flatMap fun c => (sl c).pts

/-- What the users of `J`, `J_coord`, `U` rely on for node `v`. -/
structure Skeleton (S : Input K) (sl : Nat → Slot K) (v : Nat) : Prop where
  /-- skeleton points are chosen among the candidates, in their order -/
  chosen : (sl v).pts.Sublist (cands S sl v)
  increasing : (sl v).pts.Pairwise (· < ·)
  cluster : ∀ p ∈ (sl v).pts, S.arr.ptS v ≤ p ∧ p ≤ S.arr.ptE v
  coord : ∀ d < S.xdim, ∀ k < (sl v).jl, (sl v).jc (d * (sl v).jl + k) = S.coord (d * S.nPoint + (sl v).jd k)
  /-- `U` has `krnl_dim` rows for every candidate and `krnl_dim` columns for every skeleton point -/
  rows : (sl v).U.nrow = (cands S sl v).length * S.kdim
  cols : (sl v).U.ncol = (sl v).jl * S.kdim
  tall : (sl v).U.ncol ≤ (sl v).U.nrow
  stored : (sl v).U.nrow * (sl v).U.ld ≤ (sl v).U.size ∧ (sl v).U.ncol ≤ (sl v).U.ld
  /-- the row of a skeleton point is a unit vector -/
  unit : ∀ i < (cands S sl v).length, ∀ k < (sl v).jl, (cands S sl v)[i]? = some ((sl v).jd k) →
    ∀ a < S.kdim, ∀ t < (sl v).U.ncol, (sl v).U.entry (i * S.kdim + a) t = if t = k * S.kdim + a then S.ops.one else S.ops.zero

/-- Coordinates of point `p`, relative to the centre of the box of node `v`. -/
def relPoint (S : Input K) (v p : Nat) : Nat → K := fun d =>
  if d < S.xdim then
    S.coord (d * S.nPoint + p) - (if d < S.ptDim then (S.arr.enbox v).lo d + (1 / 2) * (S.arr.enbox v).ext d else 0)
  else 0

/-- Kernel value of component `a` of point `p`, relative to the centre of the box of node `v`, and component `c % krnl_dim` of proxy point
`c / krnl_dim` of the level of `v`. -/
def proxyVal (S : Input K) (v p a c : Nat) : K :=
  S.kern (relPoint S v p) (H2Pack.MV.point S.xdim (S.pp (S.arr.level v)).2 (S.pp (S.arr.level v)).1 (c / S.kdim)) a (c % S.kdim)

/-- Number of columns: `krnl_dim` for every proxy point. -/
def proxyCols (S : Input K) (v : Nat) : Nat := (S.pp (S.arr.level v)).1 * S.kdim

/-- The slots after the construction: every node at level `m` or below has got its slot from its task, run after those of its
children. -/
def Done (S : Input K) (m : Nat) (f : Nat → (Nat → Res (Slot K)) → Res (Slot K)) (st : Nat → Res (Slot K)) : Prop :=
  ∀ v < S.arr.nNode, m ≤ S.arr.level v → st v = f v st

end

/-- Norm of the interaction of point `p` with the proxy points of node `v`. -/
noncomputable def pointNorm (S : Input ℝ) (v p : Nat) : ℝ :=
  Real.sqrt (∑ a ∈ Finset.range S.kdim, ∑ c ∈ Finset.range (proxyCols S v), proxyVal S v p a c ^ 2)

/-- Error of the interaction of candidate number `i` of node `v` with the proxy points, when it is interpolated from the skeleton points with the
coefficients in `U`. -/
noncomputable def interpErr (S : Input ℝ) (sl : Nat → Slot ℝ) (v i : Nat) : ℝ :=
  Real.sqrt (∑ a ∈ Finset.range S.kdim, ∑ c ∈ Finset.range (proxyCols S v),
    (proxyVal S v ((cands S sl v).getD i 0) a c -
      ∑ k ∈ Finset.range (sl v).jl, ∑ b ∈ Finset.range S.kdim, (sl v).U.entry (i * S.kdim + a) (k * S.kdim + b) * proxyVal S v ((sl v).jd k) b c) ^ 2)

end H2Pack.UJ
