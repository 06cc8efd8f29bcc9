import Verif.Spec.FileIO
import Verif.Props.Metadata

/-! # Matrices that can be stored -/

namespace H2Pack.IO
open H2Pack.MV

section
variable {K : Type} [CommRing K]

/-- A matrix as `H2P_build` leaves it (with `xpt_dim = pt_dim`): consistent sizes, the metadata computed from its pair lists,
blocks computed by some interleaving of the threads (unless they are not stored), skeleton points taken from the points. -/
structure Storable (H : Mtx K) : Prop where
  wf : WF H.J.aot
  width : H.J.R.arr.maxChild = 2 ^ H.ptDim
  dims : H.J.xdim = H.ptDim
  adm : DistinctPairs H.J.R.arr.nNode H.J.R.adm
  inadm : DistinctPairs H.J.R.arr.nNode H.J.R.inadm
  some : H.J.R.adm ≠ []
  built : ∃ E : MetaEnv, E.Valid H.J.R.arr.nNode ∧ Returns (generateB H.J false E) H.MB ∧ Returns (generateD H.J false E) H.MD ∧
    (H.jit = false → ∃ w w' d d', H2Pack.Utils.Interleaving E.nTask (worksB H.MB) w ∧ H.bData = runB H.J H.MB w d ∧
      H2Pack.Utils.Interleaving E.nTask (worksD H.J.R.arr.nLeaf H.MD) w' ∧ H.dData = runD H.J H.MD w' d')
  skel : ∀ v < H.J.R.arr.nNode, (H.skel v).length = H.J.jn v ∧ (∀ p ∈ H.skel v, p < H.J.R.nPoint) ∧
    ∀ d < H.ptDim, ∀ k < H.J.jn v, H.J.jc v (d * H.J.jn v + k) = H.J.coord (d * H.J.R.nPoint + (H.skel v).getD k 0)

/-- The coordinates are doubles: 64 bits from which the number can be recovered. -/
def Doubles (F : Fmt K) (H : Mtx K) : Prop :=
  ∀ i < H.J.R.nPoint, ∀ j < H.ptDim, F.bits (H.J.coord (j * H.J.R.nPoint + i)) < 2 ^ 64 ∧
    F.val (F.bits (H.J.coord (j * H.J.R.nPoint + i))) = H.J.coord (j * H.J.R.nPoint + i)

/-- The hexadecimal text of every coordinate has sixteen digits. -/
def Wide (F : Fmt K) (H : Mtx K) : Prop :=
  ∀ i < H.J.R.nPoint, ∀ j < H.ptDim, 2 ^ 60 ≤ F.bits (H.J.coord (j * H.J.R.nPoint + i))

end

end H2Pack.IO
