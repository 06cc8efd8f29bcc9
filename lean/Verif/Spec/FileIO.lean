import Verif.Model.FileIO
import Verif.Spec.H2Matrix

/-! # What it means that a matrix has been restored -/

namespace H2Pack.IO
open H2Pack.MV
open H2Pack.Part (Arr kids ClusterTree)

section
variable {K : Type} [CommRing K]

/-- Equal matrices (sizes and entries in range). -/
structure SameMat (M M' : Mat K) : Prop where
  nrow : M'.nrow = M.nrow
  ncol : M'.ncol = M.ncol
  e : ∀ r < M.nrow, ∀ c < M.ncol, M'.e r c = M.e r c

/-- `R'` has the same tree, permutation, bases and pair lists as `R` (all array elements that exist). -/
structure SameTree (R R' : Rep K) : Prop where
  nNode : R'.arr.nNode = R.arr.nNode
  nLeaf : R'.arr.nLeaf = R.arr.nLeaf
  maxLevel : R'.arr.maxLevel = R.arr.maxLevel
  maxChild : R'.arr.maxChild = R.arr.maxChild
  level : ∀ v < R.arr.nNode, R'.arr.level v = R.arr.level v
  ptS : ∀ v < R.arr.nNode, R'.arr.ptS v = R.arr.ptS v
  ptE : ∀ v < R.arr.nNode, R'.arr.ptE v = R.arr.ptE v
  nChild : ∀ v < R.arr.nNode, R'.arr.nChild v = R.arr.nChild v
  children : ∀ v < R.arr.nNode, ∀ j < R.arr.maxChild, R'.arr.children (v * R.arr.maxChild + j) = R.arr.children (v * R.arr.maxChild + j)
  parent : ∀ v, v + 1 < R.arr.nNode → R'.arr.parent v = R.arr.parent v
  levels : ∀ l, R'.levelList l = R.levelList l
  leaf : ∀ i < R.arr.nLeaf, R'.leaf i = R.leaf i
  nPoint : R'.nPoint = R.nPoint
  kdim : R'.kdim = R.kdim
  idx : ∀ i < R.nPoint, R'.coordIdx i = R.coordIdx i
  U : ∀ v < R.arr.nNode, SameMat (R.U v) (R'.U v)
  adm : R'.adm = R.adm
  inadm : R'.inadm = R.inadm
  minAdm : R'.minAdm = R.minAdm

/-- The generator and dense blocks of `R'` are those of `R`. -/
structure SameBlocks (R R' : Rep K) : Prop where
  B : ∀ i < R.adm.length, SameMat (R.B i) (R'.B i)
  D : ∀ i < R.arr.nLeaf + R.inadm.length, SameMat (R.D i) (R'.D i)

/-- Everything else the reader restores: parameters, coordinates in both orders (`coord0` is the caller's numbering), skeleton
points. -/
structure SameData (H H' : Mtx K) : Prop where
  ptDim : H'.ptDim = H.ptDim
  isHSS : H'.isHSS = H.isHSS
  maxLeaf : H'.maxLeaf = H.maxLeaf
  coord : ∀ i < H.J.R.nPoint, ∀ j < H.ptDim, H'.J.coord (j * H.J.R.nPoint + i) = H.J.coord (j * H.J.R.nPoint + i)
  skel : ∀ v < H.J.R.arr.nNode, H'.skel v = H.skel v
  jn : ∀ v < H.J.R.arr.nNode, H'.J.jn v = H.J.jn v
  jc : ∀ v < H.J.R.arr.nNode, ∀ d < H.ptDim, ∀ k < H.J.jn v, H'.J.jc v (d * H.J.jn v + k) = H.J.jc v (d * H.J.jn v + k)

end

end H2Pack.IO
