import Verif.Model.MatvecPer
import Verif.Spec.H2Matrix

/-! # The matrix defined by a periodic H2 representation, valid data -/

namespace H2Pack.MV
open H2Pack.Part (Arr kids ClusterTree)

section
variable {K : Type} [CommRing K]

namespace Per
variable (P : Per K)

/-- The kernel matrix of the points `p` and the images of the points `q` moved by `s`. -/
def block (p q : (Nat → K) × Nat × Nat) (s : Nat → K) : Mat K :=
  ⟨p.2.2 * P.J.R.kdim, q.2.2 * P.J.R.kdim,
   kmat P.J.kern P.J.R.kdim (point P.J.xdim p.1 p.2.1) (fun j d => point P.J.xdim q.1 q.2.1 j d + s d)⟩

/-- The representation with the kernel blocks of all pairs: the second point set is moved by the shift stored for the
pair; the diagonal blocks of the leaves are not moved. -/
def aot : Rep K := { P.J.R with
  B := fun i => P.block (P.J.sidePts (P.J.R.adm.getD i (0, 0)).1 (P.J.R.adm.getD i (0, 0)).2)
    (P.J.sidePts (P.J.R.adm.getD i (0, 0)).2 (P.J.R.adm.getD i (0, 0)).1) (P.shiftOf P.admShift i)
  D := fun i => if i < P.J.R.arr.nLeaf then P.block (P.J.cPts (P.J.R.leaf i)) (P.J.cPts (P.J.R.leaf i)) (fun _ => 0)
    else P.block (P.J.cPts (P.J.R.inadm.getD (i - P.J.R.arr.nLeaf) (0, 0)).1)
      (P.J.cPts (P.J.R.inadm.getD (i - P.J.R.arr.nLeaf) (0, 0)).2) (P.shiftOf P.inadmShift (i - P.J.R.arr.nLeaf)) }

/-- Entry `(r, q)` of the periodic H2 matrix in the permuted order.  Every pair counts in one direction; the root block is
multiplied by the basis of the root on both sides. -/
def entry (W : Nat → Nat → Nat → K) (r q : Nat) : K :=
  (∑ i ∈ Finset.range P.J.R.adm.length, admEntry P.aot W i r q) +
  (∑ i ∈ Finset.range P.J.R.arr.nLeaf, blockEntry P.aot (P.J.R.leaf i) (P.J.R.leaf i) (P.aot.D i) r q) +
  (∑ i ∈ Finset.range P.J.R.inadm.length, inadmEntry P.aot i r q) +
  ∑ c ∈ Finset.range P.blkSize, ∑ d ∈ Finset.range P.blkSize,
    W P.root r c * P.perBlk (c * P.blkSize + d) * W P.root q d

/-- What the matvec needs.  `root`: no admissible pair starts at the root (see `C54_root_not_admissible`). -/
structure Ok : Prop where
  tree : ClusterTree P.J.R.arr P.J.R.nPoint
  kdim : 0 < P.J.R.kdim
  perm : ((List.range P.J.R.nPoint).map P.J.R.coordIdx).Perm (List.range P.J.R.nPoint)
  simd : 0 < P.J.simd
  xdim : P.J.xdim ≤ 8
  pdim : P.pdim ≤ P.J.xdim
  minAdm : P.J.R.minAdm = 0
  jpos : ∀ v < P.J.R.arr.nNode, 0 < P.J.jn v
  rankJ : ∀ v < P.J.R.arr.nNode, (P.J.R.U v).ncol = P.J.jn v * P.J.R.kdim
  uLeaf : ∀ v < P.J.R.arr.nNode, P.J.R.arr.nChild v = 0 → (P.J.R.U v).nrow = P.J.npt v * P.J.R.kdim
  uInner : ∀ v < P.J.R.arr.nNode, P.J.R.arr.nChild v ≠ 0 → (P.J.R.U v).nrow = off P.J.R v (P.J.R.arr.nChild v)
  admNode : ∀ x ∈ P.J.R.adm, x.1 < P.J.R.arr.nNode ∧ x.2 < P.J.R.arr.nNode
  inadmNode : ∀ x ∈ P.J.R.inadm, x.1 < P.J.R.arr.nNode ∧ x.2 < P.J.R.arr.nNode
  root : ∀ x ∈ P.J.R.adm, x.1 ≠ P.root
  mv : ∀ f, P.mv = some f → MvSpec P.J.simd P.J.xdim P.J.R.kdim P.J.kern f

end Per

/-- What the runtime guarantees for a periodic matvec: every iteration of every loop is executed once. -/
structure PerEnv.Valid (PE : PerEnv K) (R : Rep K) : Prop where
  threads : 0 < PE.E.nThread
  team : PE.E.team = PE.E.nThread
  fwd : ∀ l, (PE.E.fwdOrd l).Perm (R.levelList l)
  bwd : ∀ l, (PE.E.bwdOrd l).Perm (R.levelList l)
  ordB : PE.ordB.Perm (List.range R.arr.nNode)
  ordD : PE.ordD.Perm (List.range R.arr.nNode)

end

end H2Pack.MV
