import Verif.Model.Partition

/-! # What the exported tree arrays must satisfy -/

namespace H2Pack.Part
open H2Pack.Utils (Box)
variable {K : Type}

/-- Consecutive non-empty ranges `[s, e]` that cover `[a, b)`. -/
def Tiles : Nat → Nat → List (Nat × Nat) → Prop
  | a, b, [] => a = b
  | a, b, (s, e) :: r => s = a ∧ s ≤ e ∧ Tiles (e+1) b r

/-- The children of node `v` in the exported arrays, in order. -/
def kids (A : Arr K) (v : Nat) : List Nat :=
  (List.range (A.nChild v)).map fun i => (A.children (v * A.maxChild + i)).toNat

/-- The exported arrays describe a cluster tree over the points `0..n-1` in post-order numbering. -/
structure ClusterTree (A : Arr K) (n : Nat) : Prop where
  /-- there is a root, it is the last node, it has no parent, level 0, and holds all points -/
  nonempty : 0 < A.nNode
  rootParent : A.parent (A.nNode - 1) = -1
  rootLevel : A.level (A.nNode - 1) = 0
  rootS : A.ptS (A.nNode - 1) = 0
  rootE : A.ptE (A.nNode - 1) + 1 = n
  /-- rows of `children` hold node numbers, then `-1` -/
  width : ∀ v < A.nNode, A.nChild v ≤ A.maxChild
  childNonneg : ∀ v < A.nNode, ∀ i < A.nChild v, 0 ≤ A.children (v * A.maxChild + i)
  pad : ∀ v < A.nNode, ∀ i, A.nChild v ≤ i → i < A.maxChild → A.children (v * A.maxChild + i) = -1
  /-- children come before their parent, `parent` and `children` are inverse to each other -/
  childLt : ∀ v < A.nNode, ∀ c ∈ kids A v, c < v
  parentOfChild : ∀ v < A.nNode, ∀ c ∈ kids A v, A.parent c = (v : Int)
  childOfParent : ∀ c, c + 1 < A.nNode → ∃ v < A.nNode, A.parent c = (v : Int) ∧ c ∈ kids A v
  kidsNodup : ∀ v < A.nNode, (kids A v).Nodup
  /-- levels and heights -/
  childLevel : ∀ v < A.nNode, ∀ c ∈ kids A v, A.level c = A.level v + 1
  leafHeight : ∀ v < A.nNode, A.nChild v = 0 → A.height v = 0
  nodeHeight : ∀ v < A.nNode, A.nChild v ≠ 0 → (∀ c ∈ kids A v, A.height c + 1 ≤ A.height v) ∧ ∃ c ∈ kids A v, A.height c + 1 = A.height v
  maxLevel : A.maxLevel = A.height (A.nNode - 1)
  /-- clusters -/
  clusterLe : ∀ v < A.nNode, A.ptS v ≤ A.ptE v
  clusterLt : ∀ v < A.nNode, A.ptE v < n
  tile : ∀ v < A.nNode, A.nChild v ≠ 0 → Tiles (A.ptS v) (A.ptE v + 1) ((kids A v).map fun c => (A.ptS c, A.ptE c))
  /-- number of leaves -/
  nLeaf : A.nLeaf = ((List.range A.nNode).filter (fun v => A.nChild v = 0)).length
  /-- rows of `level_nodes` and `height_nodes` -/
  levelLe : ∀ v < A.nNode, A.level v ≤ A.maxLevel
  levelRow : ∀ l, A.levelN l ≤ A.nLeaf
  levelList : ∀ l, (List.range (A.levelN l)).map (fun r => A.levelNodes (l * A.nLeaf + r)) = (List.range A.nNode).filter (fun v => A.level v = l)
  heightRow : ∀ l, A.heightN l ≤ A.nLeaf
  heightList : ∀ l, (List.range (A.heightN l)).map (fun r => A.heightNodes (l * A.nLeaf + r)) = (List.range A.nNode).filter (fun v => A.height v = l)

end H2Pack.Part
