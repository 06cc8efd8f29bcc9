import Verif.Model.Base
import Verif.Model.Utils

/-!
# Hierarchical partitioning of the points (src/H2Pack_partition.c:38-317, 544-648)

Reals are elements of a linearly ordered field.  `coord p j` is `coord[j * n_point + p]`.  Indices are
natural numbers (no overflow).  A failed assertion and an access outside an array are `ub`.
-/

namespace H2Pack.Part

open H2Pack.Utils (Box)

variable {K : Type} [Field K] [LinearOrder K] [IsStrictOrderedRing K]

/-- Arguments that stay constant during the recursion. -/
structure Params (K : Type) where
  ptDim : Nat
  xptDim : Nat
  nPoint : Nat
  maxLeafSize : K
  maxLeafPoints : Nat

/-- The arrays and counters changed by the recursion: `coord`, `coord_idx`, and `part_vars`'s
`curr_po_idx`, `n_leaf_node`, `max_level`. -/
structure St (K : Type) where
  coord : Nat → Nat → K
  idx : Nat → Nat
  po : Nat
  nLeaf : Nat
  maxLevel : Nat

/-- `struct H2P_tree_node` (src/H2Pack_aux_structs.h): `pt_cluster[0..1]`, `po_idx`, `level`, `height`,
`n_node`, `enbox`, `children[0..n_child-1]`. -/
inductive Tree (K : Type) where
  | mk (s e po level height nNode : Nat) (box : Box K) (children : List (Tree K))

namespace Tree
def s : Tree K → Nat | .mk s .. => s
def e : Tree K → Nat | .mk _ e .. => e
def po : Tree K → Nat | .mk _ _ po .. => po
def level : Tree K → Nat | .mk _ _ _ l .. => l
def height : Tree K → Nat | .mk _ _ _ _ h .. => h
def nNode : Tree K → Nat | .mk _ _ _ _ _ n .. => n
def box : Tree K → Box K | .mk _ _ _ _ _ _ b _ => b
def children : Tree K → List (Tree K) | .mk _ _ _ _ _ _ _ c => c
end Tree

/-- `1e-12` of src/H2Pack_partition.c:222-223. -/
def eps : K := 1 / 10^12

/-- src/H2Pack_partition.c:148-149: the half of the box in dimension `j` in which a point lies. -/
def relBit (box : Box K) (x : Nat → K) (j : Nat) : Nat := if 2 * (x j - box.lo j) ≥ box.ext j then 1 else 0

/-- src/H2Pack_partition.c:137-153: `child_idx` of a point; loop over dimensions with `pow2`. -/
def childIdxLoop (box : Box K) (x : Nat → K) : Nat → Nat → Nat → Nat → Nat
  | 0, _, _, acc => acc
  | n+1, j, pow2, acc => childIdxLoop box x n (j+1) (pow2 * 2) (acc + relBit box x j * pow2)

def childIdx (ptDim : Nat) (box : Box K) (x : Nat → K) : Nat := childIdxLoop box x ptDim 0 1 0

/-- src/H2Pack_partition.c:164-168: `sub_node_npts`; `ci i` is the child of the `i`-th point. -/
def subCount (ci : Nat → Nat) (n : Nat) : Nat → Nat :=
  (List.range n).foldl (fun c i => Function.update c (ci i) (c (ci i) + 1)) (fun _ => 0)

/-- src/H2Pack_partition.c:169-170: `sub_rel_idx` (entries of empty children stay uninitialised,
`garbage`). -/
def subRel (ci : Nat → Nat) (bits : Nat → Nat → Nat) (n : Nat) (garbage : Nat → Nat → Nat) : Nat → Nat → Nat :=
  (List.range n).foldl (fun r i => Function.update r (ci i) (bits i)) garbage

/-- src/H2Pack_partition.c:172-174 and 207-209: `sub_displs` as an array. -/
def displs (cnt : Nat → Nat) : Nat → Nat
  | 0 => 0
  | c+1 => displs cnt c + cnt c

/-- State of the bucket sort. -/
structure Sorting (K : Type) where
  d : Nat → Nat
  coord : Nat → Nat → K
  idx : Nat → Nat

/-- src/H2Pack_partition.c:184-196: one move of the bucket sort; `old` is the copy `coord_tmp`,
`coord_idx_tmp` of the arrays. -/
def sortStep (P : Params K) (s : Nat) (ci : Nat → Nat) (old : St K) (b : Sorting K) (i : Nat) : Res (Sorting K) :=
  let src := s + i
  let dst := s + b.d (ci i)
  if ci i < 2 ^ P.ptDim ∧ src < P.nPoint ∧ dst < P.nPoint then
    .ok ⟨Function.update b.d (ci i) (b.d (ci i) + 1),
         Function.update b.coord dst (fun j => if j < P.xptDim then old.coord src j else b.coord dst j),
         Function.update b.idx dst (old.idx src)⟩
  else .ub

/-- src/H2Pack_partition.c:184-196: the loop over the points of the node. -/
def sortLoop (P : Params K) (s : Nat) (ci : Nat → Nat) (old : St K) : List Nat → Sorting K → Res (Sorting K)
  | [], b => .ok b
  | i :: is, b => do
    let b ← sortStep P s ci old b i
    sortLoop P s ci old is b

/-- src/H2Pack_partition.c:222-223: box of the child with bits `r`. -/
def subBox (box : Box K) (r : Nat → Nat) : Box K :=
  ⟨fun j => box.lo j + (1/2) * box.ext j * (r j) - eps, fun j => (1/2) * box.ext j + 2 * eps⟩

/-- src/H2Pack_partition.c:215-228: first point, last point and box of every non-empty child. -/
def subList (ptDim s : Nat) (cnt : Nat → Nat) (rel : Nat → Nat → Nat) (box : Box K) : List (Nat × Nat × Box K) :=
  ((List.range (2 ^ ptDim)).filter (fun c => cnt c ≠ 0)).map fun c =>
    (s + displs cnt c, s + displs cnt (c+1) - 1, subBox box (rel c))

/-- src/H2Pack_partition.c:234-248: recursive calls for the children in order. -/
def partChildren (f : Nat → Nat → Box K → St K → Res (Tree K × St K)) :
    List (Nat × Nat × Box K) → St K → Res (List (Tree K) × St K)
  | [], st => .ok ([], st)
  | (s, e, b) :: subs, st => do
    let (t, st) ← f s e b st
    let (ts, st) ← partChildren f subs st
    .ok (t :: ts, st)

/-- src/H2Pack_partition.c:38-271 `H2P_bisection_partition_points` with a given enclosing box.
`npts = e - s + 1`; the recursion depth is bounded by `fuel`. -/
def partition (P : Params K) (garbage : Nat → Nat → Nat) : Nat → Nat → Nat → Nat → Box K → St K → Res (Tree K × St K)
  | 0, _, _, _, _, _ => .diverge
  | fuel+1, level, s, e, box, st =>
    let npts := e + 1 - s                                                        -- line 45
    let st := { st with maxLevel := max st.maxLevel level }                      -- line 47
    if npts ≤ P.maxLeafPoints ∨ box.ext 0 ≤ P.maxLeafSize then                   -- line 112
      .ok (.mk s e st.po level 0 1 box [],
           { st with po := st.po + 1, nLeaf := st.nLeaf + 1 })                   -- lines 114-127
    else do
      let ci : Nat → Nat := fun i => childIdx P.ptDim box (st.coord (s + i))     -- lines 137-152
      let cnt := subCount ci npts                                                -- lines 164-171
      let rel := subRel ci (fun i j => relBit box (st.coord (s + i)) j) npts garbage
      let b ← sortLoop P s ci st (List.range npts) ⟨displs cnt, st.coord, st.idx⟩
      if displs cnt (2 ^ P.ptDim) = npts then do                                 -- lines 210-214
        let st := { st with coord := b.coord, idx := b.idx }
        let (cs, st) ← partChildren (partition P garbage fuel (level+1)) (subList P.ptDim s cnt rel box) st
        .ok (.mk s e st.po level ((cs.map Tree.height).foldl max 0 + 1) ((cs.map Tree.nNode).sum + 1) box cs,
             { st with po := st.po + 1 })                                        -- lines 250-258
      else .ub

/-! ## Enclosing box of all points -/

/-- src/H2Pack_partition.c:64, 68-77, 89-99: `semi_box_size` of the points `0..n-1` around a centre. -/
def semiBox (ptDim n : Nat) (coord : Nat → Nat → K) (center : Nat → K) : K :=
  (List.range ptDim).foldl (fun a j => (List.range n).foldl (fun a i => max a |coord i j - center j|) a) 0

/-- src/H2Pack_partition.c:49-107: the enclosing box computed from the points `0..n-1` when none is given;
`rnd j` is the `j`-th value of `drand48()`. -/
def rootBox (ptDim n : Nat) (coord : Nat → Nat → K) (rnd : Nat → K) : Box K :=
  let center0 : Nat → K := fun j => (List.range n).foldl (fun a i => a + coord i j) 0 / n
  let semi0 := semiBox ptDim n coord center0 + 1 / 10^8
  let center : Nat → K := fun j => center0 j + (rnd j * (1/2) + 1/4) * (semi0 * (1 / 10^3))
  let semi := semiBox ptDim n coord center + 1 / 10^8
  ⟨fun j => center j - semi - 2 * eps, fun _ => 2 * semi + 4 * eps⟩

/-! ## Conversion to arrays -/

/-- The tree arrays of `struct H2Pack`.  Box and cluster of a node are stored together. -/
structure Arr (K : Type) where
  nNode : Nat
  nLeaf : Nat
  maxLevel : Nat
  maxChild : Nat
  parent : Nat → Int
  children : Nat → Int
  nChild : Nat → Nat
  level : Nat → Nat
  height : Nat → Nat
  ptS : Nat → Nat
  ptE : Nat → Nat
  enbox : Nat → Box K
  levelN : Nat → Nat
  levelNodes : Nat → Nat
  heightN : Nat → Nat
  heightNodes : Nat → Nat

/-- src/H2Pack_partition.c:296-303: children of a node and their parent pointers; `i` is the index of the
next child. -/
def writeChildren (maxChild node : Nat) : Nat → List Nat → Arr K → Arr K
  | _, [], A => A
  | i, c :: cs, A =>
    writeChildren maxChild node (i+1) cs
      { A with children := Function.update A.children (node * maxChild + i) (c : Int)
               parent := Function.update A.parent c (node : Int) }

/-- src/H2Pack_partition.c:304. -/
def padChildren (maxChild node nChild : Nat) (A : Arr K) : Arr K :=
  { A with children := fun k =>
      if node * maxChild + nChild ≤ k ∧ k < node * maxChild + maxChild then -1 else A.children k }

/-- src/H2Pack_partition.c:295-316: step 2 of `H2P_tree_to_array` for one node. -/
def writeNode (t : Tree K) (A : Arr K) : Res (Arr K) :=
  let node := t.po
  let cs := t.children.map Tree.po
  if node < A.nNode ∧ (∀ c ∈ cs, c < A.nNode) ∧ cs.length ≤ A.maxChild ∧
     t.level ≤ A.maxLevel ∧ A.levelN t.level < A.nLeaf ∧
     t.height ≤ A.maxLevel ∧ A.heightN t.height < A.nLeaf then
    let A := writeChildren A.maxChild node 0 cs A
    let A := padChildren A.maxChild node cs.length A
    .ok { A with
      ptS := Function.update A.ptS node t.s
      ptE := Function.update A.ptE node t.e
      enbox := Function.update A.enbox node t.box
      level := Function.update A.level node t.level
      height := Function.update A.height node t.height
      nChild := Function.update A.nChild node cs.length
      levelNodes := Function.update A.levelNodes (t.level * A.nLeaf + A.levelN t.level) node
      heightNodes := Function.update A.heightNodes (t.height * A.nLeaf + A.heightN t.height) node
      levelN := Function.update A.levelN t.level (A.levelN t.level + 1)
      heightN := Function.update A.heightN t.height (A.heightN t.height + 1) }
  else .ub

mutual
/-- src/H2Pack_partition.c:278-317 `H2P_tree_to_array`. -/
def treeToArray : Tree K → Arr K → Res (Arr K)
  | .mk s e po level height nNode box cs, A => do
    let A ← treesToArray cs A                                   -- lines 288-293
    writeNode (.mk s e po level height nNode box cs) A

/-- The loop over the children. -/
def treesToArray : List (Tree K) → Arr K → Res (Arr K)
  | [], A => .ok A
  | t :: ts, A => do
    let A ← treeToArray t A
    treesToArray ts A
end

/-- Result of the point partitioning. -/
structure Partitioned (K : Type) where
  coord : Nat → Nat → K
  coordIdx : Nat → Nat
  arr : Arr K

/-- src/H2Pack_partition.c:544-633: the first three steps of `H2P_partition_points`.  `rootEnbox` is
`h2pack->root_enbox`; `junk` is the content of freshly allocated tree arrays, `garbage` of
`sub_rel_idx`.  (Steps 4-8 are modelled in `AdmPairs` and `DAGQueue`.) -/
def partitionPoints (ptDim xptDim nPoint : Nat) (coord : Nat → Nat → K) (maxLeafPoints : Int) (maxLeafSize : K)
    (rootEnbox : Option (Box K)) (rnd : Nat → K) (junk : Arr K) (garbage : Nat → Nat → Nat) (fuel : Nat) : Res (Partitioned K) := do
  let mlp : Nat := if maxLeafPoints ≤ 0 then (if ptDim = 2 then 200 else 400) else maxLeafPoints.toNat  -- lines 560-564
  let P : Params K := ⟨ptDim, xptDim, nPoint, maxLeafSize, mlp⟩
  let box := rootEnbox.getD (rootBox ptDim nPoint coord rnd)
  let (root, st) ← partition P garbage fuel 0 0 (nPoint - 1) box ⟨coord, fun i => i, 0, 0, 0⟩  -- lines 576, 586-590
  let A : Arr K := { junk with
    nNode := root.nNode, nLeaf := st.nLeaf, maxLevel := st.maxLevel, maxChild := 2 ^ ptDim,
    levelN := fun _ => 0, heightN := fun _ => 0 }                                              -- lines 594-631
  let A ← treeToArray root A                                                                   -- line 632
  .ok ⟨st.coord, st.idx, { A with parent := Function.update A.parent (root.nNode - 1) (-1) }⟩   -- line 633

end H2Pack.Part
