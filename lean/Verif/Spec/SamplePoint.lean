import Verif.Model.SamplePoint
import Verif.Spec.ClusterTree
import Verif.Spec.Built

/-!
# Specification of the sample points
-/

namespace H2Pack.Sample
open H2Pack.Part (Arr kids)

/-- The exact share of entry `i` when `sum` is distributed in proportion to `prop`. -/
noncomputable def share (n : Nat) (sum : Int) (prop : Nat → ℝ) (i : Nat) : ℝ := (sum : ℝ) * prop i / ∑ j ∈ Finset.range n, prop j

/-- `d` distributes `sum` over `n` entries by the method of largest remainders: everybody gets the share rounded down or up, those
with the largest fractional parts (the first ones if they are equal) are rounded up. -/
structure Apportioned (n : Nat) (sum : Int) (prop : Nat → ℝ) (d : Nat → Int) : Prop where
  total : ∑ i ∈ Finset.range n, d i = sum
  quota : ∀ i < n, d i = ⌊share n sum prop i⌋ ∨ (d i = ⌊share n sum prop i⌋ + 1 ∧ 0 < Int.fract (share n sum prop i))
  largest : ∀ i < n, ∀ j < n, d i = ⌊share n sum prop i⌋ + 1 → d j = ⌊share n sum prop j⌋ →
    Int.fract (share n sum prop j) < Int.fract (share n sum prop i) ∨ (Int.fract (share n sum prop j) = Int.fract (share n sum prop i) ∧ i < j)

/-- Squared Euclidean distance. -/
noncomputable def sqDist (dim : Nat) (p q : Pt) : ℝ := ∑ d ∈ Finset.range dim, (p d - q d) ^ 2

/-- `j` is the first among the points of `P` nearest to `a`. -/
structure Nearest (dim : Nat) (P : List Pt) (a : Pt) (j : Nat) : Prop where
  lt : j < P.length
  least : ∀ i < P.length, sqDist dim a (P.getD j fun _ => 0) ≤ sqDist dim a (P.getD i fun _ => 0)
  first : ∀ i < j, sqDist dim a (P.getD j fun _ => 0) < sqDist dim a (P.getD i fun _ => 0)

/-- The bounds of a non-empty set of points in one coordinate: attained and not exceeded. -/
structure Bounds (P : List Pt) (i : Nat) (lo hi : ℝ) : Prop where
  low : ∀ p ∈ P, lo ≤ p i
  high : ∀ p ∈ P, p i ≤ hi
  lowAt : ∃ p ∈ P, p i = lo
  highAt : ∃ p ∈ P, p i = hi

/-- Two points of the list differ in a coordinate below `dim`. -/
def Spread (dim : Nat) (P : List Pt) : Prop := ∃ p ∈ P, ∃ q ∈ P, ∃ i < dim, p i ≠ q i

/-- The mean of the points. -/
noncomputable def mean (P : List Pt) : Pt := fun i => (P.map fun p => p i).sum / (P.length : ℝ)

/-- `p` is chosen from the far-field lists `far` with the anchors `anc`: `p` is the point of one of the lists nearest to an anchor that is nearest to the mean of this
list (among the means of all lists), or, if there is no such anchor, the point nearest to the mean. -/
def Picked (dim : Nat) (far : List (List Pt)) (anc : List Pt) (p : Pt) : Prop :=
  ∃ k < far.length, ∃ j, p = (far.getD k []).getD j (fun _ => 0) ∧
    ((∃ a ∈ anc, Nearest dim (far.map mean) a k ∧ Nearest dim (far.getD k []) a j) ∨
      ((∀ a ∈ anc, ¬ Nearest dim (far.map mean) a k) ∧ Nearest dim (far.getD k []) (mean (far.getD k [])) j))

/-- Position `c` of `g + 1` equally spaced positions in an interval, the outer ones a quarter of the spacing from the ends. -/
noncomputable def equi (lo hi : ℝ) (g c : Nat) : ℝ := lo + (hi - lo) / (g + 1 / 2) * (c + 1 / 4)

/-- Position `c` of the `g + 1` Chebyshev points of an interval; one point is the middle. -/
noncomputable def cheb (lo hi : ℝ) (g c : Nat) : ℝ :=
  (lo + hi) / 2 + (hi - lo) / 2 * if g = 0 then 0 else Real.cos ((2 * (c : ℝ) + 1) * (Real.pi / (2 * g + 2)))

/-- `anc` is the tensor grid of the positions `node`, with `g i + 1` positions in coordinate `i`. -/
structure AnchorGrid (dim : Nat) (node : ℝ → ℝ → Nat → Nat → ℝ) (lo hi : Nat → ℝ) (g : Nat → Nat) (anc : List Pt) : Prop where
  size : anc.length = ∏ i ∈ Finset.range dim, (g i + 1)
  mem : ∀ a ∈ anc, ∃ c : Nat → Nat, ∀ i < dim, c i ≤ g i ∧ a i = node (lo i) (hi i) (g i) (c i)
  all : ∀ c : Nat → Nat, (∀ i < dim, c i ≤ g i) → ∃ a ∈ anc, ∀ i < dim, a i = node (lo i) (hi i) (g i) (c i)

/-- `s` lists, in increasing order, the points of `P` that are nearest to a point of the grid over their box. -/
def Chosen (dim : Nat) (node : ℝ → ℝ → Nat → Nat → ℝ) (P : List Pt) (g : Nat → Nat) (s : List Nat) : Prop :=
  ∃ lo hi anc, (∀ i < dim, Bounds P i (lo i) (hi i)) ∧ AnchorGrid dim node lo hi g anc ∧ s.Pairwise (· < ·) ∧ ∀ j, j ∈ s ↔ ∃ a ∈ anc, Nearest dim P a j

/-- `R` thins out `P`: `r` is distributed over the coordinates in proportion to the sides of the box; if the grid has fewer points than `P`, the points nearest to
the grid are taken, otherwise all of them. -/
def Thinned (dim : Nat) (r : Int) (node : ℝ → ℝ → Nat → Nat → ℝ) (P R : List Pt) : Prop :=
  ∃ (lo hi : Nat → ℝ) (d : Nat → Int), (∀ i < dim, Bounds P i (lo i) (hi i)) ∧ Apportioned dim r (fun i => hi i - lo i) d ∧ (∀ i < dim, 0 ≤ d i) ∧
    ((∏ i ∈ Finset.range dim, (d i + 1) < (P.length : Int) ∧ ∃ s, Chosen dim node P (fun i => (d i).toNat) s ∧ R = s.map fun j => P.getD j fun _ => 0) ∨
      ((P.length : Int) ≤ ∏ i ∈ Finset.range dim, (d i + 1) ∧ R = P))

/-- The points of the cluster of node `v`, in the order of the tree. -/
def clusterPts (S : In) (v : Nat) : List Pt := (List.range' (S.arr.ptS v) (S.arr.ptE v - S.arr.ptS v + 1)).map S.pt

/-- The partners of node `v` in the admissible pairs, in the order of the pairs. -/
def partners (adm : List (Nat × Nat)) (v : Nat) : List Nat :=
  adm.flatMap fun p => (if p.1 = v then [p.2] else []) ++ if p.2 = v then [p.1] else []

/-- The refined points of the clusters: those of a leaf are chosen from its points, those of an inner node from the refined points of its children; at most five points
are all kept. -/
structure RefinedPoints (S : In) (r : Int) (clu : Nat → List Pt) : Prop where
  node : ∀ v < S.arr.nNode, S.minAdm ≤ S.arr.level v → ∃ G, G = (if S.arr.nChild v = 0 then clusterPts S v else (kids S.arr v).flatMap clu) ∧
    ((G.length ≤ 5 ∧ clu v = G) ∨ (5 < G.length ∧ Thinned S.dim r equi G (clu v)))
  above : ∀ v < S.arr.nNode, S.arr.level v < S.minAdm → clu v = []

/-- The points taken from the lists `far` of the refined points of the partners: all of them with algorithm 0 or if the Chebyshev grid over their box has more points,
otherwise those picked by the points of the grid. -/
def FarChosen (dim alg : Nat) (r : Int) (far : List (List Pt)) (y : List Pt) : Prop :=
  (far.flatten = [] ∧ y = []) ∨ ∃ (lo hi : Nat → ℝ) (d : Nat → Int), (∀ i < dim, Bounds far.flatten i (lo i) (hi i)) ∧ Apportioned dim r (fun i => hi i - lo i) d ∧ (∀ i < dim, 0 ≤ d i) ∧
    (((alg = 0 ∨ (far.flatten.length : Int) < ∏ i ∈ Finset.range dim, (d i + 1)) ∧ y = far.flatten) ∨
      (alg ≠ 0 ∧ ∃ anc, AnchorGrid dim cheb lo hi (fun i => (d i).toNat) anc ∧ ∀ p, p ∈ y ↔ Picked dim far anc p))

/-- The points handed from the parent to node `v`: none at `min_adm_level` and below a node without admissible pairs, otherwise the sample points of the parent. -/
def FromParent (S : In) (sp : Nat → List Pt) (v : Nat) (I : List Pt) : Prop :=
  (S.arr.level v = S.minAdm ∧ I = []) ∨ ∃ u < S.arr.nNode, S.minAdm ≤ S.arr.level u ∧ v ∈ kids S.arr u ∧ I = if partners S.adm u = [] then [] else sp u

/-- The sample points of the nodes: those with admissible pairs thin out what they get from the parent together with the points taken from their partners, the others keep
what they get from the parent. -/
structure SamplePoints (S : In) (r : Int) (clu sp : Nat → List Pt) : Prop where
  node : ∀ v < S.arr.nNode, S.minAdm ≤ S.arr.level v → ∃ I, FromParent S sp v I ∧
    ((partners S.adm v = [] ∧ sp v = I) ∨
      (partners S.adm v ≠ [] ∧ ∃ y, FarChosen S.dim S.alg r ((partners S.adm v).map clu) y ∧ Thinned S.dim r cheb (I ++ y) (sp v)))
  above : ∀ v < S.arr.nNode, S.arr.level v < S.minAdm → sp v = []

/-- The nodes of level `l`, in any order. -/
def LevelOrder (S : In) (l : Nat) (o : List Nat) : Prop := o.Perm ((List.range S.arr.nNode).filter fun v => S.arr.level v = l)

/-- Different points differ in a coordinate below `dim`. -/
def Distinct (S : In) : Prop := ∀ i < S.nPoint, ∀ j < S.nPoint, i ≠ j → ∃ d < S.dim, S.pt i d ≠ S.pt j d

/-- What the tree construction guarantees, and coordinates that do not exceed `1e100`.  (`coord` has no other values than those of the points.) -/
structure Setting (S : In) (ri : Int) : Prop where
  tree : H2Pack.Part.ClusterTree S.arr S.nPoint
  dim : 0 < S.dim
  size : 0 ≤ ri
  pairs : ∀ p ∈ S.adm, p.1 < S.arr.nNode ∧ p.2 < S.arr.nNode
  range : ∀ x, |S.coord x| ≤ 10 ^ 100

/-- Frobenius norm of an `n` by `n` matrix. -/
noncomputable def frob (n : Nat) (M : Nat → Nat → ℝ) : ℝ := Real.sqrt (∑ i ∈ Finset.range n, ∑ j ∈ Finset.range n, M i j ^ 2)

/-- One trial of the grid size `r` (number `t`): the second point set is thinned out by the equally spaced grid, an ID of the kernel block with these columns selects `len` points
of the first set; `good`: the whole kernel block, relative to its norm, is reproduced from the rows of these points up to `stop_err`. -/
def Trial (S : RIn) (t : Nat) (r : Int) (len : Nat) (good : Prop) : Prop :=
  ∃ (lo hi : Nat → ℝ) (d : Nat → Int) (s : List Nat) (J : Nat → Nat) (U : H2Pack.Dense.Mat ℝ),
    (∀ i < S.dim, Bounds S.c1 i (lo i) (hi i)) ∧ Apportioned S.dim r (fun i => hi i - lo i) d ∧ (∀ i < S.dim, 0 ≤ d i) ∧ Chosen S.dim equi S.c1 (fun i => (d i).toNat) s ∧
    H2Pack.Returns (fun fuel => H2Pack.ID.idCompress S.ops S.sz (S.k * S.kdim) (s.length * S.kdim) S.kdim (.rel S.tol)
      (H2Pack.MV.kmat S.kern S.kdim (col S.c0) (col (s.map (col S.c1)))) true (S.env t) fuel) ((J, len), U) ∧
    let A := H2Pack.MV.kmat S.kern S.kdim (col S.c0) (col S.c1)
    (good ↔ frob (S.k * S.kdim) A ≠ 0 ∧
      frob (S.k * S.kdim) (fun i j => A i j - ∑ q ∈ Finset.range (len * S.kdim), U.entry i q * A (J (q / S.kdim) * S.kdim + q % S.kdim) j) < S.stopErr * frob (S.k * S.kdim) A)

/-- Norm of the interaction of point `p` with the sample points of node `v`. -/
noncomputable def spNorm (S : H2Pack.UJ.Input ℝ) (sp : Nat → List Pt) (v p : Nat) : ℝ :=
  Real.sqrt (∑ a ∈ Finset.range S.kdim, ∑ j ∈ Finset.range (sp v).length, ∑ b ∈ Finset.range S.kdim, S.kern (H2Pack.UJ.pt S p) (spCol S.xdim (sp v) j) a b ^ 2)

/-- Error of the interaction of candidate number `i` of node `v` with the sample points of `v`, when it is interpolated from the skeleton points with the coefficients in `U`. -/
noncomputable def spErr (S : H2Pack.UJ.Input ℝ) (sp : Nat → List Pt) (sl : Nat → H2Pack.UJ.Slot ℝ) (v i : Nat) : ℝ :=
  Real.sqrt (∑ a ∈ Finset.range S.kdim, ∑ j ∈ Finset.range (sp v).length, ∑ b ∈ Finset.range S.kdim,
    (S.kern (H2Pack.UJ.pt S ((H2Pack.UJ.cands S sl v).getD i 0)) (spCol S.xdim (sp v) j) a b -
      ∑ k ∈ Finset.range (sl v).jl, ∑ a' ∈ Finset.range S.kdim,
        (sl v).U.entry (i * S.kdim + a) (k * S.kdim + a') * S.kern (H2Pack.UJ.pt S ((sl v).jd k)) (spCol S.xdim (sp v) j) a' b) ^ 2)

end H2Pack.Sample
