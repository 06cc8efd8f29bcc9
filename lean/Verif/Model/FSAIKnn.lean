import Verif.Model.AdmPairs
import Verif.Model.CSR

/-! # Nearest neighbours with the partition tree (examples/SPDHSS-H2/FSAI_precond.c:13-200)

Exact arithmetic, unbounded integers; allocation does not fail.  The matrices of coordinates and distances are modelled by the
functions they are filled with, a write behind a buffer is the outcome `ub`; the iterations of the parallel loops over the points of a leaf are independent
and are executed in order. -/

namespace H2Pack.FKnn
open H2Pack.Part
open H2Pack.Utils (checkBoxAdmissible)
open H2Pack.CSR (qsort)

variable {K : Type} [Field K] [LinearOrder K]

/-- Lines 14-38 `calc_2D_dist2`: the entry of points `p`, `q`; `c p d` is coordinate `d` of point `p`. -/
def calc2D (c : Nat → Nat → K) (p q : Nat) : K :=
  let dx := c p 0 - c q 0
  let dy := c p 1 - c q 1
  dx * dx + dy * dy

/-- Lines 41-69 `calc_3D_dist2`; the pointers `z0`, `z1` are `coord + ld * 1` (lines 49, 52). -/
def calc3D (c : Nat → Nat → K) (p q : Nat) : K :=
  let dx := c p 0 - c q 0
  let dy := c p 1 - c q 1
  let dz := c p 1 - c q 1
  dx * dx + dy * dy + dz * dz

/-- Lines 154-170.  In other dimensions the matrix is not written; the function is not called then (line 208). -/
def pairDist (ptDim : Nat) (c : Nat → Nat → K) (p q : Nat) : K := if ptDim = 2 then calc2D c p q else calc3D c p q

/-- Lines 120-137: the points of all leaves that are inadmissible to leaf `v`, in order. -/
def cands (A : Arr K) (ptDim : Nat) (v : Nat) : List Nat :=
  ((List.range A.nLeaf).map A.heightNodes).flatMap fun w =>
    if checkBoxAdmissible (A.enbox v) (A.enbox w) ptDim alphaH2 then [] else List.range' (A.ptS w) (A.ptE w + 1 - A.ptS w)

/-- Lines 72-89 and 173-192: row `p` of `knn`. -/
def rowKnn (dist : Nat → Nat → K) (cs : List Nat) (k p fuel : Nat) : Res (List Nat) :=
  if cs.length > k then do
    let kv ← qsort (ν := Nat) cs.length fuel ⟨fun j => dist p (cs.getD j.toNat 0), fun j => cs.getD j.toNat 0⟩ 0 ((cs.length : Int) - 1)
    .ok ((List.range k).map fun j : Nat => kv.val j)
  else .ok (cs ++ List.replicate (k - cs.length) p)

/-- Lines 113-193: one leaf.  `pt_idx` has `max_leaf_pts * max_candidate` entries, `neighbor_pt_coord` has `max_candidate` columns; the assertion on the number of
candidates (line 138) comes after they have been written. -/
def leafKnn (A : Arr K) (ptDim : Nat) (c : Nat → Nat → K) (maxLeafPts maxNeighbor k fuel : Nat) (g : Nat → List Nat) (v : Nat) : Res (Nat → List Nat) :=
  let cs := cands A ptDim v
  let npt := A.ptE v + 1 - A.ptS v
  if maxLeafPts * maxNeighbor < cs.length ∨ maxLeafPts * (maxLeafPts * maxNeighbor) < npt * cs.length then .ub
  else (List.range' (A.ptS v) npt).foldlM (fun g p => do
    let L ← rowKnn (pairDist ptDim c) cs k p fuel
    .ok (Function.update g p L)) g

/-- examples/SPDHSS-H2/FSAI_precond.c:92-200 `H2P_search_knn`; entry `p` is `knn[p * k .. p * k + k - 1]`. -/
def knn (A : Arr K) (ptDim : Nat) (c : Nat → Nat → K) (maxLeafPts maxNeighbor k fuel : Nat) : Res (Nat → List Nat) :=
  ((List.range A.nLeaf).map A.heightNodes).foldlM (leafKnn A ptDim c maxLeafPts maxNeighbor k fuel) fun _ => []

end H2Pack.FKnn
