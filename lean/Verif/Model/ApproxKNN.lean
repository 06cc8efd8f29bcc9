import Verif.Model.FSAI
import Verif.Model.Partition

/-!
# Neighbour search through the H2 tree (src/AFN_precond.c:322-530)

`h2mat` enters through its tree arrays, its number of points and `coord_idx`; `max_neighbor` is `3^pt_dim` (src/H2Pack_typedef.c:37-38).  Exact arithmetic
in an ordered field; indices are natural numbers, `-1` in the index maps is `none`.  Memory allocation is assumed to succeed.  A failed `ASSERT_PRINTF` ends
the program: the outcome `none`.  Reading memory that has not been written is `ub`.
-/

namespace H2Pack.AFN
open H2Pack.CSR (KV)
open H2Pack.Part (Arr)
open H2Pack.Utils (Box)

variable {K : Type} [Field K] [LinearOrder K]

/-- The arguments of `FSAI_approx_KNN_with_H2P`: `m` is `fsai_npt`, `c0` is `coord0_idx`, `n0` and `ci` are `h2mat->n_point` and `h2mat->coord_idx`. -/
structure KnnIn (K : Type) where
  dim : Nat
  coord : Nat → Nat → K
  n : Nat
  m : Nat
  c0 : Nat → Nat
  arr : Arr K
  n0 : Nat
  ci : Nat → Nat

/-- src/AFN_precond.c:322-329 `is_neighbor_segments`.  Division by zero gives infinity or NaN, for which the comparison is false. -/
def segNbr (s1 l1 s2 l2 : K) : Bool :=
  if s1 ≤ s2 then decide (l1 ≠ 0 ∧ |s2 - s1| / l1 < 100001 / 100000) else decide (l2 ≠ 0 ∧ |s2 - s1| / l2 < 100001 / 100000)

/-- Lines 411-421. -/
def boxNbr (dim : Nat) (b1 b2 : Box K) : Bool := (List.range dim).all fun d => segNbr (b1.lo d) (b1.ext d) (b2.lo d) (b2.ext d)

/-- Lines 354-361: the search level. -/
def searchLvl (A : Arr K) : Nat :=
  (List.range A.nNode).foldl (fun s i => if A.nChild i > 0 then s else if A.level i < s then A.level i else s) A.maxLevel

/-- Lines 363-364: the nodes of the search level. -/
def slNodes (A : Arr K) : List Nat := (List.range (A.levelN (searchLvl A))).map fun r => A.levelNodes (searchLvl A * A.nLeaf + r)

/-- Line 369. -/
def nodeNpt (A : Arr K) (v : Nat) : Nat := A.ptE v + 1 - A.ptS v

/-- Lines 362, 366-371: the maximal number of points of a node. -/
def slMax (A : Arr K) : Nat := (slNodes A).foldl (fun s v => if nodeNpt A v > s then nodeNpt A v else s) 0

/-- Lines 383-384: `idx0_to_idx`. -/
def idx0 (I : KnnIn K) : Nat → Option Nat := (List.range I.n).foldl (fun f i => Function.update f (I.c0 i) (some i)) (fun _ => none)

/-- Line 385: `h2_to_idx`. -/
def h2idx (I : KnnIn K) (k : Nat) : Option Nat := idx0 I (I.ci k)

/-- Lines 405-408: the pairs of positions of the two loops. -/
def nbrPairs (s : Nat) : List (Nat × Nat) := (List.range s).flatMap fun i => (List.range' (i + 1) (s - (i + 1))).map fun j => (i, j)

/-- Lines 409-433: one pair; `mx` is `max_neighbor`. -/
def nbrStep (A : Arr K) (dim mx : Nat) (sl : List Nat) (f : Nat → List Nat) (p : Nat × Nat) : Option (Nat → List Nat) :=
  let vi := sl.getD p.1 0
  let vj := sl.getD p.2 0
  if boxNbr dim (A.enbox vi) (A.enbox vj) then
    if (f p.1).length < mx ∧ (f p.2).length < mx then                                            -- lines 426-427
      some (Function.update (Function.update f p.1 (f p.1 ++ [vj])) p.2 (f p.2 ++ [vi]))
    else none
  else some f

/-- Lines 389-435: the neighbours of the nodes of the search level. -/
def nbrs (A : Arr K) (dim mx : Nat) : Option (Nat → List Nat) :=
  (nbrPairs (slNodes A).length).foldlM (nbrStep A dim mx (slNodes A)) fun i => [(slNodes A).getD i 0]

/-- Lines 459-471: `nn_idx0`. -/
def cand0 (I : KnnIn K) (nb : List Nat) : List Nat :=
  nb.flatMap fun v => (List.range' (I.arr.ptS v) (nodeNpt I.arr v)).filterMap (h2idx I)

/-- Lines 491-496: the loop that adds points until the array is full but for one entry; `r` points are left, `k` is the next one, `L0` are the points
marked in `flag`. -/
def expand (cap : Nat) (L0 : List Nat) : Nat → Nat → List Nat → Res (List Nat)
  | 0, _, L => .ok L
  | r + 1, k, L =>
    if k ∈ L0 then expand cap L0 r (k + 1) L
    else if L.length < cap then
      if L.length + 2 = cap then .ok (L ++ [k]) else expand cap L0 r (k + 1) (L ++ [k])
    else .ub

/-- Lines 481-497: `nn_idx1` for the point `i`. -/
def cand1 (m cap i : Nat) (C : List Nat) : Res (List Nat) :=
  let c := C.filter (fun k => decide (k < i))
  if c.length < m ∧ m ≤ i then expand cap c i 0 c else .ok c

/-- Lines 498-511: the selection of the neighbours of the point `i` among `L`. -/
def selRow (dim : Nat) (coord : Nat → Nat → K) (m i : Nat) (L : List Nat) (fuel : Nat) : Res (List Nat) :=
  if i < m then .ok (List.range (i + 1))                                                         -- lines 500-502
  else if min m L.length = 0 then .ub                                                            -- line 511: nn_idx_j[-1]
  else do
    let kv ← qpart (ν := Nat) L.length fuel ⟨fun a => pdist2 dim coord i (L.getD a.toNat 0), fun a => L.getD a.toNat 0⟩ 0 ((L.length : Int) - 1) (min m L.length : Nat)
    .ok (((List.range (min m L.length)).map (fun j : Nat => kv.val j)).set (min m L.length - 1) i)   -- lines 510-511

/-- Lines 475-512 for one point of the tree. -/
def ptStep (I : KnnIn K) (cap : Nat) (C : List Nat) (fuel : Nat) (g : Nat → List Nat) : Option Nat → Res (Nat → List Nat)
  | none => .ok g
  | some i => do
    let L ← cand1 I.m cap i C
    let l ← selRow I.dim I.coord I.m i L fuel
    .ok (Function.update g i l)

/-- Lines 455-513: one node of the search level. -/
def nodeStep (I : KnnIn K) (cap : Nat) (nb : Nat → List Nat) (fuel : Nat) (g : Nat → List Nat) (i : Nat) : Res (Nat → List Nat) :=
  if (cand0 I (nb i)).length ≤ cap then
    (List.range' (I.arr.ptS ((slNodes I.arr).getD i 0)) (nodeNpt I.arr ((slNodes I.arr).getD i 0))).foldlM
      (fun g p => ptStep I cap (cand0 I (nb i)) fuel g (h2idx I p)) g
  else .ub

/-- Lines 516-520: the check of the numbers of neighbours. -/
def knnCheck (I : KnnIn K) (g : Nat → List Nat) : Option (Nat → List Nat) :=
  if ∀ i < I.n, 1 ≤ (g i).length ∧ (g i).length ≤ I.m then some g else none

/-- Lines 437-520, after the search for neighbours: the parallel loop over the nodes of the search level in any order, then the check. -/
def knnRows (I : KnnIn K) (order : List Nat) (fuel : Nat) : Option (Nat → List Nat) → Res (Option (Nat → List Nat))
  | none => .ok none
  | some nb => do
    let g ← order.foldlM (nodeStep I (3 ^ I.dim * slMax I.arr) nb fuel) (fun _ => [])
    .ok (knnCheck I g)

/-- src/AFN_precond.c:343-530 `FSAI_approx_KNN_with_H2P`: entry `i` of the result is the list of the first `nn_cnt[i]` entries of row `i` of `nn_idx`. -/
def approxKNN (I : KnnIn K) (order : List Nat) (fuel : Nat) : Res (Option (Nat → List Nat)) :=
  if (∀ i < I.n, I.c0 i < I.n0) ∧ ∀ k < I.n0, I.ci k < I.n0 then knnRows I order fuel (nbrs I.arr I.dim (3 ^ I.dim)) else .ub

end H2Pack.AFN
