import Verif.Model.Partition
import Verif.Spec.ClusterTree
import Mathlib.Algebra.Order.Group.Abs

/-!
# Reduced (in)admissible pairs (src/H2Pack_partition.c:327-432, 508-541, 657-663, src/H2Pack_partition_periodic.c:25-147, 264-305)

The vectors `r_adm_pairs`, `r_inadm_pairs` of integers are lists of pairs (triples in the periodic case);
`H2P_int_vec` itself is modelled in `IntVec`.  `kids A v` are the entries `children[v*max_child + i]`,
`i < n_child[v]`.  The recursion depth is bounded by `fuel`.
-/

namespace H2Pack.Part
open H2Pack.Utils (Box checkBoxAdmissible)

/-- A `for` loop over the elements of a list. -/
def forEach {α σ : Type} (f : α → σ → Res σ) : List α → σ → Res σ
  | [], s => .ok s
  | x :: xs, s => do
    let s ← f x s
    forEach f xs s

/-- The double loop `for i` / `for j > i` over the elements of a list. -/
def forPairs {α σ : Type} (f : α → α → σ → Res σ) : List α → σ → Res σ
  | [], s => .ok s
  | x :: xs, s => do
    let s ← forEach (f x) xs s
    forPairs f xs s

variable {K : Type}

/-- `part_vars->r_adm_pairs`, `r_inadm_pairs`, `min_adm_level`. -/
structure Pairs where
  adm : List (Nat × Nat)
  inadm : List (Nat × Nat)
  minAdm : Nat
deriving DecidableEq, Repr

/-- src/H2Pack_partition.c:327-432 `H2P_calc_reduced_adm_pairs`; `adm` is the outcome of the box test of
line 374, `minLv` is `h2pack->min_adm_level`.  A node number out of range is `ub`. -/
def calcPairs (A : Arr K) (adm : Nat → Nat → Bool) (minLv : Nat) : Nat → Nat → Nat → Pairs → Res Pairs
  | 0, _, _, _ => .diverge
  | fuel+1, n0, n1, pv =>
    if n0 < A.nNode ∧ n1 < A.nNode then
      if n0 = n1 then                                                                   -- line 337
        if A.nChild n0 = 0 then .ok pv                                                  -- lines 342-343
        else do
          let pv ← forEach (fun c pv => calcPairs A adm minLv fuel c c pv) (kids A n0) pv -- lines 348-352
          forPairs (fun c d pv => calcPairs A adm minLv fuel c d pv) (kids A n0) pv       -- lines 354-362
      else if adm n0 n1 = true ∧ minLv ≤ A.level n0 ∧ minLv ≤ A.level n1 then           -- lines 374-375
        .ok ⟨pv.adm ++ [(n0, n1)], pv.inadm, min pv.minAdm (max (A.level n0) (A.level n1))⟩  -- lines 377-381
      else if A.nChild n0 = 0 ∧ A.nChild n1 = 0 then                                    -- line 385
        .ok ⟨pv.adm, pv.inadm ++ [(n0, n1)], pv.minAdm⟩                                 -- lines 387-389
      else if A.nChild n0 = 0 then                                                      -- line 393
        forEach (fun d pv => calcPairs A adm minLv fuel n0 d pv) (kids A n1) pv         -- lines 395-401
      else if A.nChild n1 = 0 then                                                      -- line 405
        forEach (fun c pv => calcPairs A adm minLv fuel c n1 pv) (kids A n0) pv         -- lines 407-413
      else                                                                              -- line 417
        forEach (fun c pv => forEach (fun d pv => calcPairs A adm minLv fuel c d pv) (kids A n1) pv) (kids A n0) pv
    else .ub

section
variable [Field K] [LinearOrder K]

/-- `ALPHA_H2` and `ALPHA_HSS` of src/H2Pack_config.h:103-104. -/
def alphaH2 : K := 999999 / 10^6
def alphaHSS : K := -(1 / 10^6)

/-- src/H2Pack_partition.c:660-663: step 4 of `H2P_partition_points`. -/
def h2Pairs (ptDim : Nat) (A : Arr K) (fuel : Nat) : Res Pairs :=
  calcPairs A (fun a b => checkBoxAdmissible (A.enbox a) (A.enbox b) ptDim alphaH2) 0 fuel (A.nNode - 1) (A.nNode - 1) ⟨[], [], A.maxLevel⟩

/-- src/H2Pack_partition.c:514-520: the pairs for HSS, with the assertion of line 520. -/
def hssPairs (ptDim : Nat) (A : Arr K) (fuel : Nat) : Res Pairs := do
  let pv ← calcPairs A (fun a b => checkBoxAdmissible (A.enbox a) (A.enbox b) ptDim alphaHSS) 0 fuel (A.nNode - 1) (A.nNode - 1) ⟨[], [], A.maxLevel⟩
  if pv.minAdm = 1 then .ok pv else .ub

/-! ## Periodic systems -/

/-- The triples `n0, n1, lattice_id` collected in the periodic case. -/
structure PerPairs where
  adm : List (Nat × Nat × Nat)
  inadm : List (Nat × Nat × Nat)
deriving DecidableEq, Repr

/-- src/H2Pack_partition_periodic.c:37-39. -/
def hasShift (ptDim : Nat) (shift : Nat → K) : Bool :=
  (List.range ptDim).any fun i => decide (|shift i| > 1 / 10^10)

/-- src/H2Pack_partition_periodic.c:76-77: the box of the second node moved by the shift. -/
def shiftBox (b : Box K) (shift : Nat → K) : Box K := ⟨fun j => b.lo j + shift j, b.ext⟩

/-- src/H2Pack_partition_periodic.c:80-88, 95-103: the triples pushed for a pair. -/
def perPush (hs : Bool) (n0 n1 l : Nat) : List (Nat × Nat × Nat) :=
  if hs = true then [(n0, n1, l)] else [(n0, n1, l), (n1, n0, l)]

/-- src/H2Pack_partition_periodic.c:25-147 `H2P_calc_reduced_adm_pairs_per`; `hs` is `has_shift`, `adm` the
outcome of the test of line 78. -/
def calcPairsPer (A : Arr K) (adm : Nat → Nat → Bool) (hs : Bool) (l : Nat) : Nat → Nat → Nat → PerPairs → Res PerPairs
  | 0, _, _, _ => .diverge
  | fuel+1, n0, n1, pv =>
    if n0 < A.nNode ∧ n1 < A.nNode then
      if n0 = n1 ∧ hs = false then                                                      -- line 41
        if A.nChild n0 = 0 then .ok pv
        else do
          let pv ← forEach (fun c pv => calcPairsPer A adm hs l fuel c c pv) (kids A n0) pv
          forPairs (fun c d pv => calcPairsPer A adm hs l fuel c d pv) (kids A n0) pv
      else if adm n0 n1 = true then                                                     -- line 78
        .ok ⟨pv.adm ++ perPush hs n0 n1 l, pv.inadm⟩
      else if A.nChild n0 = 0 ∧ A.nChild n1 = 0 then                                    -- line 93
        .ok ⟨pv.adm, pv.inadm ++ perPush hs n0 n1 l⟩
      else if A.nChild n0 = 0 then                                                      -- line 108
        forEach (fun d pv => calcPairsPer A adm hs l fuel n0 d pv) (kids A n1) pv
      else if A.nChild n1 = 0 then                                                      -- line 120
        forEach (fun c pv => calcPairsPer A adm hs l fuel c n1 pv) (kids A n0) pv
      else
        forEach (fun c pv => forEach (fun d pv => calcPairsPer A adm hs l fuel c d pv) (kids A n1) pv) (kids A n0) pv
    else .ub

/-- src/H2Pack_partition_periodic.c:266-270: shift of lattice `l`; `lattice l j` is `per_lattices[l*pt_dim+j]`. -/
def latShift (A : Arr K) (lattice : Nat → Nat → K) (l : Nat) : Nat → K :=
  fun j => (A.enbox (A.nNode - 1)).ext j * lattice l j

/-- src/H2Pack_partition_periodic.c:264-272: step 4 of `H2P_partition_points_periodic`.  (The arrays
`shift[8]`, `shifted_box[8]` are large enough for `pt_dim ≤ 4`, a larger dimension is `ub`.) -/
def perPairs (ptDim : Nat) (A : Arr K) (nLattice : Nat) (lattice : Nat → Nat → K) (fuel : Nat) : Res PerPairs :=
  if ptDim ≤ 4 then
    forEach (fun l pv => calcPairsPer A
        (fun a b => checkBoxAdmissible (A.enbox a) (shiftBox (A.enbox b) (latShift A lattice l)) ptDim alphaH2)
        (hasShift ptDim (latShift A lattice l)) l fuel (A.nNode - 1) (A.nNode - 1) pv)
      (List.range nLattice) ⟨[], []⟩
  else .ub

/-- src/H2Pack_partition_periodic.c:287-305: the exported pair and the shift stored for it. -/
def perExport (A : Arr K) (lattice : Nat → Nat → K) (x : Nat × Nat × Nat) : (Nat × Nat) × (Nat → K) :=
  ((x.1, x.2.1), latShift A lattice x.2.2)

end

end H2Pack.Part
