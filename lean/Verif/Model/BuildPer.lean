import Verif.Model.MatvecPer
import Verif.Model.BuildUJ

/-!
# Periodic systems: lattice vectors and construction (src/H2Pack_typedef.c:139-207, src/H2Pack_partition_periodic.c:276-305, src/H2Pack_build_periodic.c:76-160)
-/

namespace H2Pack.Per
open H2Pack.Part (Arr PerPairs latShift)
open H2Pack.MV (JIT Per KMv Mat buildPerBlk)
open H2Pack.UJ (Input Slot assemble)

/-- src/H2Pack_typedef.c:139-149 `per_lattices_2d`. -/
def lattices2 : List Int :=
  [-1, -1,
   -1,  0,
   -1,  1,
    0, -1,
    0,  0,
    0,  1,
    1, -1,
    1,  0,
    1,  1]

/-- src/H2Pack_typedef.c:151-179 `per_lattices_3d`. -/
def lattices3 : List Int :=
  [-1, -1, -1,
   -1, -1,  0,
   -1, -1,  1,
   -1,  0, -1,
   -1,  0,  0,
   -1,  0,  1,
   -1,  1, -1,
   -1,  1,  0,
   -1,  1,  1,
    0, -1, -1,
    0, -1,  0,
    0, -1,  1,
    0,  0, -1,
    0,  0,  0,
    0,  0,  1,
    0,  1, -1,
    0,  1,  0,
    0,  1,  1,
    1, -1, -1,
    1, -1,  0,
    1, -1,  1,
    1,  0, -1,
    1,  0,  0,
    1,  0,  1,
    1,  1, -1,
    1,  1,  0,
    1,  1,  1]

/-- src/H2Pack_typedef.c:195-206: `n_lattice` and `per_lattices[l*pt_dim+j]` (0 and no array for other dimensions). -/
def nLattice (ptDim : Nat) : Nat := if ptDim = 2 then 9 else if ptDim = 3 then 27 else 0

def latticeZ (ptDim l j : Nat) : Int :=
  (if ptDim = 2 then lattices2 else if ptDim = 3 then lattices3 else []).getD (l * ptDim + j) 0

section
variable {K : Type} [Field K]

/-- The same as floating point numbers. -/
def lattice (K : Type) [Field K] (ptDim l j : Nat) : K := ((latticeZ ptDim l j : Int) : K)

/-- src/H2Pack_partition_periodic.c:287-305: `per_adm_shifts`, `per_inadm_shifts` for the triples `L`. -/
def shifts (A : Arr K) (ptDim : Nat) (lat : Nat → Nat → K) (L : List (Nat × Nat × Nat)) : Nat → K := fun k =>
  latShift A lat (L.getD (k / ptDim) (0, 0, 0)).2.2 (k % ptDim)

/-- src/H2Pack_partition_periodic.c:287-305: the pairs without the lattice number; `min_adm_level = 0` (line 273). -/
def pairsOf (pv : PerPairs) : H2Pack.Part.Pairs :=
  ⟨pv.adm.map (fun x => (x.1, x.2.1)), pv.inadm.map (fun x => (x.1, x.2.1)), 0⟩

/-- What a periodic system holds after partitioning and step 1 of `H2P_build_periodic` (tree, points, kernels, skeleton points and bases
`sl`, pairs and shifts), with `per_blk` still open. -/
def assemblePer (S : Input K) (sl : Nat → Slot K) (pv : PerPairs) (lat : Nat → Nat → K) (coordIdx mark : Nat → Nat) (simd : Nat)
    (B D : Nat → Mat K) (junkM junkW : Nat → Nat → K) (mv : Option (KMv K)) (pad : K) (junkC : Nat → Nat → K) (perBlk : Nat → K) : Per K where
  J := assemble S sl (pairsOf pv) coordIdx mark simd none B D junkM junkW
  pdim := S.ptDim
  admShift := shifts S.arr S.ptDim lat pv.adm
  inadmShift := shifts S.arr S.ptDim lat pv.inadm
  perBlk := perBlk
  mv := mv
  pad := pad
  junkC := junkC

/-- src/H2Pack_build_periodic.c:134-137 (step 4): `per_blk`, for the periodic kernel `pkern`. -/
def perBlkOf (S : Input K) (J : JIT K) (pkern : (Nat → K) → (Nat → K) → Nat → Nat → K) (nLat : Nat) (lat : Nat → Nat → K)
    (junkB junkC : Nat → K) (junk : Nat → Nat → K) : Nat → K :=
  buildPerBlk J { J with kern := pkern } S.ptDim (S.arr.nNode - 1) nLat (fun j => (S.arr.enbox (S.arr.nNode - 1)).ext j) lat junkB junkC junk

end
end H2Pack.Per
