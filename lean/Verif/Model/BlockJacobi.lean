import Verif.Model.MatvecJIT

/-! # The block Jacobi preconditioner (examples/SPDHSS-H2/block_jacobi_precond.c)

Simplifications: real arithmetic, unbounded integers, allocation does not fail (an allocation of zero blocks is not looked at),
the blocks of the parallel loops are executed one after another in any order; statistics are not modelled.  `D_nrow` is the
number of rows of the stored (or just-in-time) diagonal blocks, see `JIT.aot`. -/

namespace H2Pack.BJ
open H2Pack.MV

variable {K : Type} [Field K]

/-- `LAPACK_GETRF` followed by `LAPACK_GETRI` on a row-major matrix of order `d`: the overwritten matrix, `none` when one of them
returns `info ≠ 0`. -/
abbrev Inverse (K : Type) := Nat → (Nat → Nat → K) → Option (Nat → Nat → K)

/-- examples/SPDHSS-H2/block_jacobi_precond.h: the arrays of the structure (the permutations are those of the handle). -/
structure Precond (K : Type) where
  nBlock : Nat
  sizes : Nat → Nat
  displs : Nat → Nat
  ptr : Nat → Nat
  total : Nat
  inv : Nat → K

/-- examples/SPDHSS-H2/block_jacobi_precond.c:28-41: sizes, positions in the vector and in the array of inverses; `P` has the
contents of the new arrays. -/
def layout (J : JIT K) (P : Precond K) : Precond K :=
  (List.range J.R.arr.nLeaf).foldl (fun P i =>
    { P with
      sizes := Function.update P.sizes i (J.aot.D i).nrow
      ptr := Function.update P.ptr i P.total
      displs := Function.update P.displs (i + 1) (P.displs i + (J.aot.D i).nrow)
      total := P.total + (J.aot.D i).nrow * (J.aot.D i).nrow })
    { P with nBlock := J.R.arr.nLeaf, displs := Function.update P.displs 0 0, total := 0 }

/-- Lines 61-66: evaluation of the kernel for the points of a node into `blk_node = blk_inv + at`, leading dimension
`npt * krnl_dim`. -/
def evalDiag (J : JIT K) (v pos : Nat) (mem : Nat → K) : Nat → K := fun k =>
  let ld := J.npt v * J.R.kdim
  if pos ≤ k ∧ k < pos + ld * ld then (J.block (J.cPts v) (J.cPts v)).e ((k - pos) / ld) ((k - pos) % ld) else mem k

/-- Lines 67-68. -/
def addShift (d pos : Nat) (shift : K) (mem : Nat → K) : Nat → K :=
  (List.range d).foldl (fun m j => Function.update m (pos + (j * d + j)) (m (pos + (j * d + j)) + shift)) mem

/-- Lines 52-74: one iteration of the parallel loop. -/
def buildBlock (inverse : Inverse K) (J : JIT K) (shift : K) (P : Precond K) (i : Nat) : Option (Precond K) :=
  let d := P.sizes i
  if d = 0 then some P else
  let mem := addShift d (P.ptr i) shift (evalDiag J (J.R.leaf i) (P.ptr i) P.inv)
  match inverse d (fun r c => mem (P.ptr i + (r * d + c))) with
  | none => none
  | some X => some { P with inv := fun k => if P.ptr i ≤ k ∧ k < P.ptr i + d * d then X ((k - P.ptr i) / d) ((k - P.ptr i) % d) else mem k }

/-- examples/SPDHSS-H2/block_jacobi_precond.c:12-110 `H2P_build_block_jacobi_precond`: `order` is the order of the blocks, `junk`
the contents of the new arrays; `none` when an assertion on the result of LAPACK fails. -/
def build (inverse : Inverse K) (J : JIT K) (shift : K) (order : List Nat) (junk : Precond K) : Option (Precond K) :=
  order.foldlM (buildBlock inverse J shift) (layout J junk)

/-- Lines 130-142: one block of the product; the right-hand side is `pmt_b`. -/
def applyBlock (P : Precond K) (pb : Nat → K) (px : Nat → K) (i : Nat) : Nat → K := fun k =>
  if P.displs i ≤ k ∧ k < P.displs i + P.sizes i then
    ∑ c ∈ Finset.range (P.sizes i), P.inv (P.ptr i + ((k - P.displs i) * P.sizes i + c)) * pb (P.displs i + c)
  else px k

/-- examples/SPDHSS-H2/block_jacobi_precond.c:113-148 `block_jacobi_precond_apply`; `g` are the initial contents of the index
arrays, `pb`, `px`, `x` those of the buffers and of the output. -/
def apply (R : Rep K) (P : Precond K) (order : List Nat) (g : (Nat → Nat) × (Nat → Nat)) (pb px x b : Nat → K) : Nat → K :=
  let pb := permuteFwd R g b pb                  -- line 129
  let px := order.foldl (applyBlock P pb) px
  permuteBwd R g px x                            -- line 144

end H2Pack.BJ
