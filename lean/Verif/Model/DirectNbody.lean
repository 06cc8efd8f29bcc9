import Verif.Model.MatvecJIT
import Verif.Model.BlockPart

/-!
# The direct product with a kernel matrix (examples/direct_nbody.h)

This is the reference all examples and tests compare with (extra/direct_nbody.h is the same function).  Exact arithmetic, unbounded integers; the allocation does not
fail.  The coordinates of a point are given as a function (the layout with `src_coord_ld`, `dst_coord_ld` is that of `MV.point`).
-/

namespace H2Pack.NBody
open H2Pack.MV (kmat)

variable {K : Type} [CommRing K]

/-- A kernel, `nd` target points, `ns` source points with their values. -/
structure In (K : Type) where
  kern : (Nat → K) → (Nat → K) → Nat → Nat → K
  kd : Nat
  dst : Nat → Nat → K
  nd : Nat
  src : Nat → Nat → K
  ns : Nat
  val : Nat → K

/-- examples/direct_nbody.h:8 `npt_blk`. -/
def nptBlk : Nat := 256

/-- The headers of the loops of lines 26-28 and 32-34: first point and number of points of each block of the points `s .. e - 1`. -/
def blocks (s e : Nat) : List (Nat × Nat) :=
  if s < e then (s, if s + nptBlk > e then e - s else nptBlk) :: blocks (s + nptBlk) e else []
termination_by e - s
decreasing_by unfold nptBlk; omega

/-- Lines 30-31, 35-48: one pair of blocks: the kernel matrix of the blocks is evaluated into the buffer of the thread, its product with the values is added. -/
def step (I : In K) (D : Nat → K) (x : (Nat × Nat) × (Nat × Nat)) : Nat → K := fun r =>
  if I.kd * x.1.1 ≤ r ∧ r < I.kd * x.1.1 + x.1.2 * I.kd then
    D r + ∑ c ∈ Finset.range (x.2.2 * I.kd),
      kmat I.kern I.kd (fun p => I.dst (x.1.1 + p)) (fun p => I.src (x.2.1 + p)) (r - I.kd * x.1.1) c * I.val (I.kd * x.2.1 + c)
  else D r

/-- Lines 19-34: what thread `tid` of `nThread` does, in order. -/
def thread (I : In K) (nThread tid : Nat) : List ((Nat × Nat) × (Nat × Nat)) :=
  match calcBlockSposLen I.nd nThread tid with
  | some b => (blocks b.spos.toNat (b.spos.toNat + b.len.toNat)).flatMap fun d => (blocks 0 I.ns).map fun s => (d, s)
  | none => []

/-- Line 12: `memset`. -/
def clear (I : In K) (D : Nat → K) : Nat → K := fun r => if r < I.nd * I.kd then 0 else D r

/-- examples/direct_nbody.h:2-54 `direct_nbody`: `sched` are the steps of all threads in the order in which they are executed, `D` is `dst_val` before. -/
def run (I : In K) (sched : List ((Nat × Nat) × (Nat × Nat))) (D : Nat → K) : Nat → K := sched.foldl (step I) (clear I D)

end H2Pack.NBody
