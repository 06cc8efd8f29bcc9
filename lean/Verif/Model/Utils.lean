import Verif.Model.Base
import Verif.Model.BlockPart
import Mathlib.Algebra.Order.Field.Basic

/-!
# Utility functions (src/H2Pack_utils.c)

Integers are unbounded (no overflow); reals are the elements of an arbitrary linearly ordered field.
-/

namespace H2Pack.Utils

/-! ## H2P_partition_workload -/

/-- src/H2Pack_utils.c:466-475: the main loop.  `n` works are left, the next one is `i`; `cap` is the
capacity of `blk_displs`. -/
def workLoop (w : Nat → Nat) (blkSize cap : Nat) : Nat → Nat → Nat → Nat → (Nat → Nat) → Res (Nat × Nat × (Nat → Nat))
  | 0, _, curr, idx, data => .ok (curr, idx, data)
  | n+1, i, curr, idx, data =>
    if curr + w i ≥ blkSize then
      if idx < cap then workLoop w blkSize cap n (i+1) 0 (idx+1) (Function.update data idx (i+1)) else .ub
    else workLoop w blkSize cap n (i+1) (curr + w i) idx data

/-- src/H2Pack_utils.c:455-483 `H2P_partition_workload`.  `cap0` is the capacity of the vector on entry;
the result is the new length and content.  `w` has `nWork` elements. -/
def partitionWorkload (nWork : Nat) (w : Nat → Nat) (total nBlock cap0 : Nat) : Res (Nat × (Nat → Nat)) :=
  let cap := max cap0 (nBlock + 1)                                        -- line 460
  let data : Nat → Nat := fun k => if k = 0 then 0 else nWork             -- lines 461-463
  if nBlock = 0 then .ub                                                  -- line 464: division by zero
  else do
    let blkSize := total / nBlock + 1                                     -- line 464
    let (curr, idx, data) ← workLoop w blkSize cap nWork 0 0 1 data       -- lines 465-476
    if curr > 0 then                                                      -- lines 477-481
      if idx < cap then .ok (idx + 1, Function.update data idx nWork) else .ub
    else .ok (idx, data)                                                  -- line 482

/-! ## H2P_rand_sample -/

/-- src/H2Pack_utils.c:145-146: draw until an unused index is found.  `r` is the sequence of values of
`rand()`, `t` the number of values consumed so far. -/
def drawLoop (r : Nat → Nat) (n : Nat) (flag : Nat → Bool) : Nat → Nat → Res (Nat × Nat)
  | 0, _ => .diverge
  | fuel+1, t => if flag (r t % n) then drawLoop r n flag fuel (t+1) else .ok (r t % n, t+1)

/-- src/H2Pack_utils.c:143-149: the loop over the samples (`k` left). -/
def sampleLoop (r : Nat → Nat) (n fuel : Nat) : Nat → (Nat → Bool) → Nat → Res (List Nat × Nat)
  | 0, _, t => .ok ([], t)
  | k+1, flag, t =>
    if n = 0 then .ub                                  -- `% n`
    else do
      let (idx, t) ← drawLoop r n flag fuel t
      let (rest, t) ← sampleLoop r n fuel k (Function.update flag idx true) t
      .ok (idx :: rest, t)

/-- src/H2Pack_utils.c:136-151 `H2P_rand_sample`. -/
def randSample (r : Nat → Nat) (n k fuel : Nat) : Res (List Nat × Nat) :=
  sampleLoop r n fuel k (fun _ => false) 0

/-! ## H2P_check_box_admissible -/

section
variable {K : Type} [Field K] [LinearOrder K] [IsStrictOrderedRing K]

/-- An axis-aligned box: `lo i = box[i]`, `ext i = box[pt_dim + i]`. -/
structure Box (K : Type) where
  lo  : Nat → K
  ext : Nat → K

/-- src/H2Pack_utils.c:18-26: the test in one dimension. -/
def dimAdmissible (b0 b1 : Box K) (alpha : K) (i : Nat) : Bool :=
  let r0 := b0.ext i
  let r1 := b1.ext i
  let c0 := b0.lo i + (1/2) * r0
  let c1 := b1.lo i + (1/2) * r1
  let min_r := if r0 < r1 then r0 else r1
  let dist := |c0 - c1|
  decide (dist ≥ alpha * min_r + (1/2) * (r0 + r1))

/-- src/H2Pack_utils.c:14-29 `H2P_check_box_admissible`: dimensions from `i`, `n` left. -/
def admLoop (b0 b1 : Box K) (alpha : K) : Nat → Nat → Bool
  | _, 0 => false
  | i, n+1 => if dimAdmissible b0 b1 alpha i then true else admLoop b0 b1 alpha (i+1) n

/-- src/H2Pack_utils.c:14-29. -/
def checkBoxAdmissible (b0 b1 : Box K) (ptDim : Nat) (alpha : K) : Bool := admLoop b0 b1 alpha 0 ptDim

end

/-! ## H2P_transpose_dmat -/

section
variable {α : Type}

/-- A store `dst[pos] = val`. -/
abbrev Write (α : Type) := Nat × α

/-- src/H2Pack_utils.c:495-497, 506-508, 518-520: the stores to row `i` of `dst` for source rows
`js, ..., js+n-1`. -/
def transRow (src : Nat → α) (lds ldd i js n : Nat) : List (Write α) :=
  (List.range n).map fun t => (i * ldd + (js + t), src ((js + t) * lds + i))

/-- The stores of one thread in the branch of lines 511-521. -/
def transThreadBlk (src : Nat → α) (lds ldd srcNcol spos len : Nat) : List (Write α) :=
  (List.range srcNcol).flatMap fun i => transRow src lds ldd i spos len

/-- src/H2Pack_utils.c:486-524 `H2P_transpose_dmat`: the stores of every thread, in program order.
`assign i` is the thread that executes iteration `i` of the `parallel for` of line 503 (any assignment,
since the schedule is up to the OpenMP runtime). -/
def transposeStores (nThread srcNrow srcNcol : Nat) (src : Nat → α) (lds ldd : Nat) (assign : Nat → Nat) (tid : Nat) :
    List (Write α) :=
  if nThread = 1 then
    (List.range srcNcol).flatMap fun i => transRow src lds ldd i 0 srcNrow
  else if srcNrow > srcNcol then
    ((List.range srcNcol).filter (fun i => assign i = tid)).flatMap fun i => transRow src lds ldd i 0 srcNrow
  else
    match calcBlockSposLen srcNrow nThread tid with
    | none => []
    | some b => transThreadBlk src lds ldd srcNcol b.spos.toNat b.len.toNat

/-- Memory after a sequence of stores. -/
def applyStores (dst : Nat → α) (ws : List (Write α)) : Nat → α :=
  ws.foldl (fun d w => Function.update d w.1 w.2) dst

/-- `IsInterleaving qs w`: `w` is an interleaving of the sequences `qs 0, ..., qs (n-1)`. -/
inductive Interleaving {β : Type} (n : Nat) : (Nat → List β) → List β → Prop
  | done (qs : Nat → List β) : (∀ t < n, qs t = []) → Interleaving n qs []
  | step (qs : Nat → List β) (t : Nat) (x : β) (rest w : List β) : t < n → qs t = x :: rest →
      Interleaving n (Function.update qs t rest) w → Interleaving n qs (x :: w)

end

end H2Pack.Utils
