import Verif.Model.CSR
import Mathlib.Algebra.Field.Defs

/-! # Parallel product of a sparse matrix and a vector (examples/SPDHSS-H2/CSRPlus.c)

Simplifications: exact arithmetic, unbounded integers, allocation does not fail.  `nrow`, `row_ptr` and the positions in it are natural numbers;
a negative position is the outcome `ub` where it is computed.  Column indices are not checked against the length of the input vector.
`CSRP_init_with_COO_mat` (lines 17-92) is statement by statement `H2P_int_COO_to_CSR` (src/H2Pack_utils.c:244-290), modelled by `CSR.cooToCSR`. -/

namespace H2Pack.CSRP
open H2Pack.CSR (Mat)

/-- examples/SPDHSS-H2/CSRPlus.c:113-123 `partition_block_equal`; `d0` is the new array. -/
def partEqual (len nblk : Nat) (d0 : Nat → Nat) : Nat → Nat :=
  let bs0 := len / nblk
  let rem := len % nblk
  let bs1 := if rem > 0 then bs0 + 1 else bs0
  let d := Function.update d0 0 0
  let d := (List.range' 0 rem).foldl (fun d i => Function.update d (i + 1) (d i + bs1)) d
  (List.range' rem (nblk - rem)).foldl (fun d i => Function.update d (i + 1) (d i + bs0)) d

/-- Lines 125-135 `calc_lower_bound(a, n, x)`: the loop. -/
def lowerBound (a : Nat → Nat) (x : Int) (l h : Nat) : Nat :=
  if _hlt : l < h then
    let mid := l + (h - l) / 2
    if x ≤ a mid then lowerBound a x l mid else lowerBound a x (mid + 1) h
  else l
termination_by h - l
decreasing_by all_goals omega

/-- Lines 174, 175.  Row `-1` leads to the access of `row_ptr[-1]` in line 178. -/
def stepBack (nrow : Nat) (rp : Nat → Nat) (x : Int) (j : Nat) : Res Nat :=
  if nrow < j then .ub
  else if (rp j : Int) > x then (if j = 0 then .ub else .ok (j - 1)) else .ok j

/-- Line 178. -/
def skipEmpty (nrow : Nat) (rp : Nat → Nat) : Nat → Nat → Res Nat
  | 0, _ => .diverge
  | fuel + 1, e => if nrow < e + 1 then .ub else if rp e = rp (e + 1) then skipEmpty nrow rp fuel (e + 1) else .ok e

/-- The entries of `nnz_spos`, `nnz_epos`, `first_row`, `last_row`, `fr_intact`, `lr_intact` of one block. -/
structure Blk where
  spos : Int
  epos : Int
  first : Nat
  last : Nat
  fr : Int
  lr : Int
deriving Inhabited

/-- Lines 169-197: one block. -/
def partBlock (nrow : Nat) (rp : Nat → Nat) (s e : Int) (fuel : Nat) : Res Blk := do
  let sr ← stepBack nrow rp s (lowerBound rp s 0 (nrow + 1))                             -- lines 172, 174
  let er ← stepBack nrow rp e (lowerBound rp e 0 (nrow + 1))                             -- lines 173, 175
  let er ← skipEmpty nrow rp fuel er                                                     -- line 178
  if (er : Int) - sr ≥ 1 then
    .ok ⟨s, e, sr, er, if s = rp sr then 1 else 0, if e = (rp (er + 1) : Int) - 1 then 1 else 0⟩   -- lines 187-191
  else .ok ⟨s, e, sr, er, 0, -1⟩                                                         -- lines 194-195

/-- The results of a loop, in the order of the iterations. -/
def collect {α : Type} (f : Nat → Res α) : List Nat → Res (List α)
  | [] => .ok []
  | i :: l => do
    let a ← f i
    let as ← collect f l
    .ok (a :: as)

/-- examples/SPDHSS-H2/CSRPlus.c:139-203 `CSRP_partition_multithread`. -/
def partition (nrow : Nat) (rp : Nat → Nat) (nblk : Nat) (d0 : Nat → Nat) (fuel : Nat) : Res (Nat → Blk) :=
  if nblk = 0 then .ub                                                                   -- line 115
  else do
    let d := partEqual (rp nrow) nblk d0                                                 -- line 165
    let bs ← collect (fun i => partBlock nrow rp (d i) ((d (i + 1) : Int) - 1) fuel) (List.range nblk)
    .ok fun i => if i = nblk - 1 then { bs.getD i default with last := nrow - 1, epos := (rp nrow : Int) - 1 } else bs.getD i default   -- lines 199-200

section
variable {K : Type} [Field K]

/-- examples/SPDHSS-H2/CSRPlus.c:206-246 `CSRP_optimize_NUMA`: the copies; `order` is the order of the blocks, `J` the new arrays. -/
def optimize (nrow : Nat) (M : Mat K) (P : Nat → Blk) (order : List Nat) (J : Mat K) : Mat K :=
  order.foldl (fun J i => { J with
      col := fun k => if (P i).spos ≤ (k : Int) ∧ (k : Int) ≤ (P i).epos then M.col k else J.col k
      val := fun k => if (P i).spos ≤ (k : Int) ∧ (k : Int) ≤ (P i).epos then M.val k else J.val k })
    { J with rp := fun i => if i < nrow + 1 then M.rp i else J.rp i }

/-- Lines 248-258 `CSR_SpMV_row_seg` for the entries `s, ..., s + len - 1` of the arrays of length `nnz`. -/
def seg (M : Mat K) (nnz : Nat) (x : Nat → K) (s len : Int) : Res K :=
  if 0 < len ∧ ¬ (0 ≤ s ∧ s + len ≤ nnz) then .ub
  else .ok ((List.range' s.toNat len.toNat).foldl (fun r k => r + M.val k * x (M.col k).toNat) 0)

/-- Lines 268-272: the value of one row. -/
def rowSum (M : Mat K) (x : Nat → K) (r : Nat) : K :=
  (List.range' (M.rp r) (M.rp (r + 1) - M.rp r)).foldl (fun s k => s + M.val k * x (M.col k).toNat) 0

/-- What one iteration of the parallel loop writes: the entries of `y` in the order of the writes, and `fr_res`, `lr_res`. -/
structure Out (K : Type) where
  writes : List (Nat × K)
  fr : Option K
  lr : Option K

/-- Lines 307-316: the first row; its result and the next row. -/
def firstSeg (nrow : Nat) (M : Mat K) (B : Blk) (x : Nat → K) : Res (List (Nat × K) × Option K × Nat) :=
  if B.fr = 0 then
    if nrow < B.first + 1 then .ub
    else do
      let f ← seg M (M.rp nrow) x B.spos ((M.rp (B.first + 1) : Int) - B.spos)
      .ok ([(B.first, 0)], some f, B.first + 1)
  else .ok ([], none, B.first)

/-- Lines 318-327: the last row; its result and the end of the rows before it. -/
def lastSeg (nrow : Nat) (M : Mat K) (B : Blk) (x : Nat → K) : Res (List (Nat × K) × Option K × Nat) :=
  if B.lr = 0 then
    if nrow < B.last + 1 then .ub
    else do
      let l ← seg M (M.rp nrow) x (M.rp B.last) (B.epos - M.rp B.last + 1)
      .ok ([(B.last, 0)], some l, B.last)
  else .ok ([], none, B.last + 1)

/-- examples/SPDHSS-H2/CSRPlus.c:276-334 `CSRP_SpMV_block`. -/
def blockOut (nrow : Nat) (M : Mat K) (B : Blk) (x : Nat → K) : Res (Out K) :=
  if B.first = B.last then
    if nrow < B.first + 1 then .ub
    else do
      let f ← seg M (M.rp nrow) x B.spos (B.epos - B.spos + 1)
      .ok ⟨[(B.first, 0)], some f, some 0⟩                                               -- lines 298-300
  else do
    let a ← firstSeg nrow M B x
    let b ← lastSeg nrow M B x
    if a.2.2 < b.2.2 ∧ nrow < b.2.2 then .ub
    else .ok ⟨a.1 ++ b.1 ++ (List.range' a.2.2 (b.2.2 - a.2.2)).map (fun r => (r, rowSum M x r)), a.2.1, b.2.1⟩   -- lines 329-332

/-- Lines 348-358. -/
def fixup (P : Nat → Blk) (fr lr : Nat → K) (y : Nat → K) (i : Nat) : Nat → K :=
  let y := if (P i).fr = 0 then Function.update y (P i).first (y (P i).first + fr i) else y
  if (P i).lr = 0 then Function.update y (P i).last (y (P i).last + lr i) else y

/-- examples/SPDHSS-H2/CSRPlus.c:337-360 `CSRP_SpMV`.  `merge` is the order in which the writes of the parallel iterations reach the memory (no
iteration reads `y`); `fr0`, `lr0`, `y0` are the previous contents of the arrays. -/
def spmv (nrow nblk : Nat) (M : Mat K) (P : Nat → Blk) (x : Nat → K) (merge : List (List (Nat × K)) → List (Nat × K)) (fr0 lr0 y0 : Nat → K) :
    Res (Nat → K) := do
  let outs ← collect (fun i => blockOut nrow M (P i) x) (List.range nblk)
  let y := (merge (outs.map Out.writes)).foldl (fun y w => Function.update y w.1 w.2) y0
  let fr : Nat → K := fun i => (outs[i]?.bind Out.fr).getD (fr0 i)
  let lr : Nat → K := fun i => (outs[i]?.bind Out.lr).getD (lr0 i)
  .ok ((List.range nblk).foldl (fixup P fr lr) y)

end

end H2Pack.CSRP
