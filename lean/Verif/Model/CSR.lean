import Verif.Model.Base
import Mathlib.Order.Defs.LinearOrder
import Mathlib.Data.Int.Order.Basic

/-!
# Quick sort of key/value pairs and CSR matrices (src/H2Pack_utils.c:244-326)

The types of the keys and values are parameters: `int` here, `int` keys with `DTYPE` values in src/AFN_precond.c.

Arrays are functions on `Int` indices with an explicit allocated length `n`; an access outside
`0 .. n-1` is the outcome `ub`.
-/

namespace H2Pack.CSR

variable {κ ν : Type} [LinearOrder κ]

/-- The arrays `key[]` and `val[]`. -/
structure KV (κ : Type := Int) (ν : Type := Int) where
  key : Int → κ
  val : Int → ν

/-- src/H2Pack_utils.c:251 `while (key[i] < mid_key) i++;` -/
def scanUp (n : Int) (key : Int → κ) (mid : κ) : Nat → Int → Res Int
  | 0, _ => .diverge
  | fuel+1, i =>
    if ¬ (0 ≤ i ∧ i < n) then .ub
    else if key i < mid then scanUp n key mid fuel (i+1) else .ok i

/-- src/H2Pack_utils.c:252 `while (key[j] > mid_key) j--;` -/
def scanDown (n : Int) (key : Int → κ) (mid : κ) : Nat → Int → Res Int
  | 0, _ => .diverge
  | fuel+1, j =>
    if ¬ (0 ≤ j ∧ j < n) then .ub
    else if key j > mid then scanDown n key mid fuel (j-1) else .ok j

/-- src/H2Pack_utils.c:255-256: swap the pairs at `i` and `j` (both already checked to be in bounds
by the scans). -/
def KV.swap {κ ν : Type} (kv : KV κ ν) (i j : Int) : KV κ ν :=
  ⟨Function.update (Function.update kv.key i (kv.key j)) j (kv.key i),
   Function.update (Function.update kv.val i (kv.val j)) j (kv.val i)⟩

/-- src/H2Pack_utils.c:249-259: the partition loop `while (i <= j)`. -/
def partLoop (n : Int) (mid : κ) : Nat → KV κ ν → Int → Int → Res (KV κ ν × Int × Int)
  | 0, _, _, _ => .diverge
  | fuel+1, kv, i, j =>
    if i ≤ j then do
      let i ← scanUp n kv.key mid fuel i
      let j ← scanDown n kv.key mid fuel j
      if i ≤ j then partLoop n mid fuel (kv.swap i j) (i+1) (j-1)
      else partLoop n mid fuel kv i j
    else .ok (kv, i, j)

/-- src/H2Pack_utils.c:245-262 `H2P_qsort_int_key_val(key, val, l, r)`. `Int.tdiv` is C's division. -/
def qsort (n : Int) : Nat → KV κ ν → Int → Int → Res (KV κ ν)
  | 0, _, _, _ => .diverge
  | fuel+1, kv, l, r =>
    let m := (l + r).tdiv 2
    if ¬ (0 ≤ m ∧ m < n) then .ub                                  -- line 248
    else do
      let p ← partLoop n (kv.key m) fuel kv l r
      let kv ← if p.2.1 < r then qsort n fuel p.1 p.2.1 r else .ok p.1   -- line 260
      if p.2.2 > l then qsort n fuel kv l p.2.2 else .ok kv              -- line 261

/-- A COO matrix: entry `k < nnz` is `(row k, col k, val k)` (arguments of
`H2P_int_COO_to_CSR`, src/H2Pack_utils.c:265-268).  Row indices are natural numbers: a negative
one is out of bounds like a too large one. -/
structure COO (ν : Type := Int) where
  nrow : Nat
  nnz  : Nat
  row  : Nat → Nat
  col  : Nat → Int
  val  : Nat → ν

/-- src/H2Pack_utils.c:271-272: counting, `row_ptr[row[i] + 1]++`. -/
def countRows {ν : Type} (A : COO ν) : Nat → Nat :=
  (List.range A.nnz).foldl (fun rp k => Function.update rp (A.row k + 1) (rp (A.row k + 1) + 1)) (fun _ => 0)

/-- src/H2Pack_utils.c:274: `for (i = 2; i <= nrow; i++) row_ptr[i] += row_ptr[i-1]`. -/
def prefixRows (nrow : Nat) (rp : Nat → Nat) : Nat → Nat :=
  (List.range' 2 (nrow + 1 - 2)).foldl (fun rp i => Function.update rp i (rp i + rp (i-1))) rp

/-- State of the bucket sort loop. -/
structure Bucket (ν : Type := Int) where
  rp  : Nat → Nat
  col : Nat → Int
  val : Nat → ν

/-- src/H2Pack_utils.c:276-282: one iteration of the bucket sort. -/
def bucketStep {ν : Type} (A : COO ν) (b : Bucket ν) (k : Nat) : Bucket ν :=
  let idx := b.rp (A.row k)
  ⟨Function.update b.rp (A.row k) (b.rp (A.row k) + 1),
   Function.update b.col idx (A.col k), Function.update b.val idx (A.val k)⟩

/-- src/H2Pack_utils.c:284-285: `for (i = nrow; i >= 1; i--) row_ptr[i] = row_ptr[i-1]; row_ptr[0] = 0`. -/
def shiftRows (nrow : Nat) (rp : Nat → Nat) : Nat → Nat :=
  Function.update
    ((List.range' 1 nrow).reverse.foldl (fun rp i => Function.update rp i (rp (i-1))) rp) 0 0

/-- src/H2Pack_utils.c:287-289: the rows are sorted by an `omp parallel for`; `order` is the order in
which the iterations happen (they touch disjoint index ranges; the read of line 248 for an empty
row is the only access to another row's range and its value is not used). -/
def sortRows (n : Int) (rp : Nat → Nat) (fuel : Nat) (order : List Nat) (kv : KV κ ν) : Res (KV κ ν) :=
  order.foldl (fun r i => do
    let kv ← r
    qsort n fuel kv (rp i : Int) ((rp (i+1) : Int) - 1)) (.ok kv)

/-- Nat-indexed array seen as an Int-indexed one (negative indices are never accessed without `ub`). -/
def toInt {ν : Type} (f : Nat → ν) : Int → ν := fun i => f i.toNat

/-- Result of the conversion: `row_ptr`, `col_idx`, `val_`. -/
structure Mat (ν : Type := Int) where
  rp  : Nat → Nat
  col : Nat → Int
  val : Nat → ν

/-- src/H2Pack_utils.c:265-290 `H2P_int_COO_to_CSR`.  `col0`, `val0` are the previous contents of the
output buffers of length `nnz`; an entry with a row index outside `0..nrow-1` is `ub`. -/
def cooToCSR {ν : Type} (A : COO ν) (col0 : Nat → Int) (val0 : Nat → ν) (order : List Nat) (fuel : Nat) : Res (Mat ν) :=
  if (List.range A.nnz).all (fun k => A.row k < A.nrow) then do
    let rp := prefixRows A.nrow (countRows A)
    let b := (List.range A.nnz).foldl (bucketStep A) ⟨rp, col0, val0⟩
    let rp := shiftRows A.nrow b.rp
    let kv ← sortRows A.nnz rp fuel order ⟨toInt b.col, toInt b.val⟩
    .ok ⟨rp, fun k => kv.key k, fun k => kv.val k⟩
  else .ub

/-- src/H2Pack_utils.c:293-308 `H2P_get_int_CSR_elem`: linear scan of the row. -/
def getElem (M : Mat) (row : Nat) (col : Int) : Int :=
  ((List.range' (M.rp row) (M.rp (row+1) - M.rp row)).find? (fun k => M.col k = col)).elim 0 M.val

/-- src/H2Pack_utils.c:311-327 `H2P_set_int_CSR_elem`; the second component is `has_element`
(an error message is printed if it is false). -/
def setElem (M : Mat) (row : Nat) (col : Int) (v : Int) : Mat × Bool :=
  match (List.range' (M.rp row) (M.rp (row+1) - M.rp row)).find? (fun k => M.col k = col) with
  | some k => ({ M with val := Function.update M.val k v }, true)
  | none => (M, false)

end H2Pack.CSR
