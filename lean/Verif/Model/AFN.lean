import Verif.Model.Base
import Verif.Model.BlockPart
import Mathlib.Algebra.Field.Defs
import Mathlib.Order.Defs.LinearOrder
import Mathlib.Algebra.Order.Ring.Defs

/-!
# Farthest point sampling and the ordering of the points (src/AFN_precond.c:748-856, 1154-1160)

Exact arithmetic in an ordered field.  `coord d j` is `coord[d * npt + j]`.  The threads of the parallel region run between
barriers; `orders i` is the order in which the threads do their part of round `i` (a thread only touches its own block of `tmp_d[]`,
`min_d[]` and its own entries of `min_d_idx[]`, `min_d_val[]`, and reads `min_d_idx0`, which the master thread only writes between
two barriers).  `big` is `DBL_MAX`.  Reading `tmp_d[npt]` (the first entry of `min_d[]`, which belongs to another thread) or
`min_d[npt]` (past the end of the allocation) is `ub`.
-/

namespace H2Pack.AFN

variable {K : Type} [Field K] [LinearOrder K]

/-- The arguments of `AFNi_FPS` (line 748) and the number of threads (line 765). -/
structure FpsIn (K : Type) where
  npt : Nat
  dim : Nat
  coord : Nat → Nat → K
  nThread : Nat
  big : K

/-- The work arrays (lines 750-768) and the output array. -/
structure FpsSt (K : Type) where
  tmpD : Nat → K
  minD : Nat → K
  locIdx : Nat → Nat
  locVal : Nat → K
  idx : Nat → Nat
  last : Nat

/-- Lines 756-763: `center[d]`. -/
def center (F : FpsIn K) (d : Nat) : K :=
  (List.range F.npt).foldl (fun s j => s + F.coord d j) 0 / (F.npt : K)

/-- Lines 779-792 and 818-829: the sum over the dimensions accumulated in `tmp_d[j]`; `q d` is `center[d]` or
`coord[d * npt + min_d_idx0]`. -/
def accDist (F : FpsIn K) (q : Nat → K) (j : Nat) : K :=
  (List.range F.dim).foldl (fun s d => s + (F.coord d j - q d) * (F.coord d j - q d)) 0

/-- Lines 794-797, 832-835 and the loops of the master thread, lines 804-807, 842-845: the position and value of the best entry among
`s .. e-1`, starting with entry `s`; a later entry replaces it only if it is strictly better. -/
def scanBest (better : K → K → Bool) (v : Nat → K) (s e : Nat) : Nat × K :=
  (List.range' (s + 1) (e - (s + 1))).foldl (fun r j => if better (v j) r.2 then (j, v j) else r) (s, v s)

/-- An update of the entries `s .. e-1` of an array. -/
def setRange (f g : Nat → K) (s e : Nat) : Nat → K := fun j => if s ≤ j ∧ j < e then g j else f j

/-- Lines 772-799: the part of thread `t` before the first barrier. -/
def centerPart (F : FpsIn K) (t : Nat) (st : FpsSt K) : Res (FpsSt K) :=
  match calcBlockSposLen F.npt F.nThread t with
  | none => .ub
  | some b =>
    let s := b.spos.toNat
    let e := (b.spos + b.len).toNat
    let tmpD := setRange st.tmpD (accDist F (center F)) s e
    let minD := setRange st.minD (fun _ => F.big) s e
    if F.npt ≤ s then .ub                                                    -- line 795: tmp_d[spos]
    else
      let r := scanBest (fun a b => decide (a < b)) tmpD s e
      .ok { st with tmpD := tmpD, minD := minD, locIdx := Function.update st.locIdx t r.1, locVal := Function.update st.locVal t r.2 }

/-- Lines 817-837: the part of thread `t` in one round of the selection. -/
def roundPart (F : FpsIn K) (t : Nat) (st : FpsSt K) : Res (FpsSt K) :=
  match calcBlockSposLen F.npt F.nThread t with
  | none => .ub
  | some b =>
    let s := b.spos.toNat
    let e := (b.spos + b.len).toNat
    let tmpD := setRange st.tmpD (accDist F (fun d => F.coord d st.last)) s e
    let minD := setRange st.minD (fun j => if tmpD j < st.minD j then tmpD j else st.minD j) s e
    if F.npt ≤ s then .ub                                                    -- line 833: min_d[spos]
    else
      let r := scanBest (fun a b => decide (a > b)) minD s e
      .ok { st with tmpD := tmpD, minD := minD, locIdx := Function.update st.locIdx t r.1, locVal := Function.update st.locVal t r.2 }

/-- Lines 802-810 and 840-848, the master thread: the best of the local values; `idx[i]` is written (`cap` is the length of `idx[]`). -/
def master (F : FpsIn K) (better : K → K → Bool) (cap i : Nat) (st : FpsSt K) : Res (FpsSt K) :=
  if cap ≤ i then .ub
  else
    let w := st.locIdx (scanBest better st.locVal 0 F.nThread).1
    .ok { st with idx := Function.update st.idx i w, last := w }

/-- All threads do their part, in the given order. -/
def allParts (part : Nat → FpsSt K → Res (FpsSt K)) (order : List Nat) (st : FpsSt K) : Res (FpsSt K) :=
  order.foldl (fun r t => r.bind (part t)) (.ok st)

/-- Lines 816-849: one round of the selection. -/
def fpsRound (F : FpsIn K) (cap : Nat) (orders : Nat → List Nat) (i : Nat) (st : FpsSt K) : Res (FpsSt K) :=
  (allParts (roundPart F) (orders i) st).bind (master F (fun a b => decide (a > b)) cap i)

/-- src/AFN_precond.c:748-856 `AFNi_FPS(npt, pt_dim, coord, k, idx)`; `cap` is the length of the array `idx`, `st` the initial contents of
the arrays. -/
def fps (F : FpsIn K) (k cap : Nat) (orders : Nat → List Nat) (st : FpsSt K) : Res (FpsSt K) := do
  let st ← allParts (centerPart F) (orders 0) st
  let st ← master F (fun a b => decide (a < b)) cap 0 st
  (List.range' 1 (k - 1)).foldl (fun r i => r.bind (fpsRound F cap orders i)) (.ok st)

/-- Lines 1159-1160: the loop appending the points that are not flagged; `(perm, idx)`.  Writing `perm[n]` is `ub`. -/
def appendRest (n : Nat) (flag : Nat → Bool) : Res ((Nat → Nat) × Nat) → Nat → Res ((Nat → Nat) × Nat) := fun r i => do
  let p ← r
  if flag i then .ok p
  else if n ≤ p.2 then .ub
  else .ok (Function.update p.1 p.2 i, p.2 + 1)

/-- src/AFN_precond.c:1154-1160 (step 2 of `AFN_precond_build`): the order of the points. -/
def orderPoints (F : FpsIn K) (n1 : Nat) (orders : Nat → List Nat) (st : FpsSt K) : Res (Nat → Nat) := do
  let st ← fps F n1 F.npt orders st                                          -- line 1155
  let perm := st.idx
  let flag : Nat → Bool := (List.range n1).foldl (fun f i => Function.update f (perm i) true) (fun _ => false)   -- lines 1156-1157
  let r ← (List.range F.npt).foldl (appendRest F.npt flag) (.ok (perm, n1))  -- lines 1158-1160
  .ok r.1

end H2Pack.AFN
