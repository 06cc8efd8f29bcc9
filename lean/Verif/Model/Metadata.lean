import Verif.Model.CSR
import Verif.Model.Utils
import Verif.Model.MatvecJIT

/-!
# Generator and dense block storage (src/H2Pack_build.c:652-1130, src/H2Pack_utils.c:330-448)

Sizes and offsets are natural numbers (no overflow).  Allocation failures are not modelled.  The statistics
`mat_size`, `JIT_flops` are left out except the total sizes.
-/

namespace H2Pack.MV
open H2Pack.Part (Arr kids)

section
variable {K : Type} [CommRing K]

/-- The arrays filled by the metadata loops: `nrow`, `ncol` (`B_nrow` ...), `sz i` (`B_ptr[i+1]` before the prefix
sum), `total` (`B_total_size`), `cnt` (`B_pair_cnt`), `pi`, `pj`, `pv` (`B_pair_i` ...), `nAdm` (`node_n_r_adm`). -/
structure MetaSt where
  nrow : Nat → Nat
  ncol : Nat → Nat
  sz : Nat → Nat
  total : Nat
  cnt : Nat
  pi : Nat → Nat
  pj : Nat → Int
  pv : Nat → Int
  nAdm : Nat → Nat

/-- `B_pair_i[B_pair_cnt] = a; B_pair_j[B_pair_cnt] = b; B_pair_v[B_pair_cnt] = v; B_pair_cnt++`. -/
def MetaSt.push (s : MetaSt) (a b : Nat) (v : Int) : MetaSt :=
  { s with pi := Function.update s.pi s.cnt a, pj := Function.update s.pj s.cnt (b : Int)
           pv := Function.update s.pv s.cnt v, cnt := s.cnt + 1 }

/-- `nrow[i] = r; ncol[i] = c; ptr[i+1] = r*c; total += r*c`. -/
def MetaSt.size (s : MetaSt) (i r c : Nat) : MetaSt :=
  { s with nrow := Function.update s.nrow i r, ncol := Function.update s.ncol i c
           sz := Function.update s.sz i (r * c), total := s.total + r * c }

/-- `node_n_r_adm[v]++`. -/
def MetaSt.count (s : MetaSt) (v : Nat) : MetaSt := { s with nAdm := Function.update s.nAdm v (s.nAdm v + 1) }

/-- Contents of the arrays before the loops (`node_n_r_adm` is cleared, the others are freshly allocated). -/
def MetaSt.init : MetaSt := ⟨fun _ => 0, fun _ => 0, fun _ => 0, 0, 0, fun _ => 0, fun _ => 0, fun _ => 0, fun _ => 0⟩

/-- src/H2Pack_build.c:706-758: one admissible pair; `ew` is `is_RPY_Ewald`. -/
def bMetaStep (J : JIT K) (ew : Bool) (s : MetaSt) (i : Nat) : MetaSt :=
  let n0 := (J.R.adm.getD i (0, 0)).1
  let n1 := (J.R.adm.getD i (0, 0)).2
  let l0 := J.R.arr.level n0
  let l1 := J.R.arr.level n1
  let s := s.count n0                                                                  -- line 712
  let s := if ew then s else s.count n1                                                -- line 713
  let p : Nat × Nat := (0, 0)                                                          -- line 714
  let p := if l0 = l1 then (J.jn n0, J.jn n1) else p                                   -- lines 715-719
  let p := if l0 > l1 then (J.jn n0, J.npt n1) else p                                  -- lines 720-726
  let p := if l0 < l1 then (J.npt n0, J.jn n1) else p                                  -- lines 727-733
  let s := s.size i (p.1 * J.R.kdim) (p.2 * J.R.kdim)                                  -- lines 734-739
  let s := s.push n0 n1 (i + 1)                                                        -- lines 740-743
  if ew then s else s.push n1 n0 (-(i + 1))                                            -- lines 744-750

/-- src/H2Pack_build.c:766: `for (i = 1; i <= n; i++) B_ptr[i] += B_ptr[i - 1]`, with `B_ptr[0] = 0`. -/
def prefixPtr (n : Nat) (sz : Nat → Nat) : Nat → Nat :=
  (List.range' 1 n).foldl (fun p i => Function.update p i (p i + p (i - 1))) (fun i => if i = 0 then 0 else sz (i - 1))

/-- The result of the metadata functions. -/
structure Meta where
  nrow : Nat → Nat
  ncol : Nat → Nat
  ptr : Nat → Nat
  total : Nat
  nblk : Nat
  blk : Nat → Nat
  nblk1 : Nat
  blk1 : Nat → Nat
  csr : H2Pack.CSR.Mat
  nAdm : Nat → Nat

/-- What is not determined by the inputs: previous capacities of the block vectors, contents of the new index arrays
and order of the row sorts. -/
structure MetaEnv where
  nTask : Nat
  cap0 : Nat
  cap1 : Nat
  col0 : Nat → Int
  val0 : Nat → Int
  order : List Nat

/-- src/H2Pack_build.c:652-783 `H2P_generate_B_metadata`; `nTask` is `n_thread * BD_ntask_thread`. -/
def generateB (J : JIT K) (ew : Bool) (E : MetaEnv) (fuel : Nat) : Res Meta := do
  let s := (List.range J.R.adm.length).foldl (bMetaStep J ew) MetaSt.init
  let b ← H2Pack.Utils.partitionWorkload J.R.adm.length s.sz s.total E.nTask E.cap0   -- line 765
  let ptr := prefixPtr J.R.adm.length s.sz                                             -- line 766
  let csr ← H2Pack.CSR.cooToCSR ⟨J.R.arr.nNode, s.cnt, s.pi, s.pj, s.pv⟩ E.col0 E.val0 E.order fuel
  .ok ⟨s.nrow, s.ncol, ptr, s.total, b.1 - 1, b.2, 0, fun _ => 0, csr, s.nAdm⟩

/-- src/H2Pack_build.c:939-961: one leaf. -/
def dMetaLeaf (J : JIT K) (s : MetaSt) (i : Nat) : MetaSt :=
  let v := J.R.leaf i
  let s := s.size i (J.npt v * J.R.kdim) (J.npt v * J.R.kdim)
  s.push v v (i + 1)

/-- src/H2Pack_build.c:963-996: one inadmissible pair. -/
def dMetaPair (J : JIT K) (ew : Bool) (s : MetaSt) (i : Nat) : MetaSt :=
  let ii := i + J.R.arr.nLeaf
  let n0 := (J.R.inadm.getD i (0, 0)).1
  let n1 := (J.R.inadm.getD i (0, 0)).2
  let s := s.size ii (J.npt n0 * J.R.kdim) (J.npt n1 * J.R.kdim)
  let s := s.push n0 n1 (ii + 1)
  if ew then s else s.push n1 n0 (-(ii + 1))

/-- src/H2Pack_build.c:896-1020 `H2P_generate_D_metadata`. -/
def generateD (J : JIT K) (ew : Bool) (E : MetaEnv) (fuel : Nat) : Res Meta := do
  let nl := J.R.arr.nLeaf
  let s0 := (List.range nl).foldl (dMetaLeaf J) MetaSt.init
  let s := (List.range J.R.inadm.length).foldl (dMetaPair J ew) { s0 with total := 0 }
  let b0 ← H2Pack.Utils.partitionWorkload nl s.sz s0.total E.nTask E.cap0
  let b1 ← H2Pack.Utils.partitionWorkload J.R.inadm.length (fun i => s.sz (nl + i)) s.total E.nTask E.cap1
  let ptr := prefixPtr (nl + J.R.inadm.length) s.sz
  let csr ← H2Pack.CSR.cooToCSR ⟨J.R.arr.nNode, s.cnt, s.pi, s.pj, s.pv⟩ E.col0 E.val0 E.order fuel
  .ok ⟨s.nrow, s.ncol, ptr, s0.total + s.total, b0.1 - 1, b0.2, b1.1 - 1, b1.2, csr, s.nAdm⟩

/-! ## Filling the storage (AOT mode) -/

/-- `krnl_eval(c0, ld0, n0, c1, ld1, n1, param, data + base, ldm)`: contract of src/H2Pack_typedef.h:12-28. -/
def evalAt (J : JIT K) (p q : (Nat → K) × Nat × Nat) (base ldm : Nat) (data : Nat → K) : Nat → K := fun k =>
  if base ≤ k ∧ (k - base) / ldm < p.2.2 * J.R.kdim ∧ (k - base) % ldm < q.2.2 * J.R.kdim then
    (J.block p q).e ((k - base) / ldm) ((k - base) % ldm) else data k

/-- src/H2Pack_build.c:827-871: block `i` of `H2P_build_B_AOT`. -/
def buildB1 (J : JIT K) (M : Meta) (data : Nat → K) (i : Nat) : Nat → K :=
  let n0 := (J.R.adm.getD i (0, 0)).1
  let n1 := (J.R.adm.getD i (0, 0)).2
  let l0 := J.R.arr.level n0
  let l1 := J.R.arr.level n1
  let data := if l0 = l1 then evalAt J (J.jPts n0) (J.jPts n1) (M.ptr i) (J.jn n1 * J.R.kdim) data else data
  let data := if l0 > l1 then evalAt J (J.jPts n0) (J.cPts n1) (M.ptr i) (J.npt n1 * J.R.kdim) data else data
  if l0 < l1 then evalAt J (J.cPts n0) (J.jPts n1) (M.ptr i) (J.jn n1 * J.R.kdim) data else data

/-- src/H2Pack_build.c:1078-1090 (`i < n_leaf_node`) and 1104-1121: block `i` of `H2P_build_D_AOT`. -/
def buildD1 (J : JIT K) (M : Meta) (data : Nat → K) (i : Nat) : Nat → K :=
  if i < J.R.arr.nLeaf then
    let v := J.R.leaf i
    evalAt J (J.cPts v) (J.cPts v) (M.ptr i) (J.npt v * J.R.kdim) data
  else
    let n0 := (J.R.inadm.getD (i - J.R.arr.nLeaf) (0, 0)).1
    let n1 := (J.R.inadm.getD (i - J.R.arr.nLeaf) (0, 0)).2
    evalAt J (J.cPts n0) (J.cPts n1) (M.ptr i) (J.npt n1 * J.R.kdim) data

/-- src/H2Pack_build.c:818-826: the works of thread `tid` (a thread handles the block with its own number). -/
def ownBlocks (nblk : Nat) (blk : Nat → Nat) (tid : Nat) : List Nat :=
  let s := if tid ≥ nblk then 0 else blk tid
  let e := if tid ≥ nblk then 0 else blk (tid + 1)
  List.range' s (e - s)

/-- The works of thread `tid` in `H2P_build_B_AOT` and in `H2P_build_D_AOT` (lines 1066-1123). -/
def worksB (M : Meta) (tid : Nat) : List Nat := ownBlocks M.nblk M.blk tid
def worksD (nLeaf : Nat) (M : Meta) (tid : Nat) : List Nat :=
  ownBlocks M.nblk M.blk tid ++ (ownBlocks M.nblk1 M.blk1 tid).map (nLeaf + ·)

/-- Execution of the works in the order `w` (an interleaving of the works of the threads). -/
def runB (J : JIT K) (M : Meta) (w : List Nat) (data0 : Nat → K) : Nat → K := w.foldl (buildB1 J M) data0
def runD (J : JIT K) (M : Meta) (w : List Nat) (data0 : Nat → K) : Nat → K := w.foldl (buildD1 J M) data0

/-! ## Reading a block back -/

/-- A dense matrix as returned by the functions below: sizes, (signed) leading dimension, data. -/
structure Blk (K : Type) where
  nrow : Nat
  ncol : Nat
  ld : Int
  data : Nat → K

/-- src/utils.c:92-121 `copy_matrix`: rows are copied one after the other. -/
def copyMatrix (nrow ncol : Nat) (src : Nat → K) (lds : Nat) (dst : Nat → K) (ldd : Nat) : Nat → K :=
  (List.range nrow).foldl (fun d r k => if r * ldd ≤ k ∧ k < r * ldd + ncol then src (r * lds + (k - r * ldd)) else d k) dst

/-- src/H2Pack_utils.c:330-399 `H2P_get_Bij_block`; `none`: the error message of line 340, nothing is changed.  `data` is
`B_data` (used when `jit` is false), `dst` the previous contents of the buffer of `Bij`. -/
def getBij (J : JIT K) (M : Meta) (jit : Bool) (data : Nat → K) (dst : Nat → K) (n0 n1 : Nat) : Option (Blk K) :=
  let idx := H2Pack.CSR.getElem M.csr n0 (n1 : Int)
  if idx = 0 then none
  else
    let trans := decide (idx < 0)
    let a := if idx < 0 then n1 else n0
    let b := if idx < 0 then n0 else n1
    let i := ((if idx < 0 then -idx else idx) - 1).toNat
    let nrow := M.nrow i
    let ncol := M.ncol i
    let l0 := J.R.arr.level a
    let l1 := J.R.arr.level b
    let out :=
      if jit = false then copyMatrix nrow ncol (fun k => data (M.ptr i + k)) ncol dst ncol
      else
        let d := dst
        let d := if l0 = l1 then evalAt J (J.jPts a) (J.jPts b) 0 (J.jn b * J.R.kdim) d else d
        let d := if l0 > l1 then evalAt J (J.jPts a) (J.cPts b) 0 (J.npt b * J.R.kdim) d else d
        if l0 < l1 then evalAt J (J.cPts a) (J.jPts b) 0 (J.jn b * J.R.kdim) d else d
    some ⟨nrow, ncol, if trans then -(ncol : Int) else ncol, out⟩

/-- src/H2Pack_utils.c:402-448 `H2P_get_Dij_block`. -/
def getDij (J : JIT K) (M : Meta) (jit : Bool) (data : Nat → K) (dst : Nat → K) (n0 n1 : Nat) : Option (Blk K) :=
  let idx := H2Pack.CSR.getElem M.csr n0 (n1 : Int)
  if idx = 0 then none
  else
    let trans := decide (idx < 0)
    let a := if idx < 0 then n1 else n0
    let b := if idx < 0 then n0 else n1
    let i := ((if idx < 0 then -idx else idx) - 1).toNat
    let nrow := M.nrow i
    let ncol := M.ncol i
    let out :=
      if jit = false then copyMatrix nrow ncol (fun k => data (M.ptr i + k)) ncol dst ncol
      else evalAt J (J.cPts a) (J.cPts b) 0 (J.npt b * J.R.kdim) dst
    some ⟨nrow, ncol, if trans then -(ncol : Int) else ncol, out⟩

end

end H2Pack.MV
