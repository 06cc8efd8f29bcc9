import Verif.Model.MatvecPer
import Verif.Model.Matmul

/-!
# Periodic H2 matmul (src/H2Pack_matmul_periodic.c)

Conventions of `Model/Matmul.lean` and `Model/MatvecPer.lean`.  The blocks are evaluated with `krnl_eval` into a thread buffer with leading
dimension `Bij_ncol` (`Dij_ncol`); `JIT.junkM id` are its contents before it is used for block `id`.
-/

namespace H2Pack.MV
namespace Per

section
variable {K : Type} [CommRing K]
variable (P : Per K)

/-- What the matrix and the input do not determine: `MMEnv` (its block buffers and stale blocks are not used), and the contents of `y1[root]`
after resizing. -/
structure PMEnv (K : Type) where
  E : MMEnv K
  junkR : Nat → K

/-- src/H2Pack_matmul_periodic.c:66-149: one entry `(node1, pair_idx + 1)` of row `n0` of the index matrix. -/
def mmPair (M : Meta) (V : View) (nv : Nat) (x : Nat → K) (y0 : Y0 K) (n0 : Nat) (s : MMSt K) (ent : Int × Int) : MMSt K :=
  let J := P.J
  let R := J.R
  let n1 := ent.1.toNat
  let i := (ent.2 - 1).toNat
  let l0 := R.arr.level n0
  let l1 := R.arr.level n1
  let shift := P.shiftOf P.admShift i                                                           -- lines 72-73
  let nrow := M.nrow i
  let ncol := M.ncol i
  let s := if l0 = l1 then                                                                      -- line 80
      let mat := evalAt J (J.jPts n0) (P.shifted (J.jPts n1) shift (P.junkC i)) 0 ncol (J.junkM i)
      { s with y1 := Function.update s.y1 n0 (
          gemm nrow nv ncol (opAt false ncol mat) (opAt false nv (y0 n1).2) true (s.y1 n0) 0 nv) } else s
  let s := if l0 > l1 then                                                                      -- line 97
      let mat := evalAt J (J.jPts n0) (P.shifted (J.cPts n1) shift (P.junkC i)) 0 ncol (J.junkM i)
      { s with y1 := Function.update s.y1 n0 (
          gemm nrow nv ncol (opAt false ncol mat) (opAt V.tr V.ld (fun k => x (R.rowS n1 * V.stride + k))) true (s.y1 n0) 0 nv) } else s
  if l0 < l1 then                                                                               -- line 121
    let mat := evalAt J (J.cPts n0) (P.shifted (J.jPts n1) shift (P.junkC i)) 0 ncol (J.junkM i)
    { s with y := rowsAdd V nv (R.rowS n0) nrow ncol ncol false mat (opAt false nv (y0 n1).2) (opAt true nv (y0 n1).2) s.y } else s

/-- src/H2Pack_matmul_periodic.c:57-150: one iteration of the `node0` loop. -/
def mmIntmdNode (M : Meta) (E : MMEnv K) (V : View) (nv : Nat) (x : Nat → K) (y0 : Y0 K) (s : MMSt K) (n0 : Nat) : MMSt K :=
  let len := if P.J.R.mark n0 ≠ 0 then (P.J.R.U n0).ncol * nv else E.hdr1 n0
  let s := { s with y1 := Function.update s.y1 n0 (fun k => if k < len then 0 else s.y1 n0 k) }  -- line 62
  (csrRow M n0).foldl (P.mmPair M V nv x y0 n0) s

/-- src/H2Pack_matmul_periodic.c:191-240: one entry of row `n0` of the index matrix of the dense blocks. -/
def mmDensePair (M : Meta) (V : View) (nv : Nat) (x : Nat → K) (n0 : Nat) (y : Nat → K) (ent : Int × Int) : Nat → K :=
  let J := P.J
  let R := J.R
  let n1 := ent.1.toNat
  let i := (ent.2 - 1).toNat
  let xs := fun k => x (R.rowS n1 * V.stride + k)                                               -- line 203
  let shift : Nat → K := if i < R.arr.nLeaf then fun _ => 0 else P.shiftOf P.inadmShift (i - R.arr.nLeaf)   -- lines 209-217
  let mat := evalAt J (J.cPts n0) (P.shifted (J.cPts n1) shift (P.junkC (R.adm.length + i))) 0 (M.ncol i) (J.junkM (R.adm.length + i))
  rowsAdd V nv (R.rowS n0) (M.nrow i) (M.ncol i) (M.ncol i) false mat (opAt false V.ld xs) (opAt false V.ld xs) y

/-- src/H2Pack_matmul_periodic.c:343-354: `y1[root]` is resized and becomes the product of the root block and `y0[root]`. -/
def mmRoot (PE : PMEnv K) (nv : Nat) (y0 : Y0 K) (s : MMSt K) : MMSt K :=
  { s with y1 := Function.update s.y1 P.root (
      gemm P.blkSize nv P.blkSize (opAt false P.blkSize P.perBlk) (opAt false nv (y0 P.root).2) false PE.junkR 0 nv) }

/-- src/H2Pack_matmul_periodic.c:327-375: steps 3 to 6 for one block of columns.  -/
def mmCore (MB MD : Meta) (PE : PMEnv K) (V : View) (nv : Nat) (px py : Nat → K) : Nat → K :=
  let R := P.J.R
  let y0 := mmFwd R PE.E V nv px                                                                -- line 329
  let s := PE.E.ordB.foldl (P.mmIntmdNode MB PE.E V nv px y0) ⟨PE.E.junk1, py⟩                   -- line 338
  let s := P.mmRoot PE nv y0 s
  let s := mmBwd R PE.E V nv ⟨Function.update (mmLd R nv) P.root nv, s.y1, s.y⟩                  -- line 360
  PE.E.ordD.foldl (fun y n0 => (csrRow MD n0).foldl (P.mmDensePair MD V nv px n0) y) s.y         -- line 369

/-- src/H2Pack_matmul_periodic.c:246-386 `H2P_matmul_periodic`; `PE i` is the environment for the block of columns that starts at
column `i`.  Undefined behaviour: the array `shift[8]` is too short (every system has dense blocks, for which `H2P_shift_coord` reads `xpt_dim` entries). -/
def matmul (MB MD : Meta) (PE : Nat → PMEnv K) (g : (Nat → Nat) × (Nat → Nat)) (gx gy : Nat → Nat → K) (col : Bool) (mm nvec : Nat)
    (X : Nat → K) (ldx : Nat) (Y : Nat → K) (ldy fuel : Nat) : Res (Nat → K) :=
  if 0 < nvec ∧ (8 < P.J.xdim ∨ 8 < P.pdim) then .ub
  else mmLoop P.J.R (fun i => P.mmCore MB MD (PE i)) (pmtIdx P.J.R g).1 (pmtIdx P.J.R g).2 gx gy col mm nvec X ldx ldy fuel 0 Y

end
end Per
end H2Pack.MV
