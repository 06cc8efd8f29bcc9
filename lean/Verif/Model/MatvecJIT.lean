import Verif.Model.Base
import Verif.Model.Matvec
import Verif.Model.Utils

/-!
# H2 matvec with generator blocks evaluated on the fly (src/H2Pack_matvec.c:438-765, 1003-1143, 1162-1285)

The user's kernel routines are parameters: `kern p q a b` is entry `(a, b)` of the `krnl_dim`-by-`krnl_dim` block of the
points `p`, `q`.  `krnl_eval` fills a matrix with these entries; `krnl_bimv` is an arbitrary function that meets the
contract of src/H2Pack_typedef.h:55-88 (`BimvSpec`).  Coordinates are stored by columns (`coord[d*ld+i]`).
-/

namespace H2Pack.MV
open H2Pack.Part (Arr kids)

section
variable {K : Type} [CommRing K]

/-- Point number `i` of a coordinate array with leading dimension `ld`. -/
def point (xdim : Nat) (c : Nat → K) (ld i : Nat) : Nat → K := fun d => if d < xdim then c (d * ld + i) else 0

/-- The kernel matrix of two point sets; row `i*kd+a` is component `a` of point `i`. -/
def kmat (kern : (Nat → K) → (Nat → K) → Nat → Nat → K) (kd : Nat) (p0 p1 : Nat → Nat → K) (r c : Nat) : K :=
  kern (p0 (r / kd)) (p1 (c / kd)) (r % kd) (c % kd)

/-! ## Bi-matvec with a matrix held in memory (the output may overlap the matrix) -/

variable {ι : Type} [DecidableEq ι]

/-- src/H2Pack_matvec.c:32-49 with the matrix read from memory cells `am (i*ld+j)`. -/
def biRow2M (ncol : Nat) (am : Nat → ι) (x0 x1 : Nat → K) (a0 a1 : Nat → ι) (mem : ι → K) (i : Nat) : ι → K :=
  let x1i0 := x1 (i + 0)
  let x1i1 := x1 (i + 1)
  let r := (List.range ncol).foldl (fun (s : K × K × (ι → K)) j =>
    let x0j := x0 j
    let sum0 := s.1 + s.2.2 (am ((i + 0) * ncol + j)) * x0j
    let sum1 := s.2.1 + s.2.2 (am ((i + 1) * ncol + j)) * x0j
    let tmp := x1i0 * s.2.2 (am ((i + 0) * ncol + j))
    let tmp := tmp + x1i1 * s.2.2 (am ((i + 1) * ncol + j))
    (sum0, sum1, addAt s.2.2 (a1 j) tmp)) (0, 0, mem)
  addAt (addAt r.2.2 (a0 (i + 0)) r.1) (a0 (i + 1)) r.2.1

/-- src/H2Pack_matvec.c:52-62. -/
def biRow1M (ncol : Nat) (am : Nat → ι) (x0 x1 : Nat → K) (a0 a1 : Nat → ι) (mem : ι → K) (i : Nat) : ι → K :=
  let x1i := x1 i
  let r := (List.range ncol).foldl (fun (s : K × (ι → K)) j =>
    (s.1 + s.2 (am (i * ncol + j)) * x0 j, addAt s.2 (a1 j) (x1i * s.2 (am (i * ncol + j))))) (0, mem)
  addAt r.2 (a0 i) r.1

/-- src/H2Pack_matvec.c:25-63 `CBLAS_BI_GEMV`, leading dimension = number of columns (all calls here). -/
def biGemvM (nrow ncol : Nat) (am : Nat → ι) (x0 x1 : Nat → K) (a0 a1 : Nat → ι) (mem : ι → K) : ι → K :=
  let mem := (List.range (nrow / 2)).foldl (fun mem t => biRow2M ncol am x0 x1 a0 a1 mem (2 * t)) mem
  (List.range (nrow - nrow / 2 * 2)).foldl (fun mem t => biRow1M ncol am x0 x1 a0 a1 mem (nrow / 2 * 2 + t)) mem

/-- `krnl_eval(c0, ld0, n0, c1, ld1, n1, param, mat, n1*kd)` into the buffer cells `Sum.inr k`; contract of
src/H2Pack_typedef.h:12-28. -/
def krnlEval (kern : (Nat → K) → (Nat → K) → Nat → Nat → K) (kd n0 n1 : Nat) (p0 p1 : Nat → Nat → K) (mem : ι ⊕ Nat → K) : ι ⊕ Nat → K
  | .inl l => mem (.inl l)
  | .inr k => if k < n0 * kd * (n1 * kd) then kmat kern kd p0 p1 (k / (n1 * kd)) (k % (n1 * kd)) else mem (.inr k)

/-- src/H2Pack_matvec.c:558-583 `H2P_krnl_eval_bimv`: the loop from `blk_pt_s = s` on. -/
def evalBimv (kern : (Nat → K) → (Nat → K) → Nat → Nat → K) (kd n0 n1 blk : Nat) (p0 p1 : Nat → Nat → K) (x0 x1 : Nat → K)
    (a0 a1 : Nat → ι ⊕ Nat) : Nat → Nat → (ι ⊕ Nat → K) → Res (ι ⊕ Nat → K)
  | 0, _, _ => .diverge
  | fuel + 1, s, mem =>
    if s < n0 then
      let npt := if s + blk > n0 then n0 - s else blk                                          -- line 569
      let mem := krnlEval kern kd npt n1 (fun i => p0 (s + i)) p1 mem                          -- lines 572-575
      let mem := biGemvM (npt * kd) (n1 * kd) Sum.inr x0 (fun k => x1 (s * kd + k))            -- lines 576-580
        (fun k => a0 (s * kd + k)) a1 mem
      evalBimv kern kd n0 n1 blk p0 p1 x0 x1 a0 a1 fuel (s + blk) mem
    else .ok mem

/-! ## Kernel bi-matvec with padding -/

/-- A `krnl_bimv` routine on one flat buffer: numbers of points, offsets of the two coordinate arrays, of the two
inputs and the two outputs. -/
abbrev Bimv (K : Type) := (n0 n1 oT oS oX0 oX1 oY0 oY1 : Nat) → (Nat → K) → (Nat → K)

/-- Contract of `kernel_bimv_fptr` (src/H2Pack_typedef.h:55-88).  It is required only when the numbers of points are
multiples of `SIMD_LEN` and no output overlaps anything else. -/
def BimvSpec (simd xdim kd : Nat) (kern : (Nat → K) → (Nat → K) → Nat → Nat → K) (f : Bimv K) : Prop :=
  ∀ n0 n1 oT oS oX0 oX1 oY0 oY1 w, simd ∣ n0 → simd ∣ n1 →
    oT + xdim * n0 ≤ oS → oS + xdim * n1 ≤ oX0 → oX0 + n1 * kd ≤ oX1 → oX1 + n0 * kd ≤ oY0 → oY0 + n0 * kd ≤ oY1 →
    (∀ a < kd, ∀ i < n0, f n0 n1 oT oS oX0 oX1 oY0 oY1 w (oY0 + (a * n0 + i)) = w (oY0 + (a * n0 + i)) +
      ∑ b ∈ Finset.range kd, ∑ j ∈ Finset.range n1,
        kern (point xdim (fun k => w (oT + k)) n0 i) (point xdim (fun k => w (oS + k)) n1 j) a b * w (oX0 + (b * n1 + j))) ∧
    (∀ b < kd, ∀ j < n1, f n0 n1 oT oS oX0 oX1 oY0 oY1 w (oY1 + (b * n1 + j)) = w (oY1 + (b * n1 + j)) +
      ∑ a ∈ Finset.range kd, ∑ i ∈ Finset.range n0,
        kern (point xdim (fun k => w (oT + k)) n0 i) (point xdim (fun k => w (oS + k)) n1 j) a b * w (oX1 + (a * n0 + i)))

/-- src/H2Pack_matvec.c:472: rounding up to a multiple of `SIMD_LEN`. -/
def extend (simd n : Nat) : Nat := (n + simd - 1) / simd * simd

/-- `memcpy(dst, src, n)` followed by the loop that fills `dst[n..next)` with zeros (lines 490-495, 505-506). -/
def copyPad (dst n next : Nat) (src : Nat → K) (w : Nat → K) : Nat → K := fun k =>
  if dst ≤ k ∧ k < dst + n then src (k - dst) else if dst + n ≤ k ∧ k < dst + next then 0 else w k

/-- `memset(dst, 0, n)`. -/
def fillZero (dst n : Nat) (w : Nat → K) : Nat → K := fun k => if dst ≤ k ∧ k < dst + n then 0 else w k

/-- src/H2Pack_matvec.c:472-517: the work buffer before the kernel is called. -/
def extBuf (simd xdim kd : Nat) (c0 : Nat → K) (ld0 n0 : Nat) (c1 : Nat → K) (ld1 n1 : Nat)
    (x0 x1 : Nat → K) (ldi0 ldi1 : Nat) (w : Nat → K) : Nat → K :=
  let n0e := extend simd n0
  let n1e := extend simd n1
  let oT := 0
  let oS := oT + xdim * n0e                                                                    -- line 478
  let oX0 := oS + xdim * n1e                                                                   -- line 479
  let oX1 := oX0 + n1e * kd                                                                    -- line 480
  let oY0 := oX1 + n0e * kd                                                                    -- line 481
  let oY1 := oY0 + n0e * kd                                                                    -- line 482
  let w := (List.range xdim).foldl (fun w i =>                                                 -- lines 485-496
    copyPad (oS + i * n1e) n1 n1e (fun k => c1 (i * ld1 + k))
      (copyPad (oT + i * n0e) n0 n0e (fun k => c0 (i * ld0 + k)) w)) w
  let w := (List.range kd).foldl (fun w i => copyPad (oX0 + i * n1e) n1 n1e (fun k => x0 (i * ldi0 + k)) w) w
  let w := fillZero oY0 (n0e * kd) w                                                           -- line 508
  let w := (List.range kd).foldl (fun w i => copyPad (oX1 + i * n0e) n0 n0e (fun k => x1 (i * ldi1 + k)) w) w
  fillZero oY1 (n1e * kd) w                                                                    -- line 516

/-- src/H2Pack_matvec.c:463-540 `H2P_ext_krnl_bimv`; `a0`, `a1` are the addresses of `x_out_0[·]`, `x_out_1[·]`, `w` the
contents of `workbuf`. -/
def extBimv (simd xdim kd : Nat) (f : Bimv K) (c0 : Nat → K) (ld0 n0 : Nat) (c1 : Nat → K) (ld1 n1 : Nat)
    (x0 x1 : Nat → K) (a0 a1 : Nat → ι) (ldi0 ldi1 ldo0 ldo1 : Nat) (w : Nat → K) (mem : ι → K) : ι → K :=
  let n0e := extend simd n0
  let n1e := extend simd n1
  let oS := 0 + xdim * n0e
  let oX0 := oS + xdim * n1e
  let oX1 := oX0 + n1e * kd
  let oY0 := oX1 + n0e * kd
  let oY1 := oY0 + n0e * kd
  let w := extBuf simd xdim kd c0 ld0 n0 c1 ld1 n1 x0 x1 ldi0 ldi1 w
  let w := f n0e n1e 0 oS oX0 oX1 oY0 oY1 w                                                    -- lines 519-523
  let mem := (List.range kd).foldl (fun mem i => (List.range n0).foldl (fun mem j =>           -- lines 526-532
    addAt mem (a0 (i * ldo0 + j)) (w (oY0 + i * n0e + j))) mem) mem
  (List.range kd).foldl (fun mem i => (List.range n1).foldl (fun mem j =>                      -- lines 533-539
    addAt mem (a1 (i * ldo1 + j)) (w (oY1 + i * n1e + j))) mem) mem

/-- src/H2Pack_matvec_periodic.c:37-98 `H2P_ext_krnl_mv`: the buffer (padding coordinates are `pad`). -/
abbrev KMv (K : Type) := (n0 n1 oT oS oX oY : Nat) → (Nat → K) → (Nat → K)

/-- Contract of `kernel_mv_fptr` (src/H2Pack_typedef.h:30-53). -/
def MvSpec (simd xdim kd : Nat) (kern : (Nat → K) → (Nat → K) → Nat → Nat → K) (f : KMv K) : Prop :=
  ∀ n0 n1 oT oS oX oY w, simd ∣ n0 → simd ∣ n1 →
    oT + xdim * n0 ≤ oS → oS + xdim * n1 ≤ oX → oX + n1 * kd ≤ oY →
    ∀ a < kd, ∀ i < n0, f n0 n1 oT oS oX oY w (oY + (a * n0 + i)) = w (oY + (a * n0 + i)) +
      ∑ b ∈ Finset.range kd, ∑ j ∈ Finset.range n1,
        kern (point xdim (fun k => w (oT + k)) n0 i) (point xdim (fun k => w (oS + k)) n1 j) a b * w (oX + (b * n1 + j))

/-- `memcpy` and padding with the value `pad` (src/H2Pack_matvec_periodic.c:63-68). -/
def copyPadV (pad : K) (dst n next : Nat) (src : Nat → K) (w : Nat → K) : Nat → K := fun k =>
  if dst ≤ k ∧ k < dst + n then src (k - dst) else if dst + n ≤ k ∧ k < dst + next then pad else w k

/-- src/H2Pack_matvec_periodic.c:45-82. -/
def extBufMv (simd xdim kd : Nat) (pad : K) (c0 : Nat → K) (ld0 n0 : Nat) (c1 : Nat → K) (ld1 n1 : Nat)
    (x : Nat → K) (ldi : Nat) (w : Nat → K) : Nat → K :=
  let n0e := extend simd n0
  let n1e := extend simd n1
  let oS := 0 + xdim * n0e
  let oX := oS + xdim * n1e
  let oY := oX + n1e * kd
  let w := (List.range xdim).foldl (fun w i =>
    copyPadV pad (oS + i * n1e) n1 n1e (fun k => c1 (i * ld1 + k))
      (copyPadV pad (0 + i * n0e) n0 n0e (fun k => c0 (i * ld0 + k)) w)) w
  let w := (List.range kd).foldl (fun w i => copyPad (oX + i * n1e) n1 n1e (fun k => x (i * ldi + k)) w) w
  fillZero oY (n0e * kd) w

/-- src/H2Pack_matvec_periodic.c:37-98 `H2P_ext_krnl_mv`; `pad` is `1e100`. -/
def extMv (simd xdim kd : Nat) (pad : K) (f : KMv K) (c0 : Nat → K) (ld0 n0 : Nat) (c1 : Nat → K) (ld1 n1 : Nat)
    (x : Nat → K) (ldi : Nat) (a : Nat → ι) (ldo : Nat) (w : Nat → K) (mem : ι → K) : ι → K :=
  let n0e := extend simd n0
  let n1e := extend simd n1
  let oS := 0 + xdim * n0e
  let oX := oS + xdim * n1e
  let oY := oX + n1e * kd
  let w := extBufMv simd xdim kd pad c0 ld0 n0 c1 ld1 n1 x ldi w
  let w := f n0e n1e 0 oS oX oY w
  (List.range kd).foldl (fun mem i => (List.range n0).foldl (fun mem j =>
    addAt mem (a (i * ldo + j)) (w (oY + i * n0e + j))) mem) mem

/-! ## The JIT matvec -/

/-- What the JIT mode uses besides the representation: kernel, coordinates in the tree order (leading dimension
`n_point`), skeleton points of every node (`J_coord[v]`, leading dimension = number of points), and the contents of
the thread buffers `mat0`, `mat1` before they are used for block `i`. -/
structure JIT (K : Type) where
  R : Rep K
  simd : Nat
  xdim : Nat
  kern : (Nat → K) → (Nat → K) → Nat → Nat → K
  bimv : Option (Bimv K)
  coord : Nat → K
  jn : Nat → Nat
  jc : Nat → Nat → K
  junkM : Nat → Nat → K
  junkW : Nat → Nat → K

namespace JIT
variable (J : JIT K)

/-- Number of points of node `v`. -/
def npt (v : Nat) : Nat := J.R.arr.ptE v - J.R.arr.ptS v + 1

/-- Coordinates of a node: array, leading dimension, number of points. -/
def cPts (v : Nat) : (Nat → K) × Nat × Nat := (fun k => J.coord (J.R.arr.ptS v + k), J.R.nPoint, J.npt v)
def jPts (v : Nat) : (Nat → K) × Nat × Nat := (J.jc v, J.jn v, J.jn v)

/-- The points on the side of `v` in the pair `v`, `w`: skeleton points, or all points of `v` when `v` is on a
higher level. -/
def sidePts (v w : Nat) : (Nat → K) × Nat × Nat := if J.R.arr.level w ≤ J.R.arr.level v then J.jPts v else J.cPts v

/-- The kernel matrix of two point sets as a block. -/
def block (p q : (Nat → K) × Nat × Nat) : Mat K :=
  ⟨p.2.2 * J.R.kdim, q.2.2 * J.R.kdim, kmat J.kern J.R.kdim (point J.xdim p.1 p.2.1) (point J.xdim q.1 q.2.1)⟩

/-- The representation with stored blocks (src/H2Pack_build.c:776-1010: `H2P_build_B_AOT`, `H2P_build_D_AOT` evaluate
the kernel on the same points). -/
def aot : Rep K := { J.R with
  B := fun i => J.block (J.sidePts (J.R.adm.getD i (0, 0)).1 (J.R.adm.getD i (0, 0)).2) (J.sidePts (J.R.adm.getD i (0, 0)).2 (J.R.adm.getD i (0, 0)).1)
  D := fun i => if i < J.R.arr.nLeaf then J.block (J.cPts (J.R.leaf i)) (J.cPts (J.R.leaf i))
    else J.block (J.cPts (J.R.inadm.getD (i - J.R.arr.nLeaf) (0, 0)).1) (J.cPts (J.R.inadm.getD (i - J.R.arr.nLeaf) (0, 0)).2) }

/-- `mat0` and the memory. -/
def lift (mem : Loc → K) (buf : Nat → K) : Loc ⊕ Nat → K := Sum.elim mem buf

/-- The call of `H2P_ext_krnl_bimv` or `H2P_krnl_eval_bimv` for one block with `ncol` columns: `p`, `q` the points; inputs
and output addresses of the two variants. -/
def call (fuel junk ncol : Nat) (p q : (Nat → K) × Nat × Nat) (xb0 xb1 : Nat → K) (ab0 ab1 : Nat → Loc ⊕ Nat) (ldi0 ldi1 ldo0 ldo1 : Nat)
    (xe0 xe1 : Nat → K) (ae0 ae1 : Nat → Loc ⊕ Nat) (mem : Loc → K) : Res (Loc → K) :=
  match J.bimv with
  | some f =>
    .ok (extBimv J.simd J.xdim J.R.kdim f p.1 p.2.1 p.2.2 q.1 q.2.1 q.2.2 xb0 xb1 ab0 ab1 ldi0 ldi1 ldo0 ldo1
      (J.junkW junk) (lift mem (J.junkM junk)) ∘ Sum.inl)
  | none =>
    if ncol = 0 ∨ J.R.kdim = 0 then .ub else do                                       -- lines 640-641: divisions
      let m ← evalBimv J.kern J.R.kdim p.2.2 q.2.2 (16384 / ncol / J.R.kdim)
        (point J.xdim p.1 p.2.1) (point J.xdim q.1 q.2.1) xe0 xe1 ae0 ae1 fuel 0 (lift mem (J.junkM junk))
      .ok (m ∘ Sum.inl)

/-- src/H2Pack_matvec.c:631-742: one admissible pair. `x` is in the transposed layout when `krnl_bimv` is used. -/
def intmdPair (E : Env K) (x : Nat → K) (y0 : Y0 K) (fuel tid : Nat) (mem : Loc → K) (i : Nat) : Res (Loc → K) :=
  let R := J.R
  let n0 := (R.adm.getD i (0, 0)).1
  let n1 := (R.adm.getD i (0, 0)).2
  let l0 := R.arr.level n0
  let l1 := R.arr.level n1
  let nrow := (J.aot.B i).nrow                                                         -- B_nrow[i]
  let ncol := (J.aot.B i).ncol
  let n := R.nPoint
  let kd := R.kdim
  if ncol = 0 ∨ kd = 0 then .ub                                                        -- lines 638-639
  else if l0 = l1 then                                                                 -- line 644
    J.call fuel i ncol (J.jPts n0) (J.jPts n1)
      (y0 n1).2 (y0 n0).2 (fun k => .inl (.y1 n0 (tid * y1ncol R E n0 + k))) (fun k => .inl (.y1 n1 (tid * y1ncol R E n1 + k)))
      (ncol / kd) (nrow / kd) (nrow / kd) (ncol / kd)
      (y0 n1).2 (y0 n0).2 (fun k => .inl (.y1 n0 (tid * y1ncol R E n0 + k))) (fun k => .inl (.y1 n1 (tid * y1ncol R E n1 + k))) mem
  else if l0 > l1 then                                                                 -- line 676
    J.call fuel i ncol (J.jPts n0) (J.cPts n1)
      (fun k => x (R.arr.ptS n1 + k)) (y0 n0).2 (fun k => .inl (.y1 n0 (tid * y1ncol R E n0 + k))) (fun k => .inl (.ty tid (R.arr.ptS n1 + k)))
      n (nrow / kd) (nrow / kd) n
      (fun k => x (R.rowS n1 + k)) (y0 n0).2 (fun k => .inl (.y1 n0 (tid * y1ncol R E n0 + k))) (fun k => .inl (.ty tid (R.rowS n1 + k))) mem
  else                                                                                 -- line 711
    J.call fuel i ncol (J.cPts n0) (J.jPts n1)
      (y0 n1).2 (fun k => x (R.arr.ptS n0 + k)) (fun k => .inl (.ty tid (R.arr.ptS n0 + k))) (fun k => .inl (.y1 n1 (tid * y1ncol R E n1 + k)))
      (ncol / kd) n n (ncol / kd)
      (y0 n1).2 (fun k => x (R.rowS n0 + k)) (fun k => .inl (.ty tid (R.rowS n0 + k))) (fun k => .inl (.y1 n1 (tid * y1ncol R E n1 + k))) mem

/-- src/H2Pack_matvec.c:1042-1076: one diagonal block; the second output goes to `mat0` and is discarded.  In the
`krnl_eval` variant `mat0` also holds the matrix (`Di` and `tmp` are the same buffer). -/
def dense0 (x : Nat → K) (fuel tid : Nat) (mem : Loc → K) (i : Nat) : Res (Loc → K) :=
  let R := J.R
  let v := R.leaf i
  J.call fuel (R.adm.length + i) (J.aot.D i).ncol (J.cPts v) (J.cPts v)
    (fun k => x (R.arr.ptS v + k)) (fun k => x (R.arr.ptS v + k)) (fun k => .inl (.ty tid (R.arr.ptS v + k))) (fun k => .inr k)
    R.nPoint 0 R.nPoint 0
    (fun k => x (R.rowS v + k)) (fun k => x (R.rowS v + k)) (fun k => .inl (.ty tid (R.rowS v + k))) (fun k => .inr k) mem

/-- src/H2Pack_matvec.c:1086-1127: one inadmissible pair. -/
def dense1 (x : Nat → K) (fuel tid : Nat) (mem : Loc → K) (i : Nat) : Res (Loc → K) :=
  let R := J.R
  let n0 := (R.inadm.getD i (0, 0)).1
  let n1 := (R.inadm.getD i (0, 0)).2
  J.call fuel (R.adm.length + R.arr.nLeaf + i) (J.aot.D (R.arr.nLeaf + i)).ncol (J.cPts n0) (J.cPts n1)
    (fun k => x (R.arr.ptS n1 + k)) (fun k => x (R.arr.ptS n0 + k))
    (fun k => .inl (.ty tid (R.arr.ptS n0 + k))) (fun k => .inl (.ty tid (R.arr.ptS n1 + k)))
    R.nPoint R.nPoint R.nPoint R.nPoint
    (fun k => x (R.rowS n1 + k)) (fun k => x (R.rowS n0 + k))
    (fun k => .inl (.ty tid (R.rowS n0 + k))) (fun k => .inl (.ty tid (R.rowS n1 + k))) mem

/-- A task: the blocks `blk b .. blk (b+1) - 1`. -/
def task (blk : Nat → Nat) (f : (Loc → K) → Nat → Res (Loc → K)) (mem : Loc → K) (b : Nat) : Res (Loc → K) :=
  (List.range' (blk b) (blk (b + 1) - blk b)).foldlM f mem

/-- The transposition of an `m`-by-`n` row-major array with leading dimension `n` into `dst` (leading dimension `m`):
`H2P_transpose_dmat` with one thread; by C43 the result is the same with any number of threads. -/
def transp (m n : Nat) (src dst : Nat → K) : Nat → K :=
  H2Pack.Utils.applyStores dst (H2Pack.Utils.transposeStores 1 m n src n m (fun _ => 0) 0)

/-- src/H2Pack_matvec.c:1168: `need_trans`. -/
def needTrans : Bool := J.bimv.isSome && decide (J.R.kdim > 1)

/-- src/H2Pack_matvec.c:180-204 `H2P_transpose_y0_from_krnldim`: `y0[v]` is copied through a buffer with contents `g v`.
(Nodes with `ld = 0` have no entries.) -/
def transY0 (g : Nat → Nat → K) (y0 : Y0 K) : Y0 K := fun v =>
  ((y0 v).1, fun k => if k < (y0 v).1 then transp ((y0 v).1 / J.R.kdim) J.R.kdim (y0 v).2 (g v) k else (y0 v).2 k)

/-- src/H2Pack_matvec.c:208-232 `H2P_transpose_y1_to_krnldim`. -/
def transY1 (E : Env K) (g : Nat → Nat → K) (mem : Loc → K) : Loc → K
  | .y1 v k => if v < J.R.arr.nNode ∧ y1ld J.R v ≠ 0 ∧ k < y1ncol J.R E v then
      transp J.R.kdim (y1ncol J.R E v / J.R.kdim) (fun k => mem (.y1 v k)) (g v) k else mem (.y1 v k)
  | l => mem l

/-- src/H2Pack_matvec.c:1162-1276 in JIT mode; `g0`, `g1` are contents of the buffers of the transpositions, `gx` of `xT`. -/
def matvecPmt (E : Env K) (g0 g1 : Nat → Nat → K) (gx : Nat → K) (fuel : Nat) (px : Nat → K) : Res (Nat → K) := do
  let R := J.R
  let x := if J.needTrans then transp R.nPoint R.kdim px gx else px                               -- lines 1179, 1206-1210
  let y0 := fwdTransform R E px                                                                   -- line 1216
  let y0 := if J.needTrans then J.transY0 g0 y0 else y0                                           -- line 1224
  let mem ← E.schedB.foldlM (fun mem tb => task E.blkB (J.intmdPair E x y0 fuel tb.1) mem tb.2) (initMem R E)
  let mem := sumY1 R E mem
  let mem := if J.needTrans then J.transY1 E g1 mem else mem                                      -- line 1226
  let s := bwdTransform R E ⟨y1ld R, mem⟩                                                         -- line 1235
  let mem ← E.schedD0.foldlM (fun mem tb => task E.blkD0 (J.dense0 x fuel tb.1) mem tb.2) s.mem
  let mem ← E.schedD1.foldlM (fun mem tb => task E.blkD1 (J.dense1 x fuel tb.1) mem tb.2) mem
  if J.needTrans then
    let yT := E.redOrd.foldl (reduceBlk R.size E.nThread) (fun l => match l with | .y _ => 0 | l => mem l)   -- lines 1197-1201, 1247-1261
    let t := transp R.kdim R.nPoint (fun k => yT (.y k)) x                                        -- line 1266
    .ok fun k => if k < R.size then mem (.y k) + t k else mem (.y k)                              -- lines 1267-1268
  else
    let mem := E.redOrd.foldl (reduceBlk R.size E.nThread) mem
    .ok fun k => mem (.y k)

/-- src/H2Pack_matvec.c:1162-1285 `H2P_matvec` with `BD_JIT = 1`. -/
def matvec (E : Env K) (g : (Nat → Nat) × (Nat → Nat)) (dx dy : Nat → K) (g0 g1 : Nat → Nat → K) (gx : Nat → K) (fuel : Nat) (x : Nat → K) :
    Res (Nat → K) := do
  let y ← J.matvecPmt E g0 g1 gx fuel (permuteFwd J.R g x dx)
  .ok (permuteBwd J.R g y dy)

end JIT

end

end H2Pack.MV
