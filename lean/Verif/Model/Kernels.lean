import Mathlib.Analysis.SpecialFunctions.Log.Basic
import Mathlib.Analysis.SpecialFunctions.Pow.Real
import Mathlib.Analysis.SpecialFunctions.Trigonometric.Basic
import Verif.Model.MatvecJIT
import Verif.Spec.Kernels

/-!
# The built-in kernels (src/H2Pack_2D_kernels.h, src/H2Pack_3D_kernels.h)

Real arithmetic.  Memory is one flat array of numbers; a pointer is an address in it.  The vector library (src/ASTER, a
submodule that is empty in this checkout) is a parameter: `vec_t` has `len` lanes and every operation works lane by lane.
-/

namespace H2Pack.Kern
open H2Pack.MV (Bimv KMv point)
open scoped Classical

noncomputable section

/-- src/ASTER/include/aster.h: number of lanes of `vec_t` (`SIMD_LEN`, src/H2Pack_config.h:50,93) and the elementary
functions on one lane.  `frsqrt` and `pf` are `vec_frsqrt_t` and `vec_frsqrt_pf_t`. -/
structure Simd where
  len : Nat
  frsqrt : ℝ → ℝ
  pf : ℝ
  sqrt : ℝ → ℝ
  exp : ℝ → ℝ
  log : ℝ → ℝ
  pow : ℝ → ℝ → ℝ

/-- What the vector library promises: exact functions where the mathematical function is defined.  Nothing is asked of
`frsqrt` and `log` at 0. -/
structure Simd.Ok (S : Simd) : Prop where
  len : 0 < S.len
  frsqrt : ∀ r, 0 < r → S.pf * S.frsqrt r = 1 / √r
  sqrt : ∀ r, 0 ≤ r → S.sqrt r = √r
  exp : ∀ r, S.exp r = Real.exp r
  log : ∀ r, 0 < r → S.log r = Real.log r
  pow : ∀ r a, 0 < r → S.pow r a = r ^ a

/-- `vec_t`: the value of every lane. -/
abbrev V := Nat → ℝ
/-- `vec_load_t`, `vec_loadu_t`. -/
def load (w : Nat → ℝ) (p : Nat) : V := fun l => w (p + l)
/-- `vec_bcast_t`. -/
def bcast (w : Nat → ℝ) (p : Nat) : V := fun _ => w p
/-- `vec_set1_t`, `vec_zero_t`. -/
def set1 (x : ℝ) : V := fun _ => x
def vadd (a b : V) : V := fun l => a l + b l
def vsub (a b : V) : V := fun l => a l - b l
def vmul (a b : V) : V := fun l => a l * b l
def vdiv (a b : V) : V := fun l => a l / b l
def vmax (a b : V) : V := fun l => max (a l) (b l)
/-- `vec_fmadd_t(a, b, c) = a * b + c`. -/
def vfma (a b c : V) : V := fun l => a l * b l + c l
/-- `vec_fmsub_t(a, b, c) = a * b - c`. -/
def vfms (a b c : V) : V := fun l => a l * b l - c l
/-- An elementary function on all lanes. -/
def vmap (f : ℝ → ℝ) (a : V) : V := fun l => f (a l)
/-- `vec_pow_t`. -/
def vpow (S : Simd) (a b : V) : V := fun l => S.pow (a l) (b l)
/-- `vec_cmp_eq_t`, `vec_cmp_gt_t`, `vec_cmp_le_t`. -/
def cmpEq (a b : V) : Nat → Prop := fun l => a l = b l
def cmpGt (a b : V) : Nat → Prop := fun l => a l > b l
def cmpLe (a b : V) : Nat → Prop := fun l => a l ≤ b l
/-- `vec_blend_t(a, b, m)`: `b` where the mask is set. -/
def blend (a b : V) (m : Nat → Prop) : V := fun l => if m l then b l else a l
/-- `vec_store_t`, `vec_storeu_t`. -/
def store (S : Simd) (w : Nat → ℝ) (p : Nat) (v : V) : Nat → ℝ := fun k => if p ≤ k ∧ k < p + S.len then v (k - p) else w k
/-- `vec_reduce_add_t`. -/
def reduce (S : Simd) (v : V) : ℝ := ∑ l ∈ Finset.range S.len, v l
/-- `p[0] = x`. -/
def set (w : Nat → ℝ) (p : Nat) (x : ℝ) : Nat → ℝ := fun k => if k = p then x else w k
/-- `p[0] += x`. -/
def add (w : Nat → ℝ) (p : Nat) (x : ℝ) : Nat → ℝ := fun k => if k = p then w k + x else w k

/-! ## Scalar kernels

The twelve evaluation routines and the twelve bi-matvec routines have the same text except for the number of coordinates
(`dim` = 2 or 3) and for what is done with the squared distance; that part is a `Body`. -/

/-- What a routine does with the squared distance: on a vector (`vec`) and in the tail loop (`scal`). -/
structure Body where
  vec : Simd → V → V
  scal : ℝ → ℝ

/-- src/H2Pack_3D_kernels.h:56-60, 79-81, 93; the same at 103-106, 143-148. -/
def coulombB (dv : ℝ) : Body where
  vec S r2 :=
    let m := cmpEq r2 (set1 0)
    let rinv := vmul (set1 S.pf) (vmap S.frsqrt r2)
    blend rinv (set1 dv) m
  scal r2 := if r2 = 0 then dv else 1 / √r2

/-- src/H2Pack_2D_kernels.h:47-51, 66-68, 79; the same at 88-92, 120-125. -/
def laplaceB (dv : ℝ) : Body where
  vec S r2 :=
    let m := cmpEq r2 (set1 0)
    let logr := vmul (set1 (-(1 / 2))) (vmap S.log r2)
    blend logr (set1 dv) m
  scal r2 := if r2 = 0 then dv else -(1 / 2) * Real.log r2

/-- src/H2Pack_3D_kernels.h:173-175, 192, 207; 217-218, 250-251; src/H2Pack_2D_kernels.h:147-239. `p0` is `param[0]`. -/
def gaussianB (p0 : ℝ) : Body where
  vec S r2 := vmap S.exp (vmul (set1 (-p0)) r2)
  scal r2 := Real.exp (-p0 * r2)

/-- src/H2Pack_3D_kernels.h:280-282, 299-300, 315; 325-326, 361-364; src/H2Pack_2D_kernels.h:241-330. -/
def exponB (p0 : ℝ) : Body where
  vec S r2 := vmap S.exp (vmul (set1 (-p0)) (vmap S.sqrt r2))
  scal r2 := Real.exp (-p0 * √r2)

/-- src/H2Pack_3D_kernels.h:386: `NSQRT3`. -/
def nsqrt3 : ℝ := -(17320508075688772 / 10 ^ 16)
/-- src/H2Pack_3D_kernels.h:505-506: `NSQRT5`, `_1o3`. -/
def nsqrt5 : ℝ := -(22360679774997896 / 10 ^ 16)
def o3 : ℝ := 3333333333333333 / 10 ^ 16

/-- src/H2Pack_3D_kernels.h:392-395, 412-414, 428-430; 440-442, 476-484; src/H2Pack_2D_kernels.h:340-436. -/
def matern32B (p0 : ℝ) : Body where
  vec S r2 :=
    let r := vmap S.sqrt r2
    let r := vmul r (set1 (nsqrt3 * p0))
    vmul (vsub (set1 1) r) (vmap S.exp r)
  scal r2 :=
    let r := √r2
    let r := r * (nsqrt3 * p0)
    (1 - r) * Real.exp r

/-- src/H2Pack_3D_kernels.h:512-516, 533-539, 553-555; 565-568, 603-617; src/H2Pack_2D_kernels.h:447-556. -/
def matern52B (p0 : ℝ) : Body where
  vec S r2 :=
    let r := vmap S.sqrt r2
    let lk := vmul (set1 (nsqrt5 * p0)) r
    let val := vsub (set1 1) lk
    let lk2 := vmul lk lk
    let val := vfma (set1 o3) lk2 val
    vmul val (vmap S.exp lk)
  scal r2 :=
    let r := √r2
    let lk := nsqrt5 * p0 * r
    (1 - lk + o3 * lk * lk) * Real.exp lk

/-- src/H2Pack_3D_kernels.h:642-647, 664-665, 681-682; 693-695, 731-735; src/H2Pack_2D_kernels.h:565-668. -/
def quadraticB (c a : ℝ) : Body where
  vec S r2 :=
    let r2 := vfma r2 (set1 c) (set1 1)
    vpow S r2 (set1 a)
  scal r2 :=
    let r2 := 1 + c * r2
    r2 ^ a

/-- The body of the routine with this name. -/
def body : H2Pack.KernSpec.Scalar → Body
  | .coulomb dv => coulombB dv
  | .laplace dv => laplaceB dv
  | .gaussian l => gaussianB l
  | .expon l => exponB l
  | .matern32 l => matern32B l
  | .matern52 l => matern52B l
  | .quadratic c a => quadraticB c a

/-- src/H2Pack_3D_kernels.h:70-76 (and 118-137): squared distances between point `i` and the points `j`, `j+1`, ... -/
def r2vec (dim : Nat) (w : Nat → ℝ) (c0 ld0 i c1 ld1 j : Nat) : V :=
  let d := fun k => vsub (bcast w (c0 + ld0 * k + i)) (load w (c1 + ld1 * k + j))
  (List.range (dim - 1)).foldl (fun r2 k => vfma (d (k + 1)) (d (k + 1)) r2) (vmul (d 0) (d 0))

/-- src/H2Pack_3D_kernels.h:89-92: the squared distance between points `i` and `j`. -/
def r2scal (dim : Nat) (w : Nat → ℝ) (c0 ld0 i c1 ld1 j : Nat) : ℝ :=
  let d := fun k => w (c0 + ld0 * k + i) - w (c1 + ld1 * k + j)
  (List.range (dim - 1)).foldl (fun r2 k => r2 + d (k + 1) * d (k + 1)) (d 0 * d 0)

/-- src/H2Pack_3D_kernels.h:62-95: row `i` of the matrix; vectors first, then the tail. -/
def evalRow (S : Simd) (B : Body) (dim c0 ld0 c1 ld1 n1 mat ldm i : Nat) (w : Nat → ℝ) : Nat → ℝ :=
  let n1v := n1 / S.len * S.len
  let w := (List.range (n1 / S.len)).foldl (fun w t =>
    store S w (mat + i * ldm + t * S.len) (B.vec S (r2vec dim w c0 ld0 i c1 ld1 (t * S.len)))) w
  (List.range (n1 - n1v)).foldl (fun w t =>
    set w (mat + i * ldm + (n1v + t)) (B.scal (r2scal dim w c0 ld0 i c1 ld1 (n1v + t)))) w

/-- src/H2Pack_3D_kernels.h:52-96 `Coulomb_3D_eval_intrin_t` and the other `*_eval_intrin_t` routines. -/
def evalK (S : Simd) (B : Body) (dim c0 ld0 n0 c1 ld1 n1 mat ldm : Nat) (w : Nat → ℝ) : Nat → ℝ :=
  (List.range n0).foldl (fun w i => evalRow S B dim c0 ld0 c1 ld1 n1 mat ldm i w) w

/-- src/H2Pack_3D_kernels.h:118-156: one pass of the loop over `j` for the rows `i`, `i+1`; state: `sum_v0`, `sum_v1`, memory. -/
def bimvStep (S : Simd) (B : Body) (dim c0 ld0 c1 ld1 x0 x1 y1 i : Nat) (s : V × V × (Nat → ℝ)) (j : Nat) : V × V × (Nat → ℝ) :=
  let w := s.2.2
  let r20 := r2vec dim w c0 ld0 i c1 ld1 j
  let r21 := r2vec dim w c0 ld0 (i + 1) c1 ld1 j
  let d0 := load w (x0 + j)
  let d1 := load w (y1 + j)
  let r20 := B.vec S r20
  let r21 := B.vec S r21
  let sum0 := vfma d0 r20 s.1
  let sum1 := vfma d0 r21 s.2.1
  let d1 := vfma (bcast w (x1 + i)) r20 d1
  let d1 := vfma (bcast w (x1 + i + 1)) r21 d1
  (sum0, sum1, store S w (y1 + j) d1)

/-- src/H2Pack_3D_kernels.h:107-159: rows `i` and `i+1`. The loop over `j` has `⌈n1 / SIMD_LEN⌉` passes. -/
def bimvRow (S : Simd) (B : Body) (dim c0 ld0 c1 ld1 n1 x0 x1 y0 y1 i : Nat) (w : Nat → ℝ) : Nat → ℝ :=
  let s := (List.range ((n1 + S.len - 1) / S.len)).foldl (fun s t => bimvStep S B dim c0 ld0 c1 ld1 x0 x1 y1 i s (t * S.len)) (set1 0, set1 0, w)
  add (add s.2.2 (y0 + i) (reduce S s.1)) (y0 + i + 1) (reduce S s.2.1)

/-- src/H2Pack_3D_kernels.h:98-161 `Coulomb_3D_krnl_bimv_intrin_t` and the other scalar `*_krnl_bimv_intrin_t` routines; the
loop over `i` has `⌈n0 / 2⌉` passes. -/
def bimvK (S : Simd) (B : Body) (dim c0 ld0 n0 c1 ld1 n1 x0 x1 y0 y1 : Nat) (w : Nat → ℝ) : Nat → ℝ :=
  (List.range ((n0 + 1) / 2)).foldl (fun w t => bimvRow S B dim c0 ld0 c1 ld1 n1 x0 x1 y0 y1 (2 * t) w) w

/-- A scalar routine as `H2P_ext_krnl_bimv` calls it (src/H2Pack_matvec.c:519-523): leading dimension = number of points. -/
def scalarBimv (S : Simd) (B : Body) (dim : Nat) : Bimv ℝ := fun n0 n1 oT oS oX0 oX1 oY0 oY1 w =>
  bimvK S B dim oT n0 n0 oS n1 n1 oX0 oX1 oY0 oY1 w

/-! ## Tensor kernels -/

/-- src/H2Pack_3D_kernels.h:754-759 `CALC_STOKES_CONST`: `C` and `Ca3o4`. -/
def stokesC (eta a : ℝ) : ℝ := 1 / (6 * Real.pi * a * eta)
def stokesC34 (eta a : ℝ) : ℝ := stokesC eta a * a * (3 / 4)

/-- Writing a 3-by-3 block at `base` (row `k`, column `l` at `base + k * ldm + l`), row by row. -/
def putBlock (w : Nat → ℝ) (base ldm : Nat) (v : Nat → Nat → ℝ) : Nat → ℝ :=
  (List.range 3).foldl (fun w k => (List.range 3).foldl (fun w l => set w (base + k * ldm + l) (v k l)) w) w

/-- src/H2Pack_3D_kernels.h:773-807: the block of points `i`, `j`. -/
def stokesPair (eta a : ℝ) (c0 ld0 i c1 ld1 j : Nat) (w : Nat → ℝ) : Nat → Nat → ℝ :=
  let d := fun k => w (c0 + ld0 * k + i) - w (c1 + ld1 * k + j)
  let r2 := d 0 * d 0 + d 1 * d 1 + d 2 * d 2
  let invR := if r2 = 0 then 0 else 1 / √r2
  let t1 := if r2 = 0 then stokesC eta a else invR * stokesC34 eta a
  let d := fun k => d k * invR
  fun k l => let tmp := t1 * d k
    if k = l then tmp * d l + t1 else tmp * d l

/-- src/H2Pack_3D_kernels.h:763-811 `Stokes_eval_std`. -/
def stokesEval (eta a : ℝ) (c0 ld0 n0 c1 ld1 n1 mat ldm : Nat) (w : Nat → ℝ) : Nat → ℝ :=
  (List.range n0).foldl (fun w i => (List.range n1).foldl (fun w j =>
    putBlock w (mat + (3 * i * ldm + 3 * j)) ldm (stokesPair eta a c0 ld0 i c1 ld1 j w)) w) w

/-- src/H2Pack_3D_kernels.h:911-955: the block of points `i`, `j` (fourth coordinate: the radius). -/
def rpyPair (eta : ℝ) (c0 ld0 i c1 ld1 j : Nat) (w : Nat → ℝ) : Nat → Nat → ℝ :=
  let C := 1 / (6 * Real.pi * eta)
  let d := fun k => w (c0 + ld0 * k + i) - w (c1 + ld1 * k + j)
  let ta := w (c0 + ld0 * 3 + i)
  let sa := w (c1 + ld1 * 3 + j)
  let r2 := d 0 * d 0 + d 1 * d 1 + d 2 * d 2
  let r := √r2
  let invR := if r = 0 then 0 else 1 / r
  let invR2 := invR * invR
  let d := fun k => d k * invR
  let p := ta + sa
  let m := ta - sa
  let t : ℝ × ℝ :=
    if r > p then
      let tmp0 := C * (3 / 4) * invR
      let tmp1 := (ta * ta + sa * sa) * invR2
      (tmp0 * (1 + tmp1 / 3), tmp0 * (1 - tmp1))
    else if r > |m| then
      let tmp0 := m * m
      let tmp1 := (invR2 * invR * C) / (ta * sa * 32)
      let t1 := tmp0 + 3 * r2
      let t2 := tmp0 - r2
      (tmp1 * (16 * r2 * r * p - t1 * t1), tmp1 * 3 * t2 * t2)
    else (C / (if ta > sa then ta else sa), 0)
  fun k l => let tmp := t.2 * d k
    if k = l then tmp * d l + t.1 else tmp * d l

/-- src/H2Pack_3D_kernels.h:893-958 `RPY_eval_std`. -/
def rpyEval (eta : ℝ) (c0 ld0 n0 c1 ld1 n1 mat ldm : Nat) (w : Nat → ℝ) : Nat → ℝ :=
  (List.range n0).foldl (fun w i => (List.range n1).foldl (fun w j =>
    putBlock w (mat + 3 * i * ldm + 3 * j) ldm (rpyPair eta c0 ld0 i c1 ld1 j w)) w) w

/-- The scaled difference vector and the coefficients `t1`, `t2` of one pass over the vectors of source points. -/
structure Dir where
  d : Nat → V
  t1 : V
  t2 : V

/-- src/H2Pack_3D_kernels.h:831-846 (`t2` is not used). -/
def stokesDir (S : Simd) (eta a : ℝ) (w : Nat → ℝ) (c0 ld0 i c1 ld1 j : Nat) : Dir :=
  let d := fun k => vsub (bcast w (c0 + ld0 * k + i)) (load w (c1 + ld1 * k + j))
  let r2 := vfma (d 2) (d 2) (vfma (d 1) (d 1) (vmul (d 0) (d 0)))
  let invR := vmul (vmap S.frsqrt r2) (set1 S.pf)
  let tmp1 := vmul invR (set1 (stokesC34 eta a))
  ⟨fun k => vmul (d k) invR, blend tmp1 (set1 (stokesC eta a)) (cmpEq r2 (set1 0)), set1 0⟩

/-- src/H2Pack_3D_kernels.h:1343-1386 (the same text at 1240-1283). -/
def rpyDir (S : Simd) (eta : ℝ) (w : Nat → ℝ) (c0 ld0 i c1 ld1 j : Nat) : Dir :=
  let C := 1 / (6 * Real.pi * eta)
  let ta := bcast w (c0 + ld0 * 3 + i)
  let d := fun k => vsub (bcast w (c0 + ld0 * k + i)) (load w (c1 + ld1 * k + j))
  let sa := load w (c1 + ld1 * 3 + j)
  let r2 := vfma (d 2) (d 2) (vfma (d 1) (d 1) (vmul (d 0) (d 0)))
  let invR := vmul (vmap S.frsqrt r2) (set1 S.pf)
  let invR2 := vmul invR invR
  let r := vmul invR r2
  let p := vadd ta sa
  let m := vmax (vsub ta sa) (vsub sa ta)
  -- r > ta + sa
  let tmp0 := vmul (set1 (C * (3 / 4))) invR
  let tmp1 := vmul (vfma sa sa (vmul ta ta)) invR2
  let t10 := vmul tmp0 (vfma (set1 (1 / 3)) tmp1 (set1 1))
  let t20 := vmul tmp0 (vsub (set1 1) tmp1)
  -- ta + sa >= r > abs(ta - sa)
  let tmp0 := vmul m m
  let tmp1 := vdiv (vmul (vmul (set1 C) invR2) invR) (vmul (vmul ta sa) (set1 32))
  let t11 := vfma (set1 3) r2 tmp0
  let t11 := vmul t11 t11
  let t11 := vfms (vmul (set1 16) r2) (vmul r p) t11
  let t11 := vmul tmp1 t11
  let t21 := vsub tmp0 r2
  let t21 := vmul t21 t21
  let t21 := vmul (vmul tmp1 (set1 3)) t21
  -- r <= abs(ta - sa)
  let t12 := vdiv (set1 C) (vmax ta sa)
  let t22 := set1 0
  ⟨fun k => vmul (d k) invR, blend (blend t11 t10 (cmpGt r p)) t12 (cmpLe r m), blend (blend t21 t20 (cmpGt r p)) t22 (cmpLe r m)⟩

/-- `vec_mul_t`, `vec_fmadd_t`, `vec_fmadd_t`: the inner product of a direction with three components. -/
def dot3 (x d : Nat → V) : V := vfma (x 2) (d 2) (vfma (x 1) (d 1) (vmul (x 0) (d 0)))

/-- The two ways in which the products are added to an output component: src/H2Pack_3D_kernels.h:860-862 (`t1`, scaled
direction `dx`, `tmp0`, `x_in_j0`) ... -/
def stokesAcc (D : Dir) (tmp : V) (x : Nat → V) (k : Nat) (acc : V) : V := vfma D.t1 (vfma (D.d k) tmp (x k)) acc
/-- ... and 1395, 1400 (`tmp0` times `t2`), 1410-1415. -/
def rpyAcc (D : Dir) (tmp : V) (x : Nat → V) (k : Nat) (acc : V) : V := vfma D.t1 (x k) (vfma (D.d k) (vmul tmp D.t2) acc)

/-- One pass over the vectors of source points, src/H2Pack_3D_kernels.h:829-879 and 1337-1428; state: `xo0`, memory. The three output
vectors `x_out_1` are read before they are written, one after the other. -/
def tensorStep (S : Simd) (dir : (w : Nat → ℝ) → (i j : Nat) → Dir) (acc : Dir → V → (Nat → V) → Nat → V → V)
    (ld0 ld1 x0 x1 y1 i : Nat) (s : (Nat → V) × (Nat → ℝ)) (j : Nat) : (Nat → V) × (Nat → ℝ) :=
  let w := s.2
  let D := dir w i j
  let xin0 := fun k => load w (x0 + j + ld1 * k)
  let xin1 := fun k => bcast w (x1 + i + k * ld0)
  let tmp0 := dot3 xin0 D.d
  let tmp1 := dot3 xin1 D.d
  let xo0 := fun k => acc D tmp0 xin0 k (s.1 k)
  let xo1 := fun k => acc D tmp1 xin1 k (load w (y1 + j + k * ld1))
  (xo0, (List.range 3).foldl (fun w k => store S w (y1 + j + k * ld1) (xo1 k)) w)

/-- Row `i`, src/H2Pack_3D_kernels.h:817-883 and 1327-1432: the loop over `j` advances by `st` (`SIMD_LEN_D`). -/
def tensorRow (S : Simd) (st : Nat) (dir : (w : Nat → ℝ) → (i j : Nat) → Dir) (acc : Dir → V → (Nat → V) → Nat → V → V)
    (ld0 ld1 n1 x0 x1 y0 y1 i : Nat) (w : Nat → ℝ) : Nat → ℝ :=
  let s := (List.range ((n1 + st - 1) / st)).foldl (fun s t => tensorStep S dir acc ld0 ld1 x0 x1 y1 i s (t * st)) (fun _ => set1 0, w)
  (List.range 3).foldl (fun w k => add w (y0 + i + k * ld0) (reduce S (s.1 k))) s.2

/-- src/H2Pack_3D_kernels.h:813-885 `Stokes_krnl_bimv_intrin_t`. -/
def stokesBimv (S : Simd) (st : Nat) (eta a : ℝ) : Bimv ℝ := fun n0 n1 oT oS oX0 oX1 oY0 oY1 w =>
  (List.range n0).foldl (fun w i => tensorRow S st (fun w i j => stokesDir S eta a w oT n0 i oS n1 j) stokesAcc n0 n1 n1 oX0 oX1 oY0 oY1 i w) w

/-- src/H2Pack_3D_kernels.h:1310-1434 `RPY_krnl_bimv_intrin_t`. -/
def rpyBimv (S : Simd) (st : Nat) (eta : ℝ) : Bimv ℝ := fun n0 n1 oT oS oX0 oX1 oY0 oY1 w =>
  (List.range n0).foldl (fun w i => tensorRow S st (fun w i j => rpyDir S eta w oT n0 i oS n1 j) rpyAcc n0 n1 n1 oX0 oX1 oY0 oY1 i w) w

/-- src/H2Pack_3D_kernels.h:1231-1307: row `i` of the one-sided product. -/
def mvRow (S : Simd) (st : Nat) (dir : (w : Nat → ℝ) → (i j : Nat) → Dir) (ld0 ld1 n1 x y i : Nat) (w : Nat → ℝ) : Nat → ℝ :=
  let s := (List.range ((n1 + st - 1) / st)).foldl (fun (s : Nat → V) t =>
    let D := dir w i (t * st)
    let xin := fun k => load w (x + t * st + ld1 * k)
    fun k => rpyAcc D (dot3 xin D.d) xin k (s k)) (fun _ => set1 0)
  (List.range 3).foldl (fun w k => add w (y + i + k * ld0) (reduce S (s k))) w

/-- src/H2Pack_3D_kernels.h:1215-1308 `RPY_krnl_mv_intrin_t`. -/
def rpyMv (S : Simd) (st : Nat) (eta : ℝ) : KMv ℝ := fun n0 n1 oT oS oX oY w =>
  (List.range n0).foldl (fun w i => mvRow S st (fun w i j => rpyDir S eta w oT n0 i oS n1 j) n0 n1 n1 oX oY i w) w

end
end H2Pack.Kern
