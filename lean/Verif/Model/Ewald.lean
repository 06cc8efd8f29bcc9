import Verif.Spec.Ewald
import Verif.Model.Kernels

/-!
# The Ewald kernel (src/H2Pack_3D_kernels.h:961-1213)

Real arithmetic; `erfc` is a parameter.  One flat memory as in `Model/Kernels`; the work buffer is at address `base` and holds junk before it is filled.
-/

namespace H2Pack.Kern
open H2Pack.KernSpec (comp)
open scoped Classical

noncomputable section

/-- Lines 979-981, one loop: `-n, ..., n`. -/
def steps (n : Nat) : List ℤ := (List.range (2 * n + 1)).map fun a : Nat => (a : ℤ) - n

/-- Lines 979-981: the values of `(ix, iy, iz)` in the order of the three loops. -/
def cells (n : Nat) : List (ℤ × ℤ × ℤ) := (steps n).flatMap fun a => (steps n).flatMap fun b => (steps n).map fun c => (a, b, c)

/-- Lines 963-964 (and 1031-1032): `r_size`, `k_size`. -/
def rSize (nr : Nat) : Nat := (2 * nr + 1) * (2 * nr + 1) * (2 * nr + 1)
def kSize (nk : Nat) : Nat := ((2 * nk + 1) * (2 * nk + 1) * (2 * nk + 1) - 1) / 2

/-- Lines 983-986, 992-997: what is written to the arrays `k_arr`, `kinv_arr`, `m2_arr`, `kx_arr`, `ky_arr`, `kz_arr` (numbers 0 to 5). -/
def kEntry (L xi : ℝ) (v : ℤ × ℤ × ℤ) (f : Nat) : ℝ :=
  let k := 2 * Real.pi / L * √((comp v 0 * comp v 0 + comp v 1 * comp v 1 + comp v 2 * comp v 2 : ℤ) : ℝ)
  let k2 := k * k
  let q := k2 / (xi * xi)
  let m2 := 2 * (1 / (L * L * L)) * (1 + 1 / 4 * q + 1 / 8 * q * q) * 6 * Real.pi / k2 * Real.exp (-(1 / 4) * q)
  if f = 0 then k else if f = 1 then 1 / k else if f = 2 then m2 else 2 * Real.pi / L * comp v (f - 3)

/-- Lines 982-1000: one pass; state: `idx`, memory. The arrays follow each other: `rx`, `ry`, `rz` of length `r_size`, six of length `k_size`. -/
def initStep (L xi : ℝ) (R K base : Nat) (s : Nat × (Nat → ℝ)) (v : ℤ × ℤ × ℤ) : Nat × (Nat → ℝ) :=
  let w := (List.range 3).foldl (fun w d => set w (base + s.1 + d * R) (L * comp v d)) s.2
  let w := if s.1 < K then (List.range 6).foldl (fun w f => set w (base + 3 * R + s.1 + f * K) (kEntry L xi v f)) w else w
  (s.1 + 1, w)

/-- Lines 961-1004 `RPY_Ewald_init_workbuf`. -/
def initWorkbuf (L xi : ℝ) (nr nk base : Nat) (w : Nat → ℝ) : Nat → ℝ :=
  ((cells nr).foldl (initStep L xi (rSize nr) (kSize nk) base) (0, w)).2

/-- C's `fmod`: the quotient is rounded towards 0. -/
def fmod (x y : ℝ) : ℝ := x - y * (if 0 ≤ x / y then (⌊x / y⌋ : ℝ) else (⌈x / y⌉ : ℝ))

/-- Lines 1146-1152: one component of `rvec` in the overlap correction. -/
def wrap (L d : ℝ) : ℝ :=
  let r := fmod (d + 2 * L) L
  if r > 1 / 2 * L then r - L else r

/-- Lines 1068-1111: one pass over the images. The six accumulators `a00`, `a10`, ... are `acc k l` for `l ≤ k`. -/
def realStep (erfc : ℝ → ℝ) (xi a3 : ℝ) (R base : Nat) (d : Nat → ℝ) (w : Nat → ℝ) (acc : Nat → Nat → ℝ) (idx : Nat) : Nat → Nat → ℝ :=
  let rvec := fun e => d e + w (base + e * R + idx)
  let xi2 := xi * xi
  let xi3 := xi2 * xi
  let xi5 := xi3 * xi2
  let xi7 := xi5 * xi2
  let r2 := rvec 0 * rvec 0 + rvec 1 * rvec 1 + rvec 2 * rvec 2
  let r4 := r2 * r2
  let r := √r2
  let rinv := 1 / r
  let rinv2 := rinv * rinv
  let rinv3 := rinv * rinv2
  let e := erfc (xi * r)
  let pe := 1 / √Real.pi * Real.exp (-xi2 * r2)
  let t0 := 3 / 4 * rinv
  let t1 := 1 / 2 * rinv3 * a3
  let t2 := 4 * xi7 * a3 * r4
  let t3 := 3 * xi3 * r2
  let t4 := 4 * xi5 * a3 * r2
  let t5 := 2 * xi3 * a3
  let t6 := xi * a3 * rinv2
  let m11 := (t0 + t1) * e + (t2 + t3 - 5 * t4 - 9 / 2 * xi + 7 * t5 + t6) * pe
  let m12 := (t0 - 3 * t1) * e + (-t2 - t3 + 4 * t4 + 3 / 2 * xi - t5 - 3 * t6) * pe
  let m11 := if r2 = 0 then 0 else m11
  let m12 := if r2 = 0 then 0 else m12
  let rvec := fun e => if r2 = 0 then 0 else rvec e * rinv
  fun k l => acc k l + (if k = l then m12 * rvec k * rvec l + m11 else m12 * rvec k * rvec l)

/-- Lines 1115-1135: one pass over the wave vectors. -/
def recipStep (a3 : ℝ) (R K base : Nat) (d : Nat → ℝ) (w : Nat → ℝ) (acc : Nat → Nat → ℝ) (idx : Nat) : Nat → Nat → ℝ :=
  let arr := fun f => w (base + 3 * R + f * K + idx)
  let k := arr 0
  let kinv := arr 1
  let m2 := arr 2
  let t := m2 * Real.cos (arr 3 * d 0 + arr 4 * d 1 + arr 5 * d 2) * (1 - a3 * k * k / 3)
  let kv := fun e => arr (3 + e) * kinv
  fun k l => acc k l + (if k = l then t * (1 - kv k * kv l) else t * -(kv k) * kv l)

/-- Lines 1144-1194: overlap correction. -/
def overlapStep (L ai aj : ℝ) (d : Nat → ℝ) (acc : Nat → Nat → ℝ) : Nat → Nat → ℝ :=
  let rvec := fun e => wrap L (d e)
  let r2 := rvec 0 * rvec 0 + rvec 1 * rvec 1 + rvec 2 * rvec 2
  let r := √r2
  let r3 := r2 * r
  let rinv := 1 / r
  let rinv3 := rinv * rinv * rinv
  let rvec := fun e => rvec e * rinv
  let tmp0 := (ai * ai + aj * aj) / r2
  let tmp1 := 3 / 4 * rinv * (1 + tmp0 / 3)
  let tmp2 := 3 / 4 * rinv * (1 - tmp0)
  let diff := ai - aj
  let t : ℝ × ℝ :=
    if r > ai + aj then (tmp1, tmp2)
    else if r > |diff| then
      let tmp3 := rinv3 / (32 * ai * aj)
      let t1 := diff * diff + 3 * r2
      let t1 := (16 * r3 * (ai + aj) - t1 * t1) * tmp3
      let t2 := diff * diff - r2
      let t2 := 3 * t2 * t2 * tmp3
      (t1, t2)
    else (1 / (if ai > aj then ai else aj), 0)
  let t1 := t.1 - tmp1
  let t2 := t.2 - tmp2
  fun k l => acc k l + (if k = l then t2 * rvec k * rvec l + t1 else t2 * rvec k * rvec l)

/-- Lines 1048-1197: the six numbers of the block of spheres `i`, `j`. -/
def ewaldAcc (erfc : ℝ → ℝ) (L xi : ℝ) (nr nk base : Nat) (c0 ld0 i c1 ld1 j : Nat) (w : Nat → ℝ) : Nat → Nat → ℝ :=
  let ai := w (c0 + ld0 * 3 + i)
  let selft := 1 / ai - (6 - 40 / 3 * xi * xi * ai * ai) * (xi / √Real.pi)
  let d := fun e => w (c0 + ld0 * e + i) - w (c1 + ld1 * e + j)
  let aj := w (c1 + ld1 * 3 + j)
  let a3 := 1 / 2 * (ai * ai + aj * aj)
  let R := rSize nr
  let K := kSize nk
  let acc : Nat → Nat → ℝ := fun _ _ => 0
  let acc := (List.range R).foldl (realStep erfc xi a3 R base d w) acc
  let acc := (List.range K).foldl (recipStep a3 R K base d w) acc
  let r2 := d 0 * d 0 + d 1 * d 1 + d 2 * d 2
  let acc := if r2 ≥ 1 / 10 ^ 15 * (1 / 10 ^ 15) then overlapStep L ai aj d acc else acc
  if r2 < 1 / 10 ^ 15 * (1 / 10 ^ 15) then fun k l => if k = l then acc k l + selft else acc k l else acc

/-- Lines 1006-1213 `RPY_Ewald_eval_std` (lines 1200-1209: the block is written from the six numbers). -/
def ewaldEval (erfc : ℝ → ℝ) (L xi : ℝ) (nr nk base : Nat) (c0 ld0 n0 c1 ld1 n1 mat ldm : Nat) (w : Nat → ℝ) : Nat → ℝ :=
  (List.range n0).foldl (fun w i => (List.range n1).foldl (fun w j =>
    putBlock w (mat + 3 * i * ldm + 3 * j) ldm (fun k l => ewaldAcc erfc L xi nr nk base c0 ld0 i c1 ld1 j w (max k l) (min k l))) w) w

end
end H2Pack.Kern
