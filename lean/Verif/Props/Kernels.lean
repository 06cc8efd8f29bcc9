import Mathlib.Analysis.Complex.Trigonometric
import Mathlib.Tactic.NormNum
import Verif.Proof.Kernels1
import Verif.Props.MatvecJIT

/-!
# C84, C85: the scalar kernels that come with the library
-/

namespace H2Pack.Kern
open H2Pack.MV (Bimv KMv point BimvSpec extBimv JIT)
open H2Pack.KernSpec
open Finset (range)

/-- The decimals `NSQRT3`, `NSQRT5` (without their sign) and `_1o3`. -/
noncomputable def kernOf (dim : Nat) (N : Scalar) : (Nat → ℝ) → (Nat → ℝ) → Nat → Nat → ℝ := N.kern (-nsqrt3) (-nsqrt5) o3 dim

theorem dist2_nonneg (dim : Nat) (x y : Nat → ℝ) : 0 ≤ dist2 dim x y := Finset.sum_nonneg fun _ _ => sq_nonneg _

theorem dist2_eq_zero {dim : Nat} {x y : Nat → ℝ} : dist2 dim x y = 0 ↔ ∀ d < dim, x d = y d := by
  unfold dist2
  rw [Finset.sum_eq_zero_iff_of_nonneg fun _ _ => sq_nonneg _]
  constructor
  · intro h d hd
    have := h d (Finset.mem_range.mpr hd)
    rw [sq_eq_zero_iff, sub_eq_zero] at this
    exact this
  · intro h d hd
    rw [h d (Finset.mem_range.mp hd), sub_self]
    ring

/-- The kernel as a function of the squared distance. -/
noncomputable def rad : Scalar → ℝ → ℝ
  | .coulomb dv => fun r2 => if r2 = 0 then dv else 1 / √r2
  | .laplace dv => fun r2 => if r2 = 0 then dv else -(1 / 2) * Real.log r2
  | .gaussian l => fun r2 => Real.exp (-l * r2)
  | .expon l => fun r2 => Real.exp (-l * √r2)
  | .matern32 l => fun r2 => (1 - √r2 * (nsqrt3 * l)) * Real.exp (√r2 * (nsqrt3 * l))
  | .matern52 l => fun r2 => (1 - nsqrt5 * l * √r2 + o3 * (nsqrt5 * l * √r2) * (nsqrt5 * l * √r2)) * Real.exp (nsqrt5 * l * √r2)
  | .quadratic c a => fun r2 => (1 + c * r2) ^ a

theorem body_ok {S : Simd} (hS : S.Ok) (N : Scalar) (hN : N.Valid) : (body N).Ok S (rad N) := by
  cases N with
  | coulomb dv =>
    refine ⟨fun r2 l h => ?_, fun r2 _ => rfl⟩
    show (if r2 l = 0 then dv else S.pf * S.frsqrt (r2 l)) = if r2 l = 0 then dv else 1 / √(r2 l)
    by_cases h0 : r2 l = 0
    · rw [if_pos h0, if_pos h0]
    · rw [if_neg h0, if_neg h0, hS.frsqrt _ (lt_of_le_of_ne h (Ne.symm h0))]
  | laplace dv =>
    refine ⟨fun r2 l h => ?_, fun r2 _ => rfl⟩
    show (if r2 l = 0 then dv else -(1 / 2) * S.log (r2 l)) = if r2 l = 0 then dv else -(1 / 2) * Real.log (r2 l)
    by_cases h0 : r2 l = 0
    · rw [if_pos h0, if_pos h0]
    · rw [if_neg h0, if_neg h0, hS.log _ (lt_of_le_of_ne h (Ne.symm h0))]
  | gaussian p => exact ⟨fun r2 l h => hS.exp _, fun r2 _ => rfl⟩
  | expon p =>
    refine ⟨fun r2 l h => ?_, fun r2 _ => rfl⟩
    show S.exp (-p * S.sqrt (r2 l)) = Real.exp (-p * √(r2 l))
    rw [hS.exp, hS.sqrt _ h]
  | matern32 p =>
    refine ⟨fun r2 l h => ?_, fun r2 _ => rfl⟩
    show (1 - S.sqrt (r2 l) * (nsqrt3 * p)) * S.exp (S.sqrt (r2 l) * (nsqrt3 * p)) = _
    rw [hS.exp, hS.sqrt _ h]
    rfl
  | matern52 p =>
    refine ⟨fun r2 l h => ?_, fun r2 _ => ?_⟩
    · show (o3 * (nsqrt5 * p * S.sqrt (r2 l) * (nsqrt5 * p * S.sqrt (r2 l))) + (1 - nsqrt5 * p * S.sqrt (r2 l))) * S.exp (nsqrt5 * p * S.sqrt (r2 l)) = _
      rw [hS.exp, hS.sqrt _ h]
      simp only [rad]
      ring
    · simp only [body, matern52B, rad]
  | quadratic c a =>
    have hc : 0 ≤ c := hN
    refine ⟨fun r2 l h => ?_, fun r2 _ => rfl⟩
    show S.pow (r2 l * c + 1) a = (1 + c * r2 l) ^ a
    have : 0 < r2 l * c + 1 := by nlinarith [mul_nonneg h hc]
    rw [hS.pow _ _ this, show r2 l * c + 1 = 1 + c * r2 l by ring]

/-- The formula of the named kernel in terms of the squared distance. -/
theorem kern_eq (dim : Nat) (N : Scalar) (x y : Nat → ℝ) (a b : Nat) : kernOf dim N x y a b = rad N (dist2 dim x y) := by
  have hs : eucl dim x y ^ 2 = dist2 dim x y := Real.sq_sqrt (dist2_nonneg dim x y)
  cases N with
  | coulomb dv => simp only [kernOf, Scalar.kern, coulomb, rad, dist2_eq_zero, eucl]
  | laplace dv =>
    simp only [kernOf, Scalar.kern, laplace, rad, dist2_eq_zero, eucl]
    rw [Real.log_sqrt (dist2_nonneg dim x y)]
    split_ifs
    · rfl
    · ring
  | gaussian l => simp only [kernOf, Scalar.kern, gaussian, rad, hs, neg_mul]
  | expon l => simp only [kernOf, Scalar.kern, expon, rad, eucl, neg_mul]
  | matern32 l =>
    simp only [kernOf, Scalar.kern, matern32, rad, eucl]
    congr 1
    · ring
    · congr 1; ring
  | matern52 l =>
    simp only [kernOf, Scalar.kern, matern52, rad, eucl]
    congr 1
    · ring
    · congr 1; ring
  | quadratic c p => simp only [kernOf, Scalar.kern, quadratic, rad, hs]

theorem d2_eq (dim : Nat) (w : Nat → ℝ) (c0 ld0 i c1 ld1 j : Nat) :
    d2 dim w c0 ld0 i c1 ld1 j = dist2 dim (fun d => w (c0 + ld0 * d + i)) (fun d => w (c1 + ld1 * d + j)) := rfl

/-! ## C84 -/

/-- **C84.**  A built-in scalar kernel evaluation writes the kernel matrix: entry `(i, j)` is the value of the kernel for point `i` of the first
and point `j` of the second array, for every number of points (in particular when the number of columns is not a multiple of the vector
length), all leading dimensions and every vector length; nothing else in memory changes. -/
theorem C84_eval {S : Simd} (hS : S.Ok) (N : Scalar) (hN : N.Valid) {dim : Nat} (hd : 0 < dim) (c0 ld0 n0 c1 ld1 n1 mat ldm : Nat)
    (hsep : Sep dim c0 ld0 n0 c1 ld1 n1 mat ldm n0 n1) (hldm : n1 ≤ ldm) (w : Nat → ℝ) :
    (∀ i < n0, ∀ j < n1, evalK S (body N) dim c0 ld0 n0 c1 ld1 n1 mat ldm w (mat + i * ldm + j) =
      kernOf dim N (fun d => w (c0 + ld0 * d + i)) (fun d => w (c1 + ld1 * d + j)) 0 0) ∧
      ∀ k, (∀ i < n0, ∀ j < n1, k ≠ mat + i * ldm + j) → evalK S (body N) dim c0 ld0 n0 c1 ld1 n1 mat ldm w k = w k := by
  obtain ⟨h1, h2⟩ := evalK_spec hS (body_ok hS N hN) hd hsep hldm w
  refine ⟨fun i hi j hj => ?_, h2⟩
  rw [h1 i hi j hj, kern_eq, d2_eq]

/-- **C84** (independence of the vector length).  Two builds with different vector units give the same matrix. -/
theorem C84_simd_independent {S S' : Simd} (hS : S.Ok) (hS' : S'.Ok) (N : Scalar) (hN : N.Valid) {dim : Nat} (hd : 0 < dim) (c0 ld0 n0 c1 ld1 n1 mat ldm : Nat)
    (hsep : Sep dim c0 ld0 n0 c1 ld1 n1 mat ldm n0 n1) (hldm : n1 ≤ ldm) (w : Nat → ℝ) :
    evalK S (body N) dim c0 ld0 n0 c1 ld1 n1 mat ldm w = evalK S' (body N) dim c0 ld0 n0 c1 ld1 n1 mat ldm w := by
  obtain ⟨h1, h2⟩ := C84_eval hS N hN hd c0 ld0 n0 c1 ld1 n1 mat ldm hsep hldm w
  obtain ⟨h1', h2'⟩ := C84_eval hS' N hN hd c0 ld0 n0 c1 ld1 n1 mat ldm hsep hldm w
  funext k
  by_cases h : ∀ i < n0, ∀ j < n1, k ≠ mat + i * ldm + j
  · rw [h2 k h, h2' k h]
  · push Not at h
    obtain ⟨i, hi, j, hj, rfl⟩ := h
    rw [h1 i hi j hj, h1' i hi j hj]

/-- **C84** (symmetry).  Exchanging the points does not change a kernel value: what `H2P_matvec` and the factorizations rely on. -/
theorem C84_symmetric (dim : Nat) (N : Scalar) (x y : Nat → ℝ) (a b : Nat) : kernOf dim N x y a b = kernOf dim N y x b a := by
  rw [kern_eq, kern_eq]
  congr 1
  unfold dist2
  exact Finset.sum_congr rfl fun d _ => by ring

/-- **C84** (translation invariance).  Moving all points by the same vector does not change a kernel value: what one set of proxy points per
level relies on. -/
theorem C84_translation (dim : Nat) (N : Scalar) (x y t : Nat → ℝ) (a b : Nat) :
    kernOf dim N (fun d => x d + t d) (fun d => y d + t d) a b = kernOf dim N x y a b := by
  rw [kern_eq, kern_eq]
  congr 1
  unfold dist2
  exact Finset.sum_congr rfl fun d _ => by ring

/-- **C84** (constants).  The decimals used for `√3`, `√5`, `1/3` are off by less than `10⁻¹⁵`. -/
theorem C84_constants : |-nsqrt3 - √3| < 1 / 10 ^ 15 ∧ |-nsqrt5 - √5| < 1 / 10 ^ 15 ∧ |o3 - 1 / 3| < 1 / 10 ^ 15 := by
  refine ⟨?_, ?_, ?_⟩
  · rw [abs_lt]
    unfold nsqrt3
    constructor
    · have : √3 < 17320508075688772 / 10 ^ 16 + 1 / 10 ^ 15 := by
        rw [Real.sqrt_lt' (by norm_num)]; norm_num
      linarith
    · have : 17320508075688772 / 10 ^ 16 - 1 / 10 ^ 15 < √3 := Real.lt_sqrt_of_sq_lt (by norm_num)
      linarith
  · rw [abs_lt]
    unfold nsqrt5
    constructor
    · have : √5 < 22360679774997896 / 10 ^ 16 + 1 / 10 ^ 15 := by
        rw [Real.sqrt_lt' (by norm_num)]; norm_num
      linarith
    · have : 22360679774997896 / 10 ^ 16 - 1 / 10 ^ 15 < √5 := Real.lt_sqrt_of_sq_lt (by norm_num)
      linarith
  · unfold o3
    rw [abs_lt]
    norm_num

/-! ## C85 -/

/-- **C85.**  Every built-in scalar `krnl_bimv` meets the contract of `kernel_bimv_fptr` for the same kernel as its `krnl_eval`, for every even vector
length. -/
theorem C85_contract {S : Simd} (hS : S.Ok) (heven : 2 ∣ S.len) (N : Scalar) (hN : N.Valid) {dim : Nat} (hd : 0 < dim) :
    BimvSpec S.len dim 1 (kernOf dim N) (scalarBimv S (body N) dim) :=
  scalarBimv_spec hS heven (body_ok hS N hN) hd _ fun x y => kern_eq dim N x y 0 0

/-- **C85** (any number of points).  Called through the padding wrapper, the built-in routine adds exactly the two products with the kernel
matrix to the output vectors, for every number of points and any previous contents of the work buffer. -/
theorem C85_product {S : Simd} (hS : S.Ok) (heven : 2 ∣ S.len) (N : Scalar) (hN : N.Valid) {dim : Nat} (hd : 0 < dim)
    (c0 : Nat → ℝ) (ld0 n0 : Nat) (c1 : Nat → ℝ) (ld1 n1 : Nat) (x0 x1 : Nat → ℝ) (w : Nat → ℝ) (mem : Nat ⊕ Nat → ℝ) :
    (∀ i < n0, extBimv S.len dim 1 (scalarBimv S (body N) dim) c0 ld0 n0 c1 ld1 n1 x0 x1 Sum.inl Sum.inr n1 n0 n0 n1 w mem (.inl i) =
      mem (.inl i) + ∑ j ∈ range n1, kernOf dim N (point dim c0 ld0 i) (point dim c1 ld1 j) 0 0 * x0 j) ∧
    (∀ j < n1, extBimv S.len dim 1 (scalarBimv S (body N) dim) c0 ld0 n0 c1 ld1 n1 x0 x1 Sum.inl Sum.inr n1 n0 n0 n1 w mem (.inr j) =
      mem (.inr j) + ∑ i ∈ range n0, kernOf dim N (point dim c1 ld1 j) (point dim c0 ld0 i) 0 0 * x1 i) := by
  constructor
  · intro i hi
    rw [H2Pack.MV.C24_ext_bimv hS.len (C85_contract hS heven N hN hd)]
    simp [hi]
  · intro j hj
    rw [H2Pack.MV.C24_ext_bimv hS.len (C85_contract hS heven N hN hd)]
    simp only [Finset.range_one, Finset.sum_singleton, Nat.zero_mul, reduceCtorEq, if_false, Finset.sum_const_zero, Sum.inr.injEq, zero_add]
    rw [Finset.sum_ite_eq (Finset.range n1) j, if_pos (Finset.mem_range.mpr hj)]
    congr 1
    refine Finset.sum_congr rfl fun i _ => ?_
    rw [C84_symmetric]

/-- **C85** (why the vector length must be even).  The scalar bi-matvec routines work on two rows at a time.  With vectors of one lane they are called with
an odd number of points and do not meet the contract. -/
theorem C85_one_lane {S : Simd} (hS : S.Ok) (h1 : S.len = 1) (l : ℝ) {dim : Nat} (hd : 0 < dim) :
    ¬ BimvSpec S.len dim 1 (kernOf dim (.gaussian l)) (scalarBimv S (body (.gaussian l)) dim) := by
  intro h
  rw [h1] at h
  obtain ⟨_, h2⟩ := h 1 1 0 dim (2 * dim) (2 * dim + 1) (2 * dim + 2) (2 * dim + 3) (fun k => if k = 2 * dim then 1 else 0) (dvd_refl _) (dvd_refl _)
    (by omega) (by omega) (by omega) (by omega) (by omega)
  have := h2 0 (by omega) 0 (by omega)
  simp only [Finset.range_one, Finset.sum_singleton, Nat.zero_mul, Nat.zero_add, Nat.add_zero] at this
  rw [if_neg (by omega), if_neg (by omega), mul_zero, add_zero] at this
  revert this
  simp only [scalarBimv, bimvK, bimvRow, h1, bimvStep, add, reduce, body, gaussianB, store, vfma, vmap, vmul, load, bcast, set1,
    show (1 + 1) / 2 = 1 from rfl, List.range_one, List.foldl_cons, List.foldl_nil, Finset.range_one,
    Finset.sum_singleton, Nat.mul_zero, Nat.add_zero, Nat.zero_mul]
  rw [if_pos trivial, if_neg (by omega), if_pos ⟨le_rfl, by omega⟩, if_neg (by omega), if_neg (by omega), if_neg (by omega)]
  simp only [zero_mul, add_zero, zero_add, one_mul, if_true]
  rw [hS.exp]
  exact (Real.exp_pos _).ne'

/-! ## The hypotheses can be met -/

/-- A vector unit with `n` lanes and exact functions; `frsqrt 0` is some number. -/
noncomputable def exactSimd (n : Nat) : Simd := ⟨n, fun r => if r = 0 then 7 else 2 / √r, 1 / 2, Real.sqrt, Real.exp, Real.log, fun r a => r ^ a⟩

theorem exactSimd_ok {n : Nat} (h : 0 < n) : (exactSimd n).Ok where
  len := h
  frsqrt r hr := by
    show (1 / 2 : ℝ) * (if r = 0 then 7 else 2 / √r) = 1 / √r
    rw [if_neg hr.ne']
    ring
  sqrt _ _ := rfl
  exp _ := rfl
  log _ _ := rfl
  pow _ _ _ := rfl

/-- Five points against seven points in three dimensions with four lanes: one vector and three single columns per row. -/
example (w : Nat → ℝ) (i j : Nat) (hi : i < 5) (hj : j < 7) :
    evalK (exactSimd 4) (body (.coulomb 0)) 3 0 5 5 15 7 7 100 7 w (100 + i * 7 + j) =
      kernOf 3 (.coulomb 0) (fun d => w (0 + 5 * d + i)) (fun d => w (15 + 7 * d + j)) 0 0 :=
  (C84_eval (exactSimd_ok (by omega)) (.coulomb 0) trivial (by omega) 0 5 5 15 7 7 100 7
    (fun i' hi' j' hj' => ⟨fun k hk i hi => by omega, fun k hk j hj => by omega⟩) le_rfl w).1 i hi j hj

example : BimvSpec 8 2 1 (kernOf 2 (.quadratic 1 (-1 / 2))) (scalarBimv (exactSimd 8) (body (.quadratic 1 (-1 / 2))) 2) :=
  C85_contract (S := exactSimd 8) (exactSimd_ok (by omega)) (by decide) (.quadratic 1 (-1 / 2)) (show (0 : ℝ) ≤ 1 by norm_num) (by omega)

end H2Pack.Kern
