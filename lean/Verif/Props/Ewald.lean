import Verif.Proof.Ewald2
import Mathlib.Tactic.NormNum

/-! # C89: the Ewald kernel -/

namespace H2Pack.Kern
open H2Pack.KernSpec
open Finset (range)

/-- Number of entries of the work buffer (src/H2Pack_3D_kernels.h:965). -/
def bufLen (nr nk : Nat) : Nat := 3 * rSize nr + 6 * kSize nk

theorem init_frame (L xi : ℝ) (nr nk base : Nat) (w : Nat → ℝ) {q : Nat} (h : q < base ∨ base + bufLen nr nk ≤ q) : initWorkbuf L xi nr nk base w q = w q := by
  unfold bufLen at h
  refine (init_spec L xi nr nk base w).2.2 q (fun d hd i hi => ?_) (fun f hf i hi _ => ?_)
  · interval_cases d <;> omega
  · interval_cases f <;> omega

/-- The blocks are symmetric. -/
theorem ewald_block (erfc : ℝ → ℝ) (L xi : ℝ) (nr nk : Nat) (x y : Nat → ℝ) (a b : Nat) : ewald erfc L xi nr nk x y b a = ewald erfc L xi nr nk x y a b := by
  have hδ : δ b a = δ a b := by simp [δ, eq_comm]
  have h1 : ∀ a3 v, realTerm erfc xi a3 v b a = realTerm erfc xi a3 v a b := fun a3 v => by
    unfold realTerm; rw [hδ, mul_comm (v b / norm3 v)]
  have h2 : ∀ a3 k d, recipTerm L xi a3 k d b a = recipTerm L xi a3 k d a b := fun a3 k d => by
    unfold recipTerm; rw [hδ, mul_comm (k b / norm3 k)]
  have h3 : ∀ p q m, overlap p q m b a = overlap p q m a b := fun p q m => by
    unfold overlap; rw [hδ, mul_comm (m b / norm3 m)]
  unfold ewald
  simp only [h1, h2, h3, hδ]

theorem ewald_congr (erfc : ℝ → ℝ) (L xi : ℝ) (nr nk : Nat) {x x' y y' : Nat → ℝ} (hx : ∀ e < 4, x e = x' e) (hy : ∀ e < 4, y e = y' e) {a b : Nat} (ha : a < 3) (hb : b < 3) :
    ewald erfc L xi nr nk x y a b = ewald erfc L xi nr nk x' y' a b := by
  have hd : ∀ e < 3, x e - y e = x' e - y' e := fun e he => by rw [hx e (by omega), hy e (by omega)]
  unfold ewald
  simp only
  rw [hx 3 (by omega), hy 3 (by omega)]
  have hsq : ∑ e ∈ range 3, (x e - y e) ^ 2 = ∑ e ∈ range 3, (x' e - y' e) ^ 2 := Finset.sum_congr rfl fun e he => by rw [hd e (Finset.mem_range.mp he)]
  have ho : ∀ p q, overlap p q (fun e => nearest L (x e - y e)) a b = overlap p q (fun e => nearest L (x' e - y' e)) a b := by
    intro p q
    have hn : norm3 (fun e => nearest L (x e - y e)) = norm3 (fun e => nearest L (x' e - y' e)) := by
      rw [norm3_sq, norm3_sq, hd 0 (by omega), hd 1 (by omega), hd 2 (by omega)]
    unfold overlap
    beta_reduce
    rw [hn, hd a ha, hd b hb]
  have h1 : ∀ c v, realTerm erfc xi c (fun e => x e - y e + L * (comp v e : ℝ)) a b = realTerm erfc xi c (fun e => x' e - y' e + L * (comp v e : ℝ)) a b :=
    fun c v => realTerm_congr _ _ _ (fun e he => by rw [hd e he]) ha hb
  have h2 : ∀ c k, recipTerm L xi c k (fun e => x e - y e) a b = recipTerm L xi c k (fun e => x' e - y' e) a b := by
    intro c k
    have : ∑ e ∈ range 3, k e * (x e - y e) = ∑ e ∈ range 3, k e * (x' e - y' e) := Finset.sum_congr rfl fun e he => by rw [hd e (Finset.mem_range.mp he)]
    unfold recipTerm
    rw [this]
  rw [hsq, ho]
  simp only [h1, h2]

/-- **C89** (evaluation).  With as many wave vectors as images in every direction (`nk = nr`), filling the work buffer and evaluating the kernel gives the Ewald
sum over *all* images and *all* nonzero wave vectors, although only half of the wave vectors are stored: for every number of spheres, cell
size, splitting parameter and previous contents of the buffer, for spheres at most two cells apart with radii that are not negative. -/
theorem C89_eval (erfc : ℝ → ℝ) {L xi : ℝ} (hL : 0 < L) (n base c0 ld0 n0 c1 ld1 n1 mat ldm : Nat)
    (hsep : Sep 4 c0 ld0 n0 c1 ld1 n1 mat ldm (3 * n0) (3 * n1)) (hldm : 3 * n1 ≤ ldm)
    (hm : ∀ i < 3 * n0, ∀ j < 3 * n1, mat + i * ldm + j < base ∨ base + bufLen n n ≤ mat + i * ldm + j)
    (h0 : ∀ e < 4, ∀ i < n0, c0 + ld0 * e + i < base ∨ base + bufLen n n ≤ c0 + ld0 * e + i)
    (h1 : ∀ e < 4, ∀ j < n1, c1 + ld1 * e + j < base ∨ base + bufLen n n ≤ c1 + ld1 * e + j)
    (w : Nat → ℝ) (ha0 : ∀ i < n0, 0 ≤ w (c0 + ld0 * 3 + i)) (ha1 : ∀ j < n1, 0 ≤ w (c1 + ld1 * 3 + j))
    (hnear : ∀ i < n0, ∀ j < n1, ∀ e < 3, |w (c0 + ld0 * e + i) - w (c1 + ld1 * e + j)| ≤ 2 * L) :
    (∀ i < n0, ∀ j < n1, ∀ a < 3, ∀ b < 3, ewaldEval erfc L xi n n base c0 ld0 n0 c1 ld1 n1 mat ldm (initWorkbuf L xi n n base w) (mat + (3 * i + a) * ldm + (3 * j + b)) =
      ewald erfc L xi n n (fun d => w (c0 + ld0 * d + i)) (fun d => w (c1 + ld1 * d + j)) a b) ∧
    ∀ q, (q < base ∨ base + bufLen n n ≤ q) → (∀ i < 3 * n0, ∀ j < 3 * n1, q ≠ mat + i * ldm + j) →
      ewaldEval erfc L xi n n base c0 ld0 n0 c1 ld1 n1 mat ldm (initWorkbuf L xi n n base w) q = w q := by
  obtain ⟨i1, i2, _⟩ := init_spec L xi n n base w
  have hr := rSize_half n
  set v := initWorkbuf L xi n n base w with hv
  have hfr : ∀ q, (q < base ∨ base + bufLen n n ≤ q) → v q = w q := fun q hq => init_frame L xi n n base w hq
  have hfill : Filled L xi n base v := ⟨i1, fun f hf i hi => i2 f hf i hi (by omega)⟩
  have key : ∀ v', (∀ q, (∀ i < 3 * n0, ∀ j < 3 * n1, q ≠ mat + i * ldm + j) → v' q = v q) → ∀ i < n0, ∀ j < n1, ∀ a < 3, ∀ b < 3,
      ewaldAcc erfc L xi n n base c0 ld0 i c1 ld1 j v' (max a b) (min a b) =
        ewald erfc L xi n n (fun d => w (c0 + ld0 * d + i)) (fun d => w (c1 + ld1 * d + j)) a b := by
    intro v' hv' i hi j hj a ha b hb
    have p0 : ∀ e < 4, pt v' c0 ld0 i e = w (c0 + ld0 * e + i) := fun e he => by
      show v' _ = _
      rw [hv' _ fun i' hi' j' hj' => (hsep i' hi' j' hj').1 e he i hi, hfr _ (h0 e he i hi)]
    have p1 : ∀ e < 4, pt v' c1 ld1 j e = w (c1 + ld1 * e + j) := fun e he => by
      show v' _ = _
      rw [hv' _ fun i' hi' j' hj' => (hsep i' hi' j' hj').2 e he j hj, hfr _ (h1 e he j hj)]
    have hbuf : ∀ q, base ≤ q → q < base + bufLen n n → v' q = v q := fun q hq1 hq2 => hv' q fun i' hi' j' hj' heq => by
      rcases hm i' hi' j' hj' with h | h <;> omega
    have hf' : Filled L xi n base v' := by
      refine ⟨fun d hd k hk => ?_, fun f hf k hk => ?_⟩
      · rw [hbuf _ (by omega), hfill.1 d hd k hk]
        unfold bufLen
        interval_cases d <;> omega
      · rw [hbuf _ (by omega), hfill.2 f hf k hk]
        unfold bufLen
        interval_cases f <;> omega
    rw [ewaldAcc_eq erfc hL hf' (by rw [p0 3 (by omega)]; exact ha0 i hi) (by rw [p1 3 (by omega)]; exact ha1 j hj)
      (fun e he => by rw [p0 e (by omega), p1 e (by omega)]; exact hnear i hi j hj e he) (max_lt ha hb) (lt_of_le_of_lt (min_le_left a b) ha)]
    have hsymB : ∀ x y : Nat → ℝ, ewald erfc L xi n n x y (max a b) (min a b) = ewald erfc L xi n n x y a b := by
      intro x y
      rcases le_total b a with h | h
      · rw [max_eq_left h, min_eq_right h]
      · rw [max_eq_right h, min_eq_left h, ewald_block]
    rw [hsymB]
    exact ewald_congr erfc L xi n n p0 p1 ha hb
  obtain ⟨b1, b2⟩ := blocks_spec (fun i j v => fun k l => ewaldAcc erfc L xi n n base c0 ld0 i c1 ld1 j v (max k l) (min k l)) n0 n1 mat ldm hldm v
    (fun v' hv' i hi j hj a ha b hb => by
      beta_reduce
      rw [key v' hv' i hi j hj a ha b hb, key v (fun _ _ => rfl) i hi j hj a ha b hb])
  refine ⟨fun i hi j hj a ha b hb => ?_, fun q hq hq2 => ?_⟩
  · exact (b1 i hi j hj a ha b hb).trans (key v (fun _ _ => rfl) i hi j hj a ha b hb)
  · exact (b2 q hq2).trans (hfr q hq)

/-- **C89** (too few wave vectors).  With fewer wave vectors than images (`1 ≤ nk < nr`) the stored wave vectors are not those of the sum: the first one lies
outside the truncated lattice, and the shortest vector `(0, 0, 1)` is not there with either sign. -/
theorem C89_fewer (L xi : ℝ) (hL : 0 < L) {nr nk : Nat} (h1 : 1 ≤ nk) (h : nk < nr) (base : Nat) (w : Nat → ℝ) :
    let kvec := fun i d => initWorkbuf L xi nr nk base w (base + 3 * rSize nr + (3 + d) * kSize nk + i)
    (∃ v, (∀ d < 3, kvec 0 d = 2 * Real.pi / L * comp v d) ∧ v ∉ lattice nk) ∧
    ∀ i < kSize nk, kvec i 2 = 2 * Real.pi / L → kvec i 0 = 0 → kvec i 1 = 0 → False := by
  intro kvec
  have hr := rSize_half nr
  have hr' := rSize_half nk
  have hmono : kSize nk < kSize nr := by
    have hlt : rSize nk < rSize nr := by
      have a : 2 * nk + 1 < 2 * nr + 1 := by omega
      unfold rSize
      exact Nat.mul_lt_mul'' (Nat.mul_lt_mul'' a a) a
    omega
  have hpos : 0 < kSize nk := by
    have : 2 < rSize nk := by
      unfold rSize
      have a : 3 ≤ 2 * nk + 1 := by omega
      calc 2 < 3 * 3 * 3 := by norm_num
        _ ≤ _ := Nat.mul_le_mul (Nat.mul_le_mul a a) a
    omega
  have hk : ∀ i < kSize nk, ∀ d < 3, kvec i d = 2 * Real.pi / L * comp (cell nr i) d := by
    intro i hi d hd
    refine ((init_spec L xi nr nk base w).2.1 (3 + d) (by omega) i hi (by omega)).trans ?_
    unfold kEntry
    simp only
    rw [if_neg (by omega), if_neg (by omega), if_neg (by omega), Nat.add_sub_cancel_left]
  have hc0 : cell nr 0 = (-(nr : ℤ), -(nr : ℤ), -(nr : ℤ)) := by
    refine key_inj (n := nr) (cell_mem (by omega)) (by simp [lattice]) ?_
    rw [cell_key (by omega)]
    simp [key]
  refine ⟨⟨cell nr 0, hk 0 hpos, ?_⟩, fun i hi e2 e0 e1 => ?_⟩
  · rw [hc0]
    simp only [lattice, Finset.mem_product, Finset.mem_Icc]
    omega
  · rw [hk i hi _ (by omega)] at e0 e1 e2
    have hp : 2 * Real.pi / L ≠ 0 := by have := Real.pi_pos; positivity
    have c0 : comp (cell nr i) 0 = 0 := by
      rcases mul_eq_zero.mp e0 with h | h
      · exact absurd h hp
      · exact_mod_cast h
    have c1 : comp (cell nr i) 1 = 0 := by
      rcases mul_eq_zero.mp e1 with h | h
      · exact absurd h hp
      · exact_mod_cast h
    have c2 : comp (cell nr i) 2 = 1 := by
      have : (comp (cell nr i) 2 : ℝ) = 1 := by
        have := mul_left_cancel₀ hp (e2.trans (mul_one _).symm)
        exact this
      exact_mod_cast this
    have hv : cell nr i = (0, 0, 1) := by
      generalize cell nr i = v at c0 c1 c2
      obtain ⟨a, b, c⟩ := v
      simp only [comp] at c0 c1 c2
      simp at c0 c1 c2
      rw [c0, c1, c2]
    have hkey := cell_key (n := nr) (idx := i) (by omega)
    have hmid := cell_key (n := nr) (idx := kSize nr) (by omega)
    rw [cell_mid] at hmid
    rw [hv] at hkey
    simp only [key, Prod.fst_zero, Prod.snd_zero, zero_add] at hkey hmid
    omega

/-- **C89** (the same with the other sign). -/
theorem C89_fewer_neg (L xi : ℝ) (hL : 0 < L) {nr nk : Nat} (h : nk < nr) (base : Nat) (w : Nat → ℝ) {i : Nat} (hi : i < kSize nk) :
    ¬ ∀ d < 3, initWorkbuf L xi nr nk base w (base + 3 * rSize nr + (3 + d) * kSize nk + i) = 2 * Real.pi / L * comp (0, 0, -1) d := by
  intro hall
  have hr := rSize_half nr
  have hr' := rSize_half nk
  have hmono : kSize nk < kSize nr := by
    have hlt : rSize nk < rSize nr := by
      have a : 2 * nk + 1 < 2 * nr + 1 := by omega
      unfold rSize
      exact Nat.mul_lt_mul'' (Nat.mul_lt_mul'' a a) a
    omega
  have hp : 2 * Real.pi / L ≠ 0 := by have := Real.pi_pos; positivity
  have hc : ∀ d < 3, comp (cell nr i) d = comp (0, 0, -1) d := by
    intro d hd
    have e := hall d hd
    rw [(init_spec L xi nr nk base w).2.1 (3 + d) (by omega) i hi (by omega)] at e
    unfold kEntry at e
    simp only at e
    rw [if_neg (by omega), if_neg (by omega), if_neg (by omega), Nat.add_sub_cancel_left] at e
    exact_mod_cast mul_left_cancel₀ hp e
  have hv : cell nr i = (0, 0, -1) := by
    have c0 := hc 0 (by omega)
    have c1 := hc 1 (by omega)
    have c2 := hc 2 (by omega)
    generalize cell nr i = v at c0 c1 c2
    obtain ⟨a, b, c⟩ := v
    simp only [comp] at c0 c1 c2
    simp at c0 c1 c2
    rw [c0, c1, c2]
  have hkey := cell_key (n := nr) (idx := i) (by omega)
  have hmid := cell_key (n := nr) (idx := kSize nr) (by omega)
  rw [cell_mid] at hmid
  rw [hv] at hkey
  simp only [key, Prod.fst_zero, Prod.snd_zero, zero_add] at hkey hmid
  omega

/-- **C89** (too many wave vectors).  With more wave vectors than images (`nr < nk`) the zero vector is stored, so that the code divides by 0, and the entries from
`r_size` on are never written. -/
theorem C89_more (L xi : ℝ) {nr nk : Nat} (h : nr < nk) (base : Nat) (w : Nat → ℝ) :
    (∃ i < kSize nk, initWorkbuf L xi nr nk base w (base + 3 * rSize nr + 0 * kSize nk + i) = 0) ∧
    ∀ f < 6, ∀ i < kSize nk, rSize nr ≤ i → initWorkbuf L xi nr nk base w (base + 3 * rSize nr + f * kSize nk + i) = w (base + 3 * rSize nr + f * kSize nk + i) := by
  have hr := rSize_half nr
  have hr' := rSize_half nk
  have hlt : rSize nr < rSize nk := by
    have a : 2 * nr + 1 < 2 * nk + 1 := by omega
    unfold rSize
    exact Nat.mul_lt_mul'' (Nat.mul_lt_mul'' a a) a
  refine ⟨⟨kSize nr, by omega, ?_⟩, fun f hf i hi hge => ?_⟩
  · rw [(init_spec L xi nr nk base w).2.1 0 (by omega) (kSize nr) (by omega) (by omega), cell_mid]
    simp [kEntry, comp]
  · refine (init_spec L xi nr nk base w).2.2 _ (fun d hd i' hi' => ?_) (fun f' hf' i' hi' hr' => ?_)
    · interval_cases d <;> omega
    · interval_cases f <;> interval_cases f' <;> omega

/-- **C89** (spheres more than two cells apart).  The wrapped difference is then not the one to the nearest image. -/
theorem C89_wrap_far {L : ℝ} (hL : 0 < L) : wrap L (-(11 / 4) * L) = -(3 / 4) * L ∧ nearest L (-(11 / 4) * L) = 1 / 4 * L := by
  constructor
  · unfold wrap fmod
    have e : (-(11 / 4) * L + 2 * L) / L = -(3 / 4) := by field_simp; ring
    have hc : (⌈(-(3 / 4) : ℝ)⌉ : ℤ) = 0 := by rw [Int.ceil_eq_iff]; norm_num
    simp only [e]
    rw [if_neg (by norm_num : ¬ (0 : ℝ) ≤ -(3 / 4)), hc]
    have : ¬ -(11 / 4) * L + 2 * L - L * ((0 : ℤ) : ℝ) > 1 / 2 * L := by push_cast; nlinarith
    rw [if_neg this]
    push_cast
    ring
  · unfold nearest
    have e : -(11 / 4) * L / L - 1 / 2 = -(13 / 4) := by field_simp; ring
    have hc : (⌈(-(13 / 4) : ℝ)⌉ : ℤ) = -3 := by rw [Int.ceil_eq_iff]; norm_num
    rw [e, hc]
    push_cast
    ring

theorem nearest_neg {L d : ℝ} (hL : 0 < L) (h : nearest L d ≠ L / 2) : nearest L (-d) = -nearest L d := by
  have h1 := Int.ceil_lt_add_one (d / L - 1 / 2)
  have h2 := Int.le_ceil (d / L - 1 / 2)
  have h3 : d / L - 1 / 2 ≠ ⌈d / L - 1 / 2⌉ := by
    intro he
    apply h
    unfold nearest
    rw [← he]
    field_simp
    ring
  have h4 := lt_of_le_of_ne h2 h3
  have hc : ⌈-d / L - 1 / 2⌉ = -⌈d / L - 1 / 2⌉ := by
    rw [Int.ceil_eq_iff]
    push_cast
    have : -d / L = -(d / L) := neg_div _ _
    constructor <;> linarith
  unfold nearest
  rw [hc]
  push_cast
  ring

/-- **C89** (range of the nearest image). -/
theorem C89_nearest {L : ℝ} (hL : 0 < L) (d : ℝ) : -(L / 2) < nearest L d ∧ nearest L d ≤ L / 2 ∧ ∃ m : ℤ, nearest L d = d - m * L := by
  have h1 := Int.ceil_lt_add_one (d / L - 1 / 2)
  have h2 := Int.le_ceil (d / L - 1 / 2)
  have hd : d = d / L * L := by field_simp
  have a1 : ((⌈d / L - 1 / 2⌉ : ℝ) - 1 / 2) * L < d / L * L := mul_lt_mul_of_pos_right (by linarith) hL
  have a2 : d / L * L ≤ ((⌈d / L - 1 / 2⌉ : ℝ) + 1 / 2) * L := mul_le_mul_of_nonneg_right (by linarith) hL.le
  rw [← hd] at a1 a2
  unfold nearest
  exact ⟨by nlinarith, by nlinarith, ⌈d / L - 1 / 2⌉, by ring⟩

theorem realTerm_neg (erfc : ℝ → ℝ) (xi a : ℝ) (v : Nat → ℝ) (s t : Nat) : realTerm erfc xi a (fun e => -v e) s t = realTerm erfc xi a v t s := by
  have hn : norm3 (fun e => -v e) = norm3 v := by simp only [norm3_sq, neg_mul_neg]
  have hδ : δ s t = δ t s := by simp [δ, eq_comm]
  unfold realTerm
  rw [hn, hδ]
  split_ifs
  · rfl
  · ring

theorem rpyI_comm (p q r : ℝ) : rpyI p q r = rpyI q p r := by
  unfold rpyI
  rw [abs_sub_comm, max_comm, add_comm p q, add_comm (p ^ 2), show (p - q) ^ 2 = (q - p) ^ 2 by ring, show 32 * p * q = 32 * q * p by ring]

theorem rpyR_comm (p q r : ℝ) : rpyR p q r = rpyR q p r := by
  unfold rpyR
  rw [abs_sub_comm, add_comm p q, add_comm (p ^ 2), show (p - q) ^ 2 = (q - p) ^ 2 by ring, show 32 * p * q = 32 * q * p by ring]

/-- **C89** (symmetry).  The matrix is symmetric: exchanging the spheres and the components does not change an entry, provided no coordinate difference is
half a cell (modulo the cell) and spheres at the same place have the same radius. -/
theorem C89_symmetric (erfc : ℝ → ℝ) {L : ℝ} (hL : 0 < L) (xi : ℝ) (nr nk : Nat) (x y : Nat → ℝ) (hhalf : ∀ e, nearest L (x e - y e) ≠ L / 2)
    (hself : ∑ e ∈ range 3, (x e - y e) ^ 2 < (1 / 10 ^ 15) ^ 2 → x 3 = y 3) (s t : Nat) :
    ewald erfc L xi nr nk x y s t = ewald erfc L xi nr nk y x t s := by
  have hδ : δ s t = δ t s := by simp [δ, eq_comm]
  unfold ewald
  simp only
  rw [add_comm (y 3 ^ 2)]
  congr 1
  · congr 1
    · refine Finset.sum_nbij' (fun v => -v) (fun v => -v) (fun v hv => lattice_neg hv) (fun v hv => lattice_neg hv) (fun v _ => neg_neg v) (fun v _ => neg_neg v) fun v _ => ?_
      rw [← realTerm_neg]
      congr 1
      funext e
      rw [comp_neg]
      push_cast
      ring
    · refine Finset.sum_congr rfl fun v _ => ?_
      unfold recipTerm
      have : ∑ e ∈ range 3, 2 * Real.pi / L * (comp v e : ℝ) * (x e - y e) = -∑ e ∈ range 3, 2 * Real.pi / L * (comp v e : ℝ) * (y e - x e) := by
        rw [← Finset.sum_neg_distrib]
        exact Finset.sum_congr rfl fun e _ => by ring
      rw [this, Real.cos_neg, hδ]
      ring
  · have hsq : ∑ e ∈ range 3, (x e - y e) ^ 2 = ∑ e ∈ range 3, (y e - x e) ^ 2 := Finset.sum_congr rfl fun e _ => by ring
    rw [hsq]
    by_cases hc : (1 / 10 ^ 15 : ℝ) ^ 2 ≤ ∑ e ∈ range 3, (y e - x e) ^ 2
    · rw [if_pos hc, if_pos hc]
      have hm : ∀ e, nearest L (y e - x e) = -nearest L (x e - y e) := fun e => by
        rw [← nearest_neg hL (hhalf e), neg_sub]
      simp only [hm]
      have hn : norm3 (fun e => -nearest L (x e - y e)) = norm3 (fun e => nearest L (x e - y e)) := by simp only [norm3_sq, neg_mul_neg]
      unfold overlap
      rw [hn, rpyI_comm (y 3), rpyR_comm (y 3), hδ]
      unfold farI farR
      ring
    · rw [if_neg hc, if_neg hc, hδ, hself (by rw [hsq]; exact not_le.mp hc)]

/-- **C89** (no overlap).  The correction vanishes when the nearest images do not overlap. -/
theorem C89_no_overlap {p q : ℝ} (hp : 0 ≤ p) (hq : 0 ≤ q) (m : Nat → ℝ) (h : p + q < norm3 m) (s t : Nat) : overlap p q m s t = 0 := by
  have h1 : ¬ norm3 m ≤ p + q := not_le.mpr h
  have h2 : ¬ norm3 m ≤ |p - q| := by
    have : |p - q| ≤ p + q := by rw [abs_le]; constructor <;> linarith
    linarith
  unfold overlap rpyI rpyR farI farR
  simp only [if_neg h1, if_neg h2, sub_self, zero_mul, add_zero]

/-! ## The hypotheses can be met -/

/-- Two spheres with themselves, four images in every direction; coordinates at 0, matrix at 8, buffer at 100. -/
example (erfc : ℝ → ℝ) (w : Nat → ℝ) (hr : w 6 = 1 ∧ w 7 = 1) (hc : ∀ q < 6, 0 ≤ w q ∧ w q ≤ 10) :
    ewaldEval erfc 10 1 4 4 100 0 2 2 0 2 2 8 6 (initWorkbuf 10 1 4 4 100 w) (8 + (3 * 1 + 0) * 6 + (3 * 0 + 2)) =
      ewald erfc 10 1 4 4 (fun d => w (0 + 2 * d + 1)) (fun d => w (0 + 2 * d + 0)) 0 2 :=
  (C89_eval erfc (by norm_num : (0 : ℝ) < 10) 4 100 0 2 2 0 2 2 8 6
    (fun i' hi' j' hj' => ⟨fun k hk i hi => by omega, fun k hk j hj => by omega⟩) (by omega)
    (fun i hi j hj => by omega) (fun e he i hi => by omega) (fun e he i hi => by omega) w
    (fun i hi => by interval_cases i <;> simp [hr]) (fun i hi => by interval_cases i <;> simp [hr])
    (fun i hi j hj e he => by
      have a := hc (0 + 2 * e + i) (by omega)
      have b := hc (0 + 2 * e + j) (by omega)
      rw [abs_le]
      constructor <;> linarith)).1 1 (by omega) 0 (by omega) 0 (by omega) 2 (by omega)

end H2Pack.Kern
