import Verif.Proof.Kernels2

/-! Stokes and Rotne-Prager-Yamakawa: one lane, one pair of points. -/

namespace H2Pack.Kern
open H2Pack.MV (Bimv KMv point BimvSpec MvSpec)
open H2Pack.KernSpec
open Finset (range)

/-- Point `i` of the coordinate array at `c`. -/
def pt (w : Nat → ℝ) (c ld i : Nat) : Nat → ℝ := fun d => w (c + ld * d + i)

theorem dist2_three (x y : Nat → ℝ) : dist2 3 x y = (x 0 - y 0) * (x 0 - y 0) + (x 1 - y 1) * (x 1 - y 1) + (x 2 - y 2) * (x 2 - y 2) := by
  simp only [dist2, Finset.sum_range_succ, Finset.sum_range_zero]
  ring

theorem dist2_zero {dim : Nat} {x y : Nat → ℝ} : dist2 dim x y = 0 ↔ ∀ d < dim, x d = y d := by
  unfold dist2
  rw [Finset.sum_eq_zero_iff_of_nonneg fun _ _ => sq_nonneg _]
  constructor
  · intro h d hd
    have := h d (Finset.mem_range.mpr hd)
    rw [sq_eq_zero_iff, sub_eq_zero] at this
    exact this
  · intro h d hd
    rw [h d (Finset.mem_range.mp hd), sub_self]
    ring

theorem dist2_nn (dim : Nat) (x y : Nat → ℝ) : 0 ≤ dist2 dim x y := Finset.sum_nonneg fun _ _ => sq_nonneg _

theorem eucl_pos {x y : Nat → ℝ} (h : dist2 3 x y ≠ 0) : 0 < eucl 3 x y := Real.sqrt_pos.mpr (lt_of_le_of_ne (dist2_nn 3 x y) (Ne.symm h))

theorem sum3_delta (c : ℝ) (u x : Nat → ℝ) {k : Nat} (hk : k < 3) (t : ℝ) :
    ∑ b ∈ range 3, (c * δ k b + t * (u k * u b)) * x b = c * x k + u k * (t * (x 0 * u 0 + x 1 * u 1 + x 2 * u 2)) := by
  simp only [Finset.sum_range_succ, Finset.sum_range_zero, δ]
  interval_cases k <;> simp <;> ring

theorem stokes_alt (eta a0 : ℝ) (x y : Nat → ℝ) (a b : Nat) : stokes eta a0 x y a b =
    (if dist2 3 x y = 0 then stokesC eta a0 else 1 / eucl 3 x y * stokesC34 eta a0) * δ a b +
      (if dist2 3 x y = 0 then stokesC eta a0 else 1 / eucl 3 x y * stokesC34 eta a0) * (unit x y a * unit x y b) := by
  unfold stokes
  by_cases h : dist2 3 x y = 0
  · have h' := dist2_zero.mp h
    rw [if_pos h, if_pos h']
    have hu : unit x y a = 0 := by
      unfold unit eucl
      rw [h, Real.sqrt_zero, div_zero]
    rw [hu]
    simp only [stokesC]
    ring
  · rw [if_neg h, if_neg (fun h' => h (dist2_zero.mpr h'))]
    simp only [stokesC34, stokesC]
    ring

theorem stokes_sym_block (eta a0 : ℝ) (x y : Nat → ℝ) (a b : Nat) : stokes eta a0 x y a b = stokes eta a0 x y b a := by
  rw [stokes_alt, stokes_alt, show δ a b = δ b a by simp [δ, eq_comm]]
  ring

theorem rpy_sym_block (eta : ℝ) (x y : Nat → ℝ) (a b : Nat) : rpy eta x y a b = rpy eta x y b a := by
  unfold rpy
  rw [show δ a b = δ b a by simp [δ, eq_comm], mul_comm (unit x y a)]

/-- The scaled direction on a lane. -/
theorem lane_unit {S : Simd} (hS : S.Ok) (x y : Nat → ℝ) (k : Nat) (hk : k < 3) : (x k - y k) * (S.frsqrt (dist2 3 x y) * S.pf) = unit x y k := by
  by_cases h : dist2 3 x y = 0
  · rw [dist2_zero.mp h k hk]
    unfold unit
    rw [dist2_zero.mp h k hk]
    simp
  · rw [mul_comm (S.frsqrt _), hS.frsqrt _ (lt_of_le_of_ne (dist2_nn 3 x y) (Ne.symm h))]
    unfold unit eucl
    ring

theorem stokes_good {S : Simd} (hS : S.Ok) (eta a0 : ℝ) (c0 ld0 c1 ld1 : Nat) :
    Good (fun w i j => stokesDir S eta a0 w c0 ld0 i c1 ld1 j) stokesAcc (fun w i j => stokes eta a0 (pt w c0 ld0 i) (pt w c1 ld1 j)) := by
  intro w i j l x k a hk
  have hr2 : ∀ y : Nat → ℝ, y = pt w c1 ld1 (j + l) → (w (c0 + ld0 * 2 + i) - w (c1 + ld1 * 2 + j + l)) * (w (c0 + ld0 * 2 + i) - w (c1 + ld1 * 2 + j + l)) +
      ((w (c0 + ld0 * 1 + i) - w (c1 + ld1 * 1 + j + l)) * (w (c0 + ld0 * 1 + i) - w (c1 + ld1 * 1 + j + l)) +
        (w (c0 + ld0 * 0 + i) - w (c1 + ld1 * 0 + j + l)) * (w (c0 + ld0 * 0 + i) - w (c1 + ld1 * 0 + j + l))) = dist2 3 (pt w c0 ld0 i) y := by
    rintro y rfl
    rw [dist2_three]
    simp only [pt, Nat.add_assoc]
    ring
  have hu : ∀ k < 3, (stokesDir S eta a0 w c0 ld0 i c1 ld1 j).d k l = unit (pt w c0 ld0 i) (pt w c1 ld1 (j + l)) k := by
    intro k hk
    rw [← lane_unit hS _ _ k hk]
    simp only [stokesDir, vmul, vmap, vfma, vsub, bcast, load, set1]
    rw [hr2 _ rfl]
    simp only [pt, Nat.add_assoc]
  have ht : (stokesDir S eta a0 w c0 ld0 i c1 ld1 j).t1 l = if dist2 3 (pt w c0 ld0 i) (pt w c1 ld1 (j + l)) = 0 then stokesC eta a0
      else 1 / eucl 3 (pt w c0 ld0 i) (pt w c1 ld1 (j + l)) * stokesC34 eta a0 := by
    simp only [stokesDir, blend, cmpEq, vmul, vmap, vfma, vsub, bcast, load, set1]
    simp only [hr2 _ rfl]
    by_cases h : dist2 3 (pt w c0 ld0 i) (pt w c1 ld1 (j + l)) = 0
    · rw [if_pos h, if_pos h]
    · rw [if_neg h, if_neg h, mul_comm (S.frsqrt _), hS.frsqrt _ (lt_of_le_of_ne (dist2_nn 3 _ _) (Ne.symm h))]
      rfl
  simp only [stokes_alt]
  rw [sum3_delta _ _ _ hk]
  simp only [stokesAcc, dot3]
  simp only [vfma, vmul]
  rw [hu k hk, hu 0 (by omega), hu 1 (by omega), hu 2 (by omega), ht]
  ring

theorem max_abs (a b : ℝ) : max (a - b) (b - a) = |a - b| := by
  rw [abs_eq_max_neg, neg_sub]

theorem rpy_good {S : Simd} (hS : S.Ok) (eta : ℝ) (c0 ld0 c1 ld1 : Nat) :
    Good (fun w i j => rpyDir S eta w c0 ld0 i c1 ld1 j) rpyAcc (fun w i j => rpy eta (pt w c0 ld0 i) (pt w c1 ld1 j)) := by
  intro w i j l x k a hk
  have hr2 : ∀ y : Nat → ℝ, y = pt w c1 ld1 (j + l) → (w (c0 + ld0 * 2 + i) - w (c1 + ld1 * 2 + j + l)) * (w (c0 + ld0 * 2 + i) - w (c1 + ld1 * 2 + j + l)) +
      ((w (c0 + ld0 * 1 + i) - w (c1 + ld1 * 1 + j + l)) * (w (c0 + ld0 * 1 + i) - w (c1 + ld1 * 1 + j + l)) +
        (w (c0 + ld0 * 0 + i) - w (c1 + ld1 * 0 + j + l)) * (w (c0 + ld0 * 0 + i) - w (c1 + ld1 * 0 + j + l))) = dist2 3 (pt w c0 ld0 i) y := by
    rintro y rfl
    rw [dist2_three]
    simp only [pt, Nat.add_assoc]
    ring
  set X := pt w c0 ld0 i with hX
  set Y := pt w c1 ld1 (j + l) with hY
  have hsa : w (c1 + ld1 * 3 + j + l) = Y 3 := by rw [hY]; simp only [pt, Nat.add_assoc]
  have hta : w (c0 + ld0 * 3 + i) = X 3 := rfl
  have hu : ∀ k < 3, (rpyDir S eta w c0 ld0 i c1 ld1 j).d k l = unit X Y k := by
    intro k hk
    rw [← lane_unit hS _ _ k hk]
    simp only [rpyDir, vmul, vmap, vfma, vsub, bcast, load, set1]
    rw [hr2 _ rfl, hX, hY]
    simp only [pt, Nat.add_assoc]
  have hr : S.frsqrt (dist2 3 X Y) * S.pf * dist2 3 X Y = eucl 3 X Y := by
    by_cases h : dist2 3 X Y = 0
    · unfold eucl; rw [h]; simp
    · rw [mul_comm (S.frsqrt _), hS.frsqrt _ (lt_of_le_of_ne (dist2_nn 3 X Y) (Ne.symm h))]
      have hp := eucl_pos h
      have hs : dist2 3 X Y = eucl 3 X Y * eucl 3 X Y := (Real.mul_self_sqrt (dist2_nn 3 X Y)).symm
      show 1 / eucl 3 X Y * dist2 3 X Y = _
      rw [hs]
      field_simp
  have hinv : ¬ eucl 3 X Y ≤ |X 3 - Y 3| → S.frsqrt (dist2 3 X Y) * S.pf = (eucl 3 X Y)⁻¹ ∧ dist2 3 X Y = eucl 3 X Y ^ 2 := by
    intro hlt
    have h : dist2 3 X Y ≠ 0 := by
      intro h0
      apply hlt
      unfold eucl
      rw [h0, Real.sqrt_zero]
      exact abs_nonneg _
    refine ⟨?_, (Real.sq_sqrt (dist2_nn 3 X Y)).symm⟩
    rw [mul_comm (S.frsqrt _), hS.frsqrt _ (lt_of_le_of_ne (dist2_nn 3 X Y) (Ne.symm h)), one_div]
    rfl
  have ht1 : (rpyDir S eta w c0 ld0 i c1 ld1 j).t1 l = 1 / (6 * Real.pi * eta) * rpyI (X 3) (Y 3) (eucl 3 X Y) := by
    simp only [rpyDir, blend, cmpGt, cmpLe, vmul, vmap, vfma, vfms, vsub, vadd, vdiv, vmax, bcast, load, set1]
    simp only [hr2 _ rfl, hta, hsa, max_abs, hr]
    unfold rpyI
    by_cases h1 : eucl 3 X Y ≤ |X 3 - Y 3|
    · rw [if_pos h1, if_pos h1]
      ring
    · rw [if_neg h1, if_neg h1]
      obtain ⟨g1, g2⟩ := hinv h1
      rw [g1, g2]
      have habs : |X 3 - Y 3| * |X 3 - Y 3| = (X 3 - Y 3) ^ 2 := by rw [abs_mul_abs_self]; ring
      by_cases h2 : eucl 3 X Y ≤ X 3 + Y 3
      · rw [if_neg (not_lt.mpr h2), if_pos h2, habs]
        ring
      · rw [if_pos (not_le.mp h2), if_neg h2]
        ring
  have ht2 : (rpyDir S eta w c0 ld0 i c1 ld1 j).t2 l = 1 / (6 * Real.pi * eta) * rpyR (X 3) (Y 3) (eucl 3 X Y) := by
    simp only [rpyDir, blend, cmpGt, cmpLe, vmul, vmap, vfma, vsub, vadd, vdiv, vmax, bcast, load, set1]
    simp only [hr2 _ rfl, hta, hsa, max_abs, hr]
    unfold rpyR
    by_cases h1 : eucl 3 X Y ≤ |X 3 - Y 3|
    · rw [if_pos h1, if_pos h1]
      ring
    · rw [if_neg h1, if_neg h1]
      obtain ⟨g1, g2⟩ := hinv h1
      rw [g1, g2]
      have habs : |X 3 - Y 3| * |X 3 - Y 3| = (X 3 - Y 3) ^ 2 := by rw [abs_mul_abs_self]; ring
      by_cases h2 : eucl 3 X Y ≤ X 3 + Y 3
      · rw [if_neg (not_lt.mpr h2), if_pos h2, habs]
        ring
      · rw [if_pos (not_le.mp h2), if_neg h2]
        ring
  have hk' : ∀ b, rpy eta X Y k b = 1 / (6 * Real.pi * eta) * rpyI (X 3) (Y 3) (eucl 3 X Y) * δ k b + 1 / (6 * Real.pi * eta) * rpyR (X 3) (Y 3) (eucl 3 X Y) * (unit X Y k * unit X Y b) := by
    intro b
    unfold rpy
    ring
  show _ = a l + ∑ b ∈ range 3, rpy eta X Y k b * x b l
  simp only [hk']
  rw [sum3_delta _ _ _ hk]
  simp only [rpyAcc, dot3]
  simp only [vfma, vmul]
  rw [hu k hk, hu 0 (by omega), hu 1 (by omega), hu 2 (by omega), ht1, ht2]
  ring

/-- The evaluation routine of the Stokes kernel, one pair. -/
theorem stokesPair_eq (eta a0 : ℝ) (c0 ld0 i c1 ld1 j : Nat) (w : Nat → ℝ) {k l : Nat} (hk : k < 3) (hl : l < 3) :
    stokesPair eta a0 c0 ld0 i c1 ld1 j w k l = stokes eta a0 (pt w c0 ld0 i) (pt w c1 ld1 j) k l := by
  set X := pt w c0 ld0 i with hX
  set Y := pt w c1 ld1 j with hY
  have hd : ∀ k, w (c0 + ld0 * k + i) - w (c1 + ld1 * k + j) = X k - Y k := fun k => rfl
  have hunit : ∀ k < 3, (X k - Y k) * (if dist2 3 X Y = 0 then 0 else 1 / √(dist2 3 X Y)) = unit X Y k := by
    intro k hk
    unfold unit eucl
    by_cases h : dist2 3 X Y = 0
    · rw [if_pos h, h]; simp
    · rw [if_neg h]; ring
  rw [stokes_alt]
  simp only [stokesPair, hd]
  rw [← dist2_three, hunit k hk, hunit l hl]
  have ht : (if dist2 3 X Y = 0 then stokesC eta a0 else (if dist2 3 X Y = 0 then 0 else 1 / √(dist2 3 X Y)) * stokesC34 eta a0) =
      if dist2 3 X Y = 0 then stokesC eta a0 else 1 / eucl 3 X Y * stokesC34 eta a0 := by
    by_cases h : dist2 3 X Y = 0
    · rw [if_pos h, if_pos h]
    · rw [if_neg h, if_neg h, if_neg h]; rfl
  rw [ht]
  by_cases hkl : k = l
  · subst hkl
    simp only [δ, if_true]
    ring
  · simp only [δ, if_neg hkl]
    ring

/-- The evaluation routine of the RPY kernel, one pair. -/
theorem rpyPair_eq (eta : ℝ) (c0 ld0 i c1 ld1 j : Nat) (w : Nat → ℝ) (ha : 0 ≤ pt w c0 ld0 i 3) (hb : 0 ≤ pt w c1 ld1 j 3) {k l : Nat} (hk : k < 3) (hl : l < 3) :
    rpyPair eta c0 ld0 i c1 ld1 j w k l = rpy eta (pt w c0 ld0 i) (pt w c1 ld1 j) k l := by
  set X := pt w c0 ld0 i with hX
  set Y := pt w c1 ld1 j with hY
  have hd : ∀ k, w (c0 + ld0 * k + i) - w (c1 + ld1 * k + j) = X k - Y k := fun k => rfl
  have hta : w (c0 + ld0 * 3 + i) = X 3 := rfl
  have hsa : w (c1 + ld1 * 3 + j) = Y 3 := rfl
  have hinv : (if eucl 3 X Y = 0 then 0 else 1 / eucl 3 X Y) = (eucl 3 X Y)⁻¹ := by
    by_cases h : eucl 3 X Y = 0
    · rw [if_pos h, h, inv_zero]
    · rw [if_neg h, one_div]
  have hunit : ∀ k, (X k - Y k) * (eucl 3 X Y)⁻¹ = unit X Y k := fun k => by unfold unit; rw [div_eq_mul_inv]
  have hle : |X 3 - Y 3| ≤ X 3 + Y 3 := by rw [abs_le]; constructor <;> linarith
  have hs : dist2 3 X Y = eucl 3 X Y ^ 2 := (Real.sq_sqrt (dist2_nn 3 X Y)).symm
  have hmax : (if X 3 > Y 3 then X 3 else Y 3) = max (X 3) (Y 3) := by
    split_ifs with h
    · rw [max_eq_left h.le]
    · rw [max_eq_right (not_lt.mp h)]
  unfold rpy rpyI rpyR
  simp only [rpyPair, hd, hta, hsa]
  rw [← dist2_three]
  rw [show √(dist2 3 X Y) = eucl 3 X Y from rfl]
  simp only [hinv, hunit, hmax]
  rw [hs]
  by_cases h1 : eucl 3 X Y ≤ |X 3 - Y 3|
  · have g1 : ¬ eucl 3 X Y > X 3 + Y 3 := by linarith
    have g2 : ¬ eucl 3 X Y > |X 3 - Y 3| := not_lt.mpr h1
    simp only [if_pos h1, if_neg g1, if_neg g2]
    by_cases hkl : k = l
    · subst hkl
      simp only [δ, if_true]
      ring
    · simp only [δ, if_neg hkl]
      ring
  · by_cases h2 : eucl 3 X Y ≤ X 3 + Y 3
    · have g1 : ¬ eucl 3 X Y > X 3 + Y 3 := not_lt.mpr h2
      have g2 : eucl 3 X Y > |X 3 - Y 3| := not_le.mp h1
      simp only [if_neg h1, if_pos h2, if_neg g1, if_pos g2]
      by_cases hkl : k = l
      · subst hkl
        simp only [δ, if_true]
        ring
      · simp only [δ, if_neg hkl]
        ring
    · have g1 : eucl 3 X Y > X 3 + Y 3 := not_le.mp h2
      simp only [if_neg h1, if_neg h2, if_pos g1]
      by_cases hkl : k = l
      · subst hkl
        simp only [δ, if_true]
        ring
      · simp only [δ, if_neg hkl]
        ring

end H2Pack.Kern
