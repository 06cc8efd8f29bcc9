import Verif.Proof.Ewald1
import Mathlib.Tactic.FieldSimp

/-! The Ewald kernel: one pair of spheres. -/

namespace H2Pack.Kern
open H2Pack.KernSpec
open Finset (range)

theorem acc_fold (g : Nat → Nat → Nat → ℝ) (n : Nat) (acc : Nat → Nat → ℝ) (k l : Nat) :
    (List.range n).foldl (fun (acc : Nat → Nat → ℝ) i => fun k l => acc k l + g i k l) acc k l = acc k l + ∑ i ∈ range n, g i k l := by
  induction n with
  | zero => simp
  | succ n ih =>
    rw [List.range_succ, List.foldl_append, Finset.sum_range_succ]
    simp only [List.foldl_cons, List.foldl_nil]
    rw [ih, add_assoc]

theorem norm3_sq (v : Nat → ℝ) : norm3 v = √(v 0 * v 0 + v 1 * v 1 + v 2 * v 2) := by
  unfold norm3
  congr 1
  simp only [Finset.sum_range_succ, Finset.sum_range_zero]
  ring

theorem sq3_nonneg (v : Nat → ℝ) : 0 ≤ v 0 * v 0 + v 1 * v 1 + v 2 * v 2 := by nlinarith [sq_nonneg (v 0), sq_nonneg (v 1), sq_nonneg (v 2)]

theorem norm3_pow (v : Nat → ℝ) : norm3 v ^ 2 = v 0 * v 0 + v 1 * v 1 + v 2 * v 2 := by
  rw [norm3_sq, Real.sq_sqrt (sq3_nonneg v)]

theorem norm3_zero (v : Nat → ℝ) : v 0 * v 0 + v 1 * v 1 + v 2 * v 2 = 0 ↔ norm3 v = 0 := by
  rw [norm3_sq, Real.sqrt_eq_zero (sq3_nonneg v)]

/-- What one pass over the images adds. -/
theorem realStep_eq (erfc : ℝ → ℝ) (xi a3 : ℝ) (R base : Nat) (d w : Nat → ℝ) (acc : Nat → Nat → ℝ) (idx : Nat) :
    realStep erfc xi a3 R base d w acc idx = fun k l => acc k l + realTerm erfc xi a3 (fun e => d e + w (base + e * R + idx)) k l := by
  funext k l
  unfold realStep realTerm
  simp only
  congr 1
  generalize hv : (fun e => d e + w (base + e * R + idx)) = v
  have hv' : ∀ e, d e + w (base + e * R + idx) = v e := fun e => by rw [← hv]
  simp only [hv']
  rw [← norm3_sq]
  by_cases h : norm3 v = 0
  · have h0 := (norm3_zero v).mpr h
    simp only [if_pos h0, if_pos h]
    split_ifs <;> ring
  · have h0 : ¬ v 0 * v 0 + v 1 * v 1 + v 2 * v 2 = 0 := fun h' => h ((norm3_zero v).mp h')
    simp only [if_neg h0, if_neg h]
    rw [← norm3_pow]
    unfold ewI ewR
    have e1 : -(xi * xi) * norm3 v ^ 2 = -(xi ^ 2 * norm3 v ^ 2) := by ring
    rw [e1]
    generalize erfc (xi * norm3 v) = E
    generalize Real.exp (-(xi ^ 2 * norm3 v ^ 2)) = X
    generalize √Real.pi = p
    by_cases hkl : k = l
    · subst hkl
      simp only [δ, if_true]
      ring
    · simp only [δ, if_neg hkl]
      ring

/-- What one pass over the wave vectors adds: twice the term of the formula. -/
theorem recipStep_eq {L xi a3 : ℝ} (hL : 0 < L) {R K base : Nat} (d w : Nat → ℝ) (acc : Nat → Nat → ℝ) (idx : Nat) (v : ℤ × ℤ × ℤ)
    (hw : ∀ f < 6, w (base + 3 * R + f * K + idx) = kEntry L xi v f) {k l : Nat} (hk : k < 3) (hl : l < 3) :
    recipStep a3 R K base d w acc idx k l = acc k l + 2 * recipTerm L xi a3 (fun e => 2 * Real.pi / L * comp v e) d k l := by
  unfold recipStep recipTerm
  simp only
  congr 1
  generalize hu : (fun e => 2 * Real.pi / L * (comp v e : ℝ)) = u
  have hu' : ∀ e, 2 * Real.pi / L * (comp v e : ℝ) = u e := fun e => by rw [← hu]
  simp only [hu']
  have hvec : ∀ e < 3, w (base + 3 * R + (3 + e) * K + idx) = u e := by
    intro e he
    rw [hw _ (by omega)]
    unfold kEntry
    simp only
    rw [if_neg (by omega), if_neg (by omega), if_neg (by omega), Nat.add_sub_cancel_left, hu']
  have hn : 2 * Real.pi / L * √((comp v 0 * comp v 0 + comp v 1 * comp v 1 + comp v 2 * comp v 2 : ℤ) : ℝ) = norm3 u := by
    rw [norm3_sq, ← hu' 0, ← hu' 1, ← hu' 2]
    rw [show 2 * Real.pi / L * (comp v 0 : ℝ) * (2 * Real.pi / L * comp v 0) + 2 * Real.pi / L * comp v 1 * (2 * Real.pi / L * comp v 1) +
      2 * Real.pi / L * comp v 2 * (2 * Real.pi / L * comp v 2) = (2 * Real.pi / L) ^ 2 * ((comp v 0 * comp v 0 + comp v 1 * comp v 1 + comp v 2 * comp v 2 : ℤ) : ℝ) by push_cast; ring]
    rw [Real.sqrt_mul (sq_nonneg _), Real.sqrt_sq (by have := Real.pi_pos; positivity)]
  have h0 : w (base + 3 * R + 0 * K + idx) = norm3 u := by
    rw [hw 0 (by omega)]; unfold kEntry; simp only; rw [if_pos trivial, hn]
  have h1 : w (base + 3 * R + 1 * K + idx) = 1 / norm3 u := by
    rw [hw 1 (by omega)]; unfold kEntry; simp only; rw [if_neg (by omega), if_pos trivial, hn]
  have h2 : w (base + 3 * R + 2 * K + idx) = 2 * (1 / (L * L * L)) * (1 + 1 / 4 * (norm3 u * norm3 u / (xi * xi)) + 1 / 8 * (norm3 u * norm3 u / (xi * xi)) * (norm3 u * norm3 u / (xi * xi))) * 6 * Real.pi /
      (norm3 u * norm3 u) * Real.exp (-(1 / 4) * (norm3 u * norm3 u / (xi * xi))) := by
    rw [hw 2 (by omega)]; unfold kEntry; simp only; rw [if_neg (by omega), if_neg (by omega), if_pos trivial, hn]
  have hdot : ∑ e ∈ range 3, u e * d e = w (base + 3 * R + 3 * K + idx) * d 0 + w (base + 3 * R + 4 * K + idx) * d 1 + w (base + 3 * R + 5 * K + idx) * d 2 := by
    have g0 := hvec 0 (by omega)
    have g1 := hvec 1 (by omega)
    have g2 := hvec 2 (by omega)
    rw [show 3 + 0 = 3 from rfl] at g0
    rw [show 3 + 1 = 4 from rfl] at g1
    rw [show 3 + 2 = 5 from rfl] at g2
    rw [g0, g1, g2]
    simp only [Finset.sum_range_succ, Finset.sum_range_zero]
    ring
  rw [← hdot, hvec k hk, hvec l hl, h0, h1, h2]
  have e1 : -(1 / 4) * (norm3 u * norm3 u / (xi * xi)) = -(norm3 u ^ 2 / (4 * xi ^ 2)) := by ring
  rw [e1]
  generalize Real.exp (-(norm3 u ^ 2 / (4 * xi ^ 2))) = X
  generalize Real.cos (∑ e ∈ range 3, u e * d e) = Y
  by_cases hkl : k = l
  · subst hkl
    simp only [δ, if_true]
    ring
  · simp only [δ, if_neg hkl]
    ring

theorem comp_neg (v : ℤ × ℤ × ℤ) (e : Nat) : comp (-v) e = -comp v e := by
  unfold comp
  split_ifs <;> rfl

theorem recip_even (L xi a : ℝ) (d : Nat → ℝ) (s t : Nat) (v : ℤ × ℤ × ℤ) :
    recipTerm L xi a (fun e => 2 * Real.pi / L * comp (-v) e) d s t = recipTerm L xi a (fun e => 2 * Real.pi / L * comp v e) d s t := by
  have hn : norm3 (fun e => 2 * Real.pi / L * (comp (-v) e : ℝ)) = norm3 (fun e => 2 * Real.pi / L * (comp v e : ℝ)) := by
    unfold norm3
    congr 1
    refine Finset.sum_congr rfl fun e _ => ?_
    beta_reduce
    rw [comp_neg]
    push_cast
    ring
  have hd : ∑ e ∈ range 3, 2 * Real.pi / L * (comp (-v) e : ℝ) * d e = -∑ e ∈ range 3, 2 * Real.pi / L * (comp v e : ℝ) * d e := by
    rw [← Finset.sum_neg_distrib]
    refine Finset.sum_congr rfl fun e _ => ?_
    rw [comp_neg]
    push_cast
    ring
  unfold recipTerm
  simp only
  rw [hn, hd, Real.cos_neg, comp_neg, comp_neg]
  push_cast
  ring

/-- The wrapped difference is the difference to the nearest image when the spheres are at most two cells apart. -/
theorem wrap_nearest {L d : ℝ} (hL : 0 < L) (hd : |d| ≤ 2 * L) : wrap L d = nearest L d := by
  have hd' := abs_le.mp hd
  unfold wrap fmod nearest
  have e1 : (d + 2 * L) / L = d / L + 2 := by field_simp
  have hn : 0 ≤ d / L + 2 := by rw [← e1]; exact div_nonneg (by linarith) hL.le
  simp only [e1]
  rw [if_pos hn]
  have hfl : ⌊d / L + 2⌋ = ⌊d / L⌋ + 2 := by
    have := Int.floor_add_intCast (d / L) 2
    push_cast at this
    exact this
  rw [hfl]
  push_cast
  have hdL : d = d / L * L := by field_simp
  have f1 := Int.floor_le (d / L)
  have f2 := Int.lt_floor_add_one (d / L)
  by_cases hgt : d + 2 * L - L * ((⌊d / L⌋ : ℝ) + 2) > 1 / 2 * L
  · rw [if_pos hgt]
    have : (⌈d / L - 1 / 2⌉ : ℤ) = ⌊d / L⌋ + 1 := by
      rw [Int.ceil_eq_iff]
      push_cast
      constructor
      · have : (1 / 2 : ℝ) < d / L - ⌊d / L⌋ := by
          have h : 1 / 2 * L < (d / L - ⌊d / L⌋) * L := by rw [sub_mul, ← hdL]; linarith
          exact lt_of_mul_lt_mul_right h hL.le
        linarith
      · linarith
    rw [this]
    push_cast
    ring
  · rw [if_neg hgt]
    have : (⌈d / L - 1 / 2⌉ : ℤ) = ⌊d / L⌋ := by
      rw [Int.ceil_eq_iff]
      constructor
      · linarith
      · have : d / L - ⌊d / L⌋ ≤ (1 / 2 : ℝ) := by
          have h : (d / L - ⌊d / L⌋) * L ≤ 1 / 2 * L := by rw [sub_mul, ← hdL]; linarith
          exact le_of_mul_le_mul_right h hL
        linarith
    rw [this]
    ring

theorem overlapStep_eq {L ai aj : ℝ} (hL : 0 < L) (hi : 0 ≤ ai) (hj : 0 ≤ aj) (d : Nat → ℝ) (hd : ∀ e < 3, |d e| ≤ 2 * L) (acc : Nat → Nat → ℝ) {k l : Nat} (hk : k < 3) (hl : l < 3) :
    overlapStep L ai aj d acc k l = acc k l + overlap ai aj (fun e => nearest L (d e)) k l := by
  unfold overlapStep overlap
  simp only
  congr 1
  rw [wrap_nearest hL (hd 0 (by omega)), wrap_nearest hL (hd 1 (by omega)), wrap_nearest hL (hd 2 (by omega)), wrap_nearest hL (hd k hk), wrap_nearest hL (hd l hl)]
  generalize hm : (fun e => nearest L (d e)) = m
  have hm' : ∀ e, nearest L (d e) = m e := fun e => by rw [← hm]
  simp only [hm']
  rw [← norm3_sq, ← norm3_pow]
  have hle : |ai - aj| ≤ ai + aj := by rw [abs_le]; constructor <;> linarith
  have hmax : (if ai > aj then ai else aj) = max ai aj := by
    split_ifs with h
    · rw [max_eq_left h.le]
    · rw [max_eq_right (not_lt.mp h)]
  rw [hmax]
  unfold rpyI rpyR farI farR
  generalize hr : norm3 m = r
  by_cases h1 : r ≤ |ai - aj|
  · have g1 : ¬ r > ai + aj := by linarith
    have g2 : ¬ r > |ai - aj| := not_lt.mpr h1
    simp only [if_pos h1, if_neg g1, if_neg g2]
    by_cases hkl : k = l
    · subst hkl
      simp only [δ, if_true]
      ring
    · simp only [δ, if_neg hkl]
      ring
  · by_cases h2 : r ≤ ai + aj
    · have g1 : ¬ r > ai + aj := not_lt.mpr h2
      have g2 : r > |ai - aj| := not_le.mp h1
      simp only [if_neg h1, if_pos h2, if_neg g1, if_pos g2]
      by_cases hkl : k = l
      · subst hkl
        simp only [δ, if_true]
        ring
      · simp only [δ, if_neg hkl]
        ring
    · have g1 : r > ai + aj := not_le.mp h2
      simp only [if_neg h1, if_neg h2, if_pos g1]
      by_cases hkl : k = l
      · subst hkl
        simp only [δ, if_true]
        ring
      · simp only [δ, if_neg hkl]
        ring

/-- The memory holds the work buffer for `nr` images and as many wave vectors. -/
def Filled (L xi : ℝ) (n base : Nat) (w : Nat → ℝ) : Prop :=
  (∀ d < 3, ∀ i < rSize n, w (base + d * rSize n + i) = L * comp (cell n i) d) ∧
    ∀ f < 6, ∀ i < kSize n, w (base + 3 * rSize n + f * kSize n + i) = kEntry L xi (cell n i) f

theorem realTerm_congr (erfc : ℝ → ℝ) (xi a : ℝ) {u v : Nat → ℝ} (h : ∀ e < 3, u e = v e) {k l : Nat} (hk : k < 3) (hl : l < 3) : realTerm erfc xi a u k l = realTerm erfc xi a v k l := by
  have hn : norm3 u = norm3 v := by rw [norm3_sq, norm3_sq, h 0 (by omega), h 1 (by omega), h 2 (by omega)]
  unfold realTerm
  rw [hn, h k hk, h l hl]

theorem ewaldAcc_eq (erfc : ℝ → ℝ) {L xi : ℝ} (hL : 0 < L) {n base : Nat} {c0 ld0 i c1 ld1 j : Nat} {w : Nat → ℝ} (hw : Filled L xi n base w)
    (hi : 0 ≤ pt w c0 ld0 i 3) (hj : 0 ≤ pt w c1 ld1 j 3) (hd : ∀ e < 3, |pt w c0 ld0 i e - pt w c1 ld1 j e| ≤ 2 * L) {k l : Nat} (hk : k < 3) (hl : l < 3) :
    ewaldAcc erfc L xi n n base c0 ld0 i c1 ld1 j w k l = ewald erfc L xi n n (pt w c0 ld0 i) (pt w c1 ld1 j) k l := by
  set X := pt w c0 ld0 i with hX
  set Y := pt w c1 ld1 j with hY
  have hX' : ∀ e, w (c0 + ld0 * e + i) = X e := fun e => rfl
  have hY' : ∀ e, w (c1 + ld1 * e + j) = Y e := fun e => rfl
  unfold ewaldAcc ewald
  simp only [hX', hY']
  have ha : 1 / 2 * (X 3 * X 3 + Y 3 * Y 3) = (X 3 ^ 2 + Y 3 ^ 2) / 2 := by ring
  rw [ha]
  set a := (X 3 ^ 2 + Y 3 ^ 2) / 2
  set d : Nat → ℝ := fun e => X e - Y e with hdd
  -- the two sums
  have hreal : ∀ acc : Nat → Nat → ℝ, ∀ k < 3, ∀ l < 3, (List.range (rSize n)).foldl (realStep erfc xi a (rSize n) base d w) acc k l =
      acc k l + ∑ v ∈ lattice n, realTerm erfc xi a (fun e => d e + L * comp v e) k l := by
    intro acc k hk l hl
    have : realStep erfc xi a (rSize n) base d w = fun acc idx => fun k l => acc k l + realTerm erfc xi a (fun e => d e + w (base + e * rSize n + idx)) k l := by
      funext acc idx
      exact realStep_eq erfc xi a (rSize n) base d w acc idx
    rw [this, acc_fold, ← sum_cells]
    congr 1
    refine Finset.sum_congr rfl fun idx hidx => realTerm_congr erfc xi a (fun e he => ?_) hk hl
    rw [hw.1 e he idx (Finset.mem_range.mp hidx)]
  have hrecip : ∀ acc : Nat → Nat → ℝ, ∀ k < 3, ∀ l < 3, (List.range (kSize n)).foldl (recipStep a (rSize n) (kSize n) base d w) acc k l =
      acc k l + ∑ v ∈ lattice n with v ≠ 0, recipTerm L xi a (fun e => 2 * Real.pi / L * comp v e) d k l := by
    intro acc k hk l hl
    rw [← sum_half n (fun v => recipTerm L xi a (fun e => 2 * Real.pi / L * comp v e) d k l) (fun v => recip_even L xi a d k l v)]
    refine foldl_range_ind (fun m (acc' : Nat → Nat → ℝ) => acc' k l = acc k l + ∑ i ∈ range m, 2 * recipTerm L xi a (fun e => 2 * Real.pi / L * comp (cell n i) e) d k l)
      (recipStep a (rSize n) (kSize n) base d w) acc (kSize n) (by simp) ?_
    intro t acc' ht ih
    rw [recipStep_eq hL d w acc' t (cell n t) (fun f hf => hw.2 f hf t ht) hk hl, ih, Finset.sum_range_succ _ t, add_assoc]
  have hr2 : ∑ e ∈ range 3, d e ^ 2 = (X 0 - Y 0) * (X 0 - Y 0) + (X 1 - Y 1) * (X 1 - Y 1) + (X 2 - Y 2) * (X 2 - Y 2) := by
    simp only [Finset.sum_range_succ, Finset.sum_range_zero, hdd]
    ring
  have hr2' : ∑ e ∈ range 3, (X e - Y e) ^ 2 = (X 0 - Y 0) * (X 0 - Y 0) + (X 1 - Y 1) * (X 1 - Y 1) + (X 2 - Y 2) * (X 2 - Y 2) := hr2
  rw [hr2']
  rw [show ((1 : ℝ) / 10 ^ 15) ^ 2 = 1 / 10 ^ 15 * (1 / 10 ^ 15) by ring]
  by_cases h : 1 / 10 ^ 15 * (1 / 10 ^ 15) ≤ (X 0 - Y 0) * (X 0 - Y 0) + (X 1 - Y 1) * (X 1 - Y 1) + (X 2 - Y 2) * (X 2 - Y 2)
  · rw [if_neg (not_lt.mpr h)]
    simp only [ge_iff_le, if_pos h]
    rw [overlapStep_eq hL hi hj d hd _ hk hl, hrecip _ k hk l hl, hreal _ k hk l hl, zero_add]
  · have hlt := not_le.mp h
    simp only [ge_iff_le, if_neg h, if_pos hlt]
    by_cases hkl : k = l
    · subst hkl
      simp only [if_true]
      rw [hrecip _ k hk k hl, hreal _ k hk k hl, zero_add]
      simp only [δ, if_true, selfPart]
      ring
    · simp only [if_neg hkl]
      rw [hrecip _ k hk l hl, hreal _ k hk l hl, zero_add]
      simp only [δ, if_neg hkl]
      ring

end H2Pack.Kern
