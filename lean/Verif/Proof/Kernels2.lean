import Mathlib.Tactic.IntervalCases
import Verif.Proof.Kernels1

/-! Proofs about the tensor kernels. -/

namespace H2Pack.Kern
open H2Pack.MV (Bimv KMv point BimvSpec MvSpec)
open H2Pack.KernSpec (dist2)
open Finset (range)

/-! ## Blocks -/

theorem putBlock_spec (w : Nat → ℝ) (base : Nat) {ldm : Nat} (hl : 3 ≤ ldm) (v : Nat → Nat → ℝ) :
    (∀ k < 3, ∀ l < 3, putBlock w base ldm v (base + k * ldm + l) = v k l) ∧
      ∀ q, (∀ k < 3, ∀ l < 3, q ≠ base + k * ldm + l) → putBlock w base ldm v q = w q := by
  constructor
  · intro k hk l hl'
    unfold putBlock
    simp only [show List.range 3 = [0, 1, 2] from rfl, List.foldl_cons, List.foldl_nil, set]
    interval_cases k <;> interval_cases l <;> repeat (first | rw [if_pos (by omega)] | rw [if_neg (by omega)])
  · intro q hq
    unfold putBlock
    simp only [show List.range 3 = [0, 1, 2] from rfl, List.foldl_cons, List.foldl_nil, set]
    have h := fun k hk l hl => hq k hk l hl
    rw [if_neg (h 2 (by omega) 2 (by omega)), if_neg (h 2 (by omega) 1 (by omega)), if_neg (h 2 (by omega) 0 (by omega)),
      if_neg (h 1 (by omega) 2 (by omega)), if_neg (h 1 (by omega) 1 (by omega)), if_neg (h 1 (by omega) 0 (by omega)),
      if_neg (h 0 (by omega) 2 (by omega)), if_neg (h 0 (by omega) 1 (by omega)), if_neg (h 0 (by omega) 0 (by omega))]

/-- The two nested loops of a tensor evaluation routine. -/
theorem blocks_spec (pair : Nat → Nat → (Nat → ℝ) → Nat → Nat → ℝ) (n0 n1 mat ldm : Nat) (hldm : 3 * n1 ≤ ldm) (w : Nat → ℝ)
    (hloc : ∀ w', (∀ q, (∀ i < 3 * n0, ∀ j < 3 * n1, q ≠ mat + i * ldm + j) → w' q = w q) →
      ∀ i < n0, ∀ j < n1, ∀ a < 3, ∀ b < 3, pair i j w' a b = pair i j w a b) :
    (∀ i < n0, ∀ j < n1, ∀ a < 3, ∀ b < 3, (List.range n0).foldl (fun w i => (List.range n1).foldl (fun w j =>
        putBlock w (mat + 3 * i * ldm + 3 * j) ldm (pair i j w)) w) w (mat + (3 * i + a) * ldm + (3 * j + b)) = pair i j w a b) ∧
      ∀ q, (∀ i < 3 * n0, ∀ j < 3 * n1, q ≠ mat + i * ldm + j) → (List.range n0).foldl (fun w i => (List.range n1).foldl (fun w j =>
        putBlock w (mat + 3 * i * ldm + 3 * j) ldm (pair i j w)) w) w q = w q := by
  have hrow : ∀ i < n0, ∀ w1 : Nat → ℝ, (∀ q, (∀ i < 3 * n0, ∀ j < 3 * n1, q ≠ mat + i * ldm + j) → w1 q = w q) →
      (∀ j < n1, ∀ a < 3, ∀ b < 3, (List.range n1).foldl (fun w j => putBlock w (mat + 3 * i * ldm + 3 * j) ldm (pair i j w)) w1
        (mat + (3 * i + a) * ldm + (3 * j + b)) = pair i j w a b) ∧
      ∀ q, (∀ a < 3, ∀ j < 3 * n1, q ≠ mat + (3 * i + a) * ldm + j) →
        (List.range n1).foldl (fun w j => putBlock w (mat + 3 * i * ldm + 3 * j) ldm (pair i j w)) w1 q = w1 q := by
    intro i hi w1 hw1
    refine foldl_range_ind (fun m (w' : Nat → ℝ) => (∀ j < m, ∀ a < 3, ∀ b < 3, w' (mat + (3 * i + a) * ldm + (3 * j + b)) = pair i j w a b) ∧
      ∀ q, (∀ a < 3, ∀ j < 3 * m, q ≠ mat + (3 * i + a) * ldm + j) → w' q = w1 q) _ w1 n1 ⟨by intro j hj; omega, fun _ _ => rfl⟩ ?_
    rintro m w' hm ⟨ih1, ih2⟩
    have hp := putBlock_spec w' (mat + 3 * i * ldm + 3 * m) (ldm := ldm) (by omega) (pair i m w')
    have hpair : ∀ a < 3, ∀ b < 3, pair i m w' a b = pair i m w a b := by
      refine hloc w' (fun q hq => ?_) i hi m hm
      rw [ih2 q (fun a ha j hj => hq (3 * i + a) (by omega) j (by omega)), hw1 q hq]
    have e : ∀ a, (3 * i + a) * ldm = 3 * i * ldm + a * ldm := fun a => Nat.add_mul _ _ _
    refine ⟨fun j hj a ha b hb => ?_, fun q hq => ?_⟩
    · rcases Nat.lt_succ_iff_lt_or_eq.mp hj with hj | rfl
      · rw [hp.2, ih1 j hj a ha b hb]
        intro k hk l hl
        rw [e]
        interval_cases a <;> interval_cases k <;> omega
      · rw [← hpair a ha b hb, ← hp.1 a ha b hb, e]
        congr 1
        omega
    · rw [hp.2, ih2]
      · intro a ha j hj
        exact hq a ha j (by omega)
      · intro k hk l hl
        have := hq k hk (3 * m + l) (by omega)
        rw [e] at this
        omega
  refine foldl_range_ind (fun m (w' : Nat → ℝ) => (∀ i < m, ∀ j < n1, ∀ a < 3, ∀ b < 3, w' (mat + (3 * i + a) * ldm + (3 * j + b)) = pair i j w a b) ∧
      ∀ q, (∀ i < 3 * m, ∀ j < 3 * n1, q ≠ mat + i * ldm + j) → w' q = w q) _ w n0 ⟨by intro i hi; omega, fun _ _ => rfl⟩ ?_
  rintro m w' hm ⟨ih1, ih2⟩
  obtain ⟨r1, r2⟩ := hrow m hm w' (fun q hq => ih2 q fun i hi j hj => hq i (by omega) j hj)
  refine ⟨fun i hi j hj a ha b hb => ?_, fun q hq => ?_⟩
  · rcases Nat.lt_succ_iff_lt_or_eq.mp hi with hi | rfl
    · rw [r2, ih1 i hi j hj a ha b hb]
      intro a' ha' j' hj' heq
      have hrows : 3 * i + a + 1 ≤ 3 * m + a' := by omega
      have := Nat.mul_le_mul_right ldm hrows
      rw [Nat.add_mul, Nat.one_mul] at this
      omega
    · exact r1 j hj a ha b hb
  · rw [r2]
    · exact ih2 q fun i hi j hj => hq i (by omega) j hj
    · exact fun a ha j hj => hq (3 * m + a) (by omega) j hj

/-! ## Rows -/

theorem stores_spec (S : Simd) (w : Nat → ℝ) (y n m : Nat) (hl : S.len ≤ n) (v : Nat → V) :
    (∀ k < m, ∀ l < S.len, (List.range m).foldl (fun w k => store S w (y + k * n) (v k)) w (y + k * n + l) = v k l) ∧
      ∀ q, (∀ k < m, ∀ l < S.len, q ≠ y + k * n + l) → (List.range m).foldl (fun w k => store S w (y + k * n) (v k)) w q = w q := by
  refine foldl_range_ind (fun m (w' : Nat → ℝ) => (∀ k < m, ∀ l < S.len, w' (y + k * n + l) = v k l) ∧
      ∀ q, (∀ k < m, ∀ l < S.len, q ≠ y + k * n + l) → w' q = w q) _ w m ⟨by intro k hk; omega, fun _ _ => rfl⟩ ?_
  rintro t w' ht ⟨ih1, ih2⟩
  refine ⟨fun k hk l hl' => ?_, fun q hq => ?_⟩
  · rcases Nat.lt_succ_iff_lt_or_eq.mp hk with hk | rfl
    · have := Nat.mul_le_mul_right n hk
      rw [Nat.succ_mul] at this
      simp only [store]
      rw [if_neg (by omega), ih1 k hk l hl']
    · simp only [store]
      rw [if_pos (by omega), Nat.add_sub_cancel_left]
  · simp only [store]
    rw [if_neg, ih2 q fun k hk l hl => hq k (by omega) l hl]
    rintro ⟨h1, h2⟩
    exact hq t (by omega) (q - (y + t * n)) (by omega) (by omega)

theorem adds_spec (w : Nat → ℝ) (y n m : Nat) (hn : 0 < n) (v : Nat → ℝ) :
    (∀ k < m, (List.range m).foldl (fun w k => add w (y + k * n) (v k)) w (y + k * n) = w (y + k * n) + v k) ∧
      ∀ q, (∀ k < m, q ≠ y + k * n) → (List.range m).foldl (fun w k => add w (y + k * n) (v k)) w q = w q := by
  refine foldl_range_ind (fun m (w' : Nat → ℝ) => (∀ k < m, w' (y + k * n) = w (y + k * n) + v k) ∧
      ∀ q, (∀ k < m, q ≠ y + k * n) → w' q = w q) _ w m ⟨by intro k hk; omega, fun _ _ => rfl⟩ ?_
  rintro t w' ht ⟨ih1, ih2⟩
  refine ⟨fun k hk => ?_, fun q hq => ?_⟩
  · rcases Nat.lt_succ_iff_lt_or_eq.mp hk with hk | rfl
    · have := Nat.mul_lt_mul_of_pos_right hk hn
      simp only [add]
      rw [if_neg (by omega), ih1 k hk]
    · simp only [add]
      rw [if_pos trivial, ih2]
      intro k' hk'
      have := Nat.mul_lt_mul_of_pos_right hk' hn
      omega
  · simp only [add]
    rw [if_neg (hq t (by omega)), ih2 q fun k hk => hq k (by omega)]

/-- What a direction and an accumulation rule compute: the block times the three components. -/
def Good (dir : (Nat → ℝ) → Nat → Nat → Dir) (acc : Dir → V → (Nat → V) → Nat → V → V) (κ : (Nat → ℝ) → Nat → Nat → Nat → Nat → ℝ) : Prop :=
  ∀ w i j l (x : Nat → V) k (a : V), k < 3 → acc (dir w i j) (dot3 x (dir w i j).d) x k a l = a l + ∑ b ∈ range 3, κ w i (j + l) k b * x b l

theorem count_eq {len n : Nat} (hl : 0 < len) (h : len ∣ n) : (n + len - 1) / len = n / len := by
  obtain ⟨nb, rfl⟩ := h
  rw [Nat.add_sub_assoc hl, Nat.mul_add_div hl, Nat.div_eq_of_lt (by omega), Nat.add_zero, Nat.mul_div_cancel_left _ hl]

theorem tensorRow_spec {S : Simd} (hlen : 0 < S.len) {dir : (Nat → ℝ) → Nat → Nat → Dir} {acc : Dir → V → (Nat → V) → Nat → V → V} {κ : (Nat → ℝ) → Nat → Nat → Nat → Nat → ℝ}
    (hG : Good dir acc κ) {n0 n1 x0 x1 y0 y1 : Nat} (h1 : S.len ∣ n1) (e3 : x0 + n1 * 3 ≤ x1) (e4 : x1 + n0 * 3 ≤ y0) (e5 : y0 + n0 * 3 ≤ y1)
    {i : Nat} (hi : i < n0) (w : Nat → ℝ) (hloc : ∀ w', (∀ q < y0, w' q = w q) → ∀ j < n1, ∀ a < 3, ∀ b < 3, κ w' i j a b = κ w i j a b) :
    let w' := tensorRow S S.len dir acc n0 n1 n1 x0 x1 y0 y1 i w
    (∀ k < 3, w' (y0 + (k * n0 + i)) = w (y0 + (k * n0 + i)) + ∑ b ∈ range 3, ∑ j ∈ range n1, κ w i j k b * w (x0 + (b * n1 + j))) ∧
    (∀ k < 3, ∀ j < n1, w' (y1 + (k * n1 + j)) = w (y1 + (k * n1 + j)) + ∑ a ∈ range 3, κ w i j k a * w (x1 + (a * n0 + i))) ∧
    ∀ q, (∀ k < 3, q ≠ y0 + (k * n0 + i)) → (∀ k < 3, ∀ j < n1, q ≠ y1 + (k * n1 + j)) → w' q = w q := by
  intro w'
  have hk3 : ∀ {k n : Nat}, k < 3 → k * n + n ≤ n * 3 := fun {k n} hk => by
    have := Nat.mul_le_mul_right n hk
    rw [Nat.succ_mul] at this
    omega
  obtain ⟨nb, hnb⟩ := h1
  have hnb' : n1 = nb * S.len := by rw [hnb, Nat.mul_comm]
  have hcnt : (n1 + S.len - 1) / S.len = nb := by
    rw [count_eq hlen ⟨nb, hnb⟩, hnb', Nat.mul_div_cancel _ hlen]
  have hinv := foldl_range_ind (fun t (s : (Nat → V) × (Nat → ℝ)) =>
      (∀ k < 3, ∀ l < S.len, s.1 k l = ∑ u ∈ range t, ∑ b ∈ range 3, κ w i (u * S.len + l) k b * w (x0 + (b * n1 + (u * S.len + l)))) ∧
      (∀ k < 3, ∀ j < t * S.len, s.2 (y1 + (k * n1 + j)) = w (y1 + (k * n1 + j)) + ∑ a ∈ range 3, κ w i j k a * w (x1 + (a * n0 + i))) ∧
      ∀ q, (∀ k < 3, ∀ j < t * S.len, q ≠ y1 + (k * n1 + j)) → s.2 q = w q)
    (fun s t => tensorStep S dir acc n0 n1 x0 x1 y1 i s (t * S.len)) (fun _ => set1 0, w) nb
    ⟨by intro k _ l _; simp [set1], by intro k _ j hj; omega, fun _ _ => rfl⟩
    (by
      rintro t ⟨s, v⟩ ht ⟨ih0, ih1, ih2⟩
      simp only at ih0 ih1 ih2
      have hm : t * S.len + S.len ≤ n1 := by
        have := Nat.mul_le_mul_right S.len ht
        rw [Nat.succ_mul] at this
        omega
      have hlow : ∀ q < y1, v q = w q := fun q hq => ih2 q fun k hk j hj => by omega
      have hκ : ∀ l < S.len, ∀ a < 3, ∀ b < 3, κ v i (t * S.len + l) a b = κ w i (t * S.len + l) a b := fun l hl =>
        hloc v (fun q hq => hlow q (by omega)) _ (by omega)
      have hst := stores_spec S v (y1 + t * S.len) n1 3 (by omega)
        (fun k => acc (dir v i (t * S.len)) (dot3 (fun k => bcast v (x1 + i + k * n0)) (dir v i (t * S.len)).d) (fun k => bcast v (x1 + i + k * n0)) k (load v (y1 + t * S.len + k * n1)))
      have es : (t + 1) * S.len = t * S.len + S.len := by ring
      refine ⟨fun k hk l hl => ?_, fun k hk j hj => ?_, fun q hq => ?_⟩
      · simp only [tensorStep]
        rw [hG _ _ _ _ _ _ _ hk, ih0 k hk l hl, Finset.sum_range_succ _ t]
        congr 1
        refine Finset.sum_congr rfl fun b hb => ?_
        have hb' := Finset.mem_range.mp hb
        rw [hκ l hl k hk b hb']
        simp only [load]
        have := hk3 (n := n1) hb'
        rw [show x0 + t * S.len + n1 * b + l = x0 + (b * n1 + (t * S.len + l)) by rw [Nat.mul_comm n1 b]; omega, hlow _ (by omega)]
      · simp only [tensorStep]
        by_cases hj2 : j < t * S.len
        · rw [hst.2, ih1 k hk j hj2]
          intro k' hk' l hl
          interval_cases k <;> interval_cases k' <;> omega
        · have := hst.1 k hk (j - t * S.len) (by omega)
          rw [show y1 + t * S.len + k * n1 + (j - t * S.len) = y1 + (k * n1 + j) by omega] at this
          rw [this, hG _ _ _ _ _ _ _ hk]
          simp only [load, bcast]
          rw [show y1 + t * S.len + k * n1 + (j - t * S.len) = y1 + (k * n1 + j) by omega, ih2]
          · congr 1
            refine Finset.sum_congr rfl fun a ha => ?_
            have ha' := Finset.mem_range.mp ha
            rw [hκ _ (by omega) k hk a ha', show t * S.len + (j - t * S.len) = j by omega]
            have := hk3 (n := n0) ha'
            rw [show x1 + i + a * n0 = x1 + (a * n0 + i) by omega, hlow _ (by omega)]
          · intro k' hk' j' hj'
            interval_cases k <;> interval_cases k' <;> omega
      · simp only [tensorStep]
        rw [hst.2, ih2]
        · exact fun k hk j hj => hq k hk j (by omega)
        · intro k hk l hl
          have := hq k hk (t * S.len + l) (by omega)
          omega)
  have hw' : w' = tensorRow S S.len dir acc n0 n1 n1 x0 x1 y0 y1 i w := rfl
  unfold tensorRow at hw'
  rw [hcnt] at hw'
  simp only at hw'
  obtain ⟨i0, i1, i2⟩ := hinv
  generalize hs : (List.range nb).foldl (fun s t => tensorStep S dir acc n0 n1 x0 x1 y1 i s (t * S.len)) (fun _ => set1 0, w) = s at i0 i1 i2 hw'
  have ha := adds_spec s.2 (y0 + i) n0 3 (by omega) (fun k => reduce S (s.1 k))
  have hred : ∀ k < 3, reduce S (s.1 k) = ∑ b ∈ range 3, ∑ j ∈ range n1, κ w i j k b * w (x0 + (b * n1 + j)) := by
    intro k hk
    unfold reduce
    rw [Finset.sum_congr rfl fun l hl => i0 k hk l (Finset.mem_range.mp hl),
      sum_blocks (fun j => ∑ b ∈ range 3, κ w i j k b * w (x0 + (b * n1 + j))), ← hnb', Finset.sum_comm]
  refine ⟨fun k hk => ?_, fun k hk j hj => ?_, fun q hq0 hq1 => ?_⟩
  · have := ha.1 k hk
    have hb := hk3 (n := n0) hk
    rw [show y0 + i + k * n0 = y0 + (k * n0 + i) by omega] at this
    rw [hw', this, hred k hk, i2]
    intro k' hk' j' hj'
    omega
  · rw [hw', ha.2, i1 k hk j (by omega)]
    intro k' hk'
    have hb := hk3 (n := n0) hk'
    omega
  · rw [hw', ha.2, i2]
    · exact fun k hk j hj => hq1 k hk j (by omega)
    · intro k hk
      have := hq0 k hk
      omega

theorem tensorAll_spec {S : Simd} (hlen : 0 < S.len) {dir : (Nat → ℝ) → Nat → Nat → Dir} {acc : Dir → V → (Nat → V) → Nat → V → V} {κ : (Nat → ℝ) → Nat → Nat → Nat → Nat → ℝ}
    (hG : Good dir acc κ) {n0 n1 x0 x1 y0 y1 : Nat} (h1 : S.len ∣ n1) (e3 : x0 + n1 * 3 ≤ x1) (e4 : x1 + n0 * 3 ≤ y0) (e5 : y0 + n0 * 3 ≤ y1)
    (w : Nat → ℝ) (hloc : ∀ w', (∀ q < y0, w' q = w q) → ∀ i < n0, ∀ j < n1, ∀ a < 3, ∀ b < 3, κ w' i j a b = κ w i j a b) :
    let w' := (List.range n0).foldl (fun w i => tensorRow S S.len dir acc n0 n1 n1 x0 x1 y0 y1 i w) w
    (∀ k < 3, ∀ i < n0, w' (y0 + (k * n0 + i)) = w (y0 + (k * n0 + i)) + ∑ b ∈ range 3, ∑ j ∈ range n1, κ w i j k b * w (x0 + (b * n1 + j))) ∧
    (∀ k < 3, ∀ j < n1, w' (y1 + (k * n1 + j)) = w (y1 + (k * n1 + j)) + ∑ i ∈ range n0, ∑ a ∈ range 3, κ w i j k a * w (x1 + (a * n0 + i))) := by
  intro w'
  have hk3 : ∀ {k n : Nat}, k < 3 → k * n + n ≤ n * 3 := fun {k n} hk => by
    have := Nat.mul_le_mul_right n hk
    rw [Nat.succ_mul] at this
    omega
  suffices h : (∀ k < 3, ∀ i < n0, w' (y0 + (k * n0 + i)) = w (y0 + (k * n0 + i)) + ∑ b ∈ range 3, ∑ j ∈ range n1, κ w i j k b * w (x0 + (b * n1 + j))) ∧
    (∀ k < 3, ∀ j < n1, w' (y1 + (k * n1 + j)) = w (y1 + (k * n1 + j)) + ∑ i ∈ range n0, ∑ a ∈ range 3, κ w i j k a * w (x1 + (a * n0 + i))) ∧
    ∀ q, (∀ k < 3, ∀ i < n0, q ≠ y0 + (k * n0 + i)) → (∀ k < 3, ∀ j < n1, q ≠ y1 + (k * n1 + j)) → w' q = w q from ⟨h.1, h.2.1⟩
  refine foldl_range_ind (fun m (w' : Nat → ℝ) =>
    (∀ k < 3, ∀ i < m, w' (y0 + (k * n0 + i)) = w (y0 + (k * n0 + i)) + ∑ b ∈ range 3, ∑ j ∈ range n1, κ w i j k b * w (x0 + (b * n1 + j))) ∧
    (∀ k < 3, ∀ j < n1, w' (y1 + (k * n1 + j)) = w (y1 + (k * n1 + j)) + ∑ i ∈ range m, ∑ a ∈ range 3, κ w i j k a * w (x1 + (a * n0 + i))) ∧
    ∀ q, (∀ k < 3, ∀ i < m, q ≠ y0 + (k * n0 + i)) → (∀ k < 3, ∀ j < n1, q ≠ y1 + (k * n1 + j)) → w' q = w q) _ w n0
    ⟨by intro k _ i hi; omega, by simp, fun _ _ _ => rfl⟩ ?_
  rintro m v hm ⟨ih0, ih1, ih2⟩
  have hlow : ∀ q < y0, v q = w q := fun q hq => ih2 q (fun k hk i hi => by omega) (fun k hk j hj => by omega)
  have hκ : ∀ j < n1, ∀ a < 3, ∀ b < 3, κ v m j a b = κ w m j a b := fun j hj => hloc v hlow m hm j hj
  obtain ⟨a0, a1, a2⟩ := tensorRow_spec hlen hG h1 e3 e4 e5 hm v (fun w' hw' j hj a ha b hb => by
    rw [hκ j hj a ha b hb]; exact hloc w' (fun q hq => by rw [hw' q hq, hlow q hq]) m hm j hj a ha b hb)
  refine ⟨fun k hk i hi => ?_, fun k hk j hj => ?_, fun q hq0 hq1 => ?_⟩
  · rcases Nat.lt_succ_iff_lt_or_eq.mp hi with hi | rfl
    · rw [a2, ih0 k hk i hi]
      · intro k' hk'
        interval_cases k <;> interval_cases k' <;> omega
      · intro k' hk' j' hj'
        have := hk3 (n := n0) hk
        omega
    · rw [a0 k hk, ih2]
      · congr 1
        refine Finset.sum_congr rfl fun b hb => Finset.sum_congr rfl fun j hj => ?_
        have hb' := Finset.mem_range.mp hb
        have hj' := Finset.mem_range.mp hj
        have := hk3 (n := n1) hb'
        rw [hκ j hj' k hk b hb', hlow _ (by omega)]
      · intro k' hk' i' hi'
        interval_cases k <;> interval_cases k' <;> omega
      · intro k' hk' j' hj'
        have := hk3 (n := n0) hk
        omega
  · rw [a1 k hk j hj, ih1 k hk j hj, Finset.sum_range_succ _ m, add_assoc]
    congr 2
    refine Finset.sum_congr rfl fun a ha => ?_
    have ha' := Finset.mem_range.mp ha
    have := hk3 (n := n0) ha'
    rw [hκ j hj k hk a ha', hlow _ (by omega)]
  · rw [a2, ih2]
    · exact fun k hk i hi => hq0 k hk i (by omega)
    · exact hq1
    · exact fun k hk => hq0 k hk m (by omega)
    · exact hq1

end H2Pack.Kern
