import Verif.Model.Utils
import Mathlib.Algebra.BigOperators.Intervals
import Mathlib.Algebra.Order.BigOperators.Group.Finset
import Mathlib.Tactic.Linarith
import Mathlib.Tactic.Ring

/-! # Workload partition (C03) -/

namespace H2Pack.Utils
open Finset

/-- Loop invariant. -/
structure WInv (w : Nat → Nat) (blk i curr idx : Nat) (data : Nat → Nat) : Prop where
  pos   : 1 ≤ idx
  zero  : data 0 = 0
  mono  : ∀ b, b + 1 < idx → data b < data (b+1)
  last  : data (idx - 1) ≤ i
  sum   : curr = ∑ j ∈ Ico (data (idx - 1)) i, w j
  bal   : ∀ b, b + 1 < idx → ∑ j ∈ Ico (data b) (data (b+1) - 1), w j < blk
  full  : (idx - 1) * blk + curr ≤ ∑ j ∈ range i, w j
  small : curr < blk

theorem workLoop_spec (w : Nat → Nat) (blk nb nWork : Nat) (cap : Nat) (hb : 0 < blk)
    (hbig : ∑ j ∈ range nWork, w j < nb * blk) (hcap : nb < cap) : ∀ (n i curr idx : Nat) (data : Nat → Nat),
    WInv w blk i curr idx data → i + n = nWork →
    ∃ curr' idx' data', workLoop w blk cap n i curr idx data = .ok (curr', idx', data') ∧ WInv w blk nWork curr' idx' data' := by
  intro n
  induction n with
  | zero => intro i curr idx data h hi; exact ⟨curr, idx, data, rfl, by rw [← hi]; exact h⟩
  | succ n ih =>
    intro i curr idx data h hi
    have hle : ∑ j ∈ range (i+1), w j ≤ ∑ j ∈ range nWork, w j :=
      sum_le_sum_of_subset (by intro x; simp; omega)
    rw [sum_range_succ] at hle
    unfold workLoop
    by_cases hc : curr + w i ≥ blk
    · rw [if_pos hc]
      have hfull := h.full
      have hidx : idx < cap := by
        by_contra hcon
        have h1 : nb ≤ idx - 1 := by omega
        have h2 : nb * blk ≤ (idx - 1) * blk := Nat.mul_le_mul_right _ h1
        omega
      rw [if_pos hidx]
      apply ih _ _ _ _ _ (by omega)
      have hp := h.pos
      refine ⟨by omega, ?_, ?_, ?_, ?_, ?_, ?_, hb⟩
      · rw [Function.update_of_ne (by omega)]; exact h.zero
      · intro b hb'
        by_cases he : b + 1 = idx
        · rw [he, Function.update_self, Function.update_of_ne (by omega)]
          have := h.last
          rw [show idx - 1 = b by omega] at this; omega
        · rw [Function.update_of_ne (by omega), Function.update_of_ne he]
          exact h.mono b (by omega)
      · simp
      · simp
      · intro b hb'
        by_cases he : b + 1 = idx
        · rw [he, Function.update_self, Function.update_of_ne (by omega)]
          have h1 := h.sum
          rw [show idx - 1 = b by omega] at h1
          rw [show i + 1 - 1 = i by omega, ← h1]
          exact h.small
        · rw [Function.update_of_ne (by omega), Function.update_of_ne he]
          exact h.bal b (by omega)
      · rw [sum_range_succ]
        have : (idx + 1 - 1) * blk = (idx - 1) * blk + blk := by
          rw [show idx + 1 - 1 = (idx - 1) + 1 by omega]; ring
        omega
    · rw [if_neg hc]
      apply ih _ _ _ _ _ (by omega)
      refine ⟨h.pos, h.zero, h.mono, by have := h.last; omega, ?_, h.bal, ?_, by omega⟩
      · rw [sum_Ico_succ_top h.last, h.sum]
      · rw [sum_range_succ]; have := h.full; omega

/-- **C03**.  For every number of works and sizes, and a declared total equal to their sum (or larger),
`H2P_partition_workload` performs no out-of-bounds store and returns `length` displacements
`0 = d[0] < d[1] < ... ≤ n_work` such that every work of non-zero size lies in exactly one block, there are
at most `n_block` blocks, and no block exceeds the average size by more than its last work. -/
theorem C03_partition_workload (nWork : Nat) (w : Nat → Nat) (total nBlock cap0 : Nat) (hnb : 1 ≤ nBlock)
    (htot : ∑ j ∈ range nWork, w j ≤ total) :
    ∃ len d, partitionWorkload nWork w total nBlock cap0 = .ok (len, d) ∧
      1 ≤ len ∧ len ≤ nBlock + 1 ∧ d 0 = 0 ∧
      (∀ b, b + 1 < len → d b < d (b+1)) ∧ (∀ b < len, d b ≤ nWork) ∧
      (∀ i < nWork, 0 < w i → ∃! b, b + 1 < len ∧ d b ≤ i ∧ i < d (b+1)) ∧
      (∀ b, b + 1 < len → ∑ j ∈ Ico (d b) (d (b+1) - 1), w j ≤ total / nBlock) := by
  unfold partitionWorkload
  dsimp only
  rw [if_neg (by omega)]
  have hlt : total < nBlock * (total / nBlock + 1) := by
    have := Nat.lt_mul_div_succ total (show 0 < nBlock by omega)
    exact this
  obtain ⟨curr, idx, data, e, inv⟩ := workLoop_spec w (total / nBlock + 1) nBlock nWork (max cap0 (nBlock + 1))
    (Nat.succ_pos _) (by omega) (by omega) nWork 0 0 1 (fun k => if k = 0 then 0 else nWork)
    ⟨by omega, rfl, fun b hb => by omega, by simp, by simp, fun b hb => by omega, by simp, Nat.succ_pos _⟩ (by omega)
  rw [e]
  simp only [Res.bind_ok]
  have hp := inv.pos
  have hk : idx - 1 < nBlock := by
    by_contra hcon
    have h2 : nBlock * (total / nBlock + 1) ≤ (idx - 1) * (total / nBlock + 1) := Nat.mul_le_mul_right _ (by omega)
    have := inv.full
    omega
  -- monotonicity of a strictly increasing sequence, and uniqueness of the block
  have key : ∀ (len : Nat) (d : Nat → Nat), (∀ b, b + 1 < len → d b < d (b+1)) →
      ∀ a b, a ≤ b → b < len → d a ≤ d b := by
    intro len d hm a b hab
    induction b, hab using Nat.le_induction with
    | base => intro _; exact le_refl _
    | succ b hab ih => intro hb; have := hm b hb; have := ih (by omega); omega
  have exuniq : ∀ (len : Nat) (d : Nat → Nat), 1 ≤ len → d 0 = 0 → (∀ b, b + 1 < len → d b < d (b+1)) →
      ∀ i, i < d (len - 1) → ∃! b, b + 1 < len ∧ d b ≤ i ∧ i < d (b+1) := by
    intro len d hl h0 hm i hi
    have ex : ∀ n, n < len → i < d n → ∃ b, b + 1 < len ∧ d b ≤ i ∧ i < d (b+1) := by
      intro n
      induction n with
      | zero => intro _ h; omega
      | succ n ih =>
        intro hn h
        by_cases hc : i < d n
        · exact ih (by omega) hc
        · exact ⟨n, hn, by omega, h⟩
    obtain ⟨b, hb⟩ := ex (len - 1) (by omega) hi
    refine ⟨b, hb, ?_⟩
    intro b' hb'
    rcases Nat.lt_trichotomy b' b with h | h | h
    · have := key len d hm (b'+1) b h (by omega); omega
    · exact h
    · have := key len d hm (b+1) b' h (by omega); omega
  by_cases hc : curr > 0
  · rw [if_pos hc, if_pos (by omega)]
    have hlast : data (idx - 1) < nWork := by
      by_contra hcon
      have := inv.sum
      rw [Ico_eq_empty (by omega), sum_empty] at this
      omega
    have hm : ∀ b, b + 1 < idx + 1 → Function.update data idx nWork b < Function.update data idx nWork (b+1) := by
      intro b hb
      by_cases he : b + 1 = idx
      · rw [he, Function.update_self, Function.update_of_ne (by omega), show b = idx - 1 by omega]; exact hlast
      · rw [Function.update_of_ne (by omega), Function.update_of_ne he]; exact inv.mono b (by omega)
    have h0 : Function.update data idx nWork 0 = 0 := by
      rw [Function.update_of_ne (by omega)]; exact inv.zero
    refine ⟨_, _, rfl, by omega, by omega, h0, hm, ?_, ?_, ?_⟩
    · intro b hb
      have := key (idx+1) _ hm b idx (by omega) (by omega)
      rwa [Function.update_self] at this
    · intro i hi _
      apply exuniq (idx+1) _ (by omega) h0 hm
      rw [show idx + 1 - 1 = idx by omega, Function.update_self]; exact hi
    · intro b hb
      by_cases he : b + 1 = idx
      · rw [he, Function.update_self, Function.update_of_ne (by omega), show b = idx - 1 by omega]
        have h1 := inv.small
        have h2 : ∑ j ∈ Ico (data (idx - 1)) (nWork - 1), w j ≤ ∑ j ∈ Ico (data (idx - 1)) nWork, w j :=
          sum_le_sum_of_subset (by intro x; simp; omega)
        rw [← inv.sum] at h2
        omega
      · rw [Function.update_of_ne (by omega), Function.update_of_ne he]
        have := inv.bal b (by omega); omega
  · rw [if_neg hc]
    refine ⟨_, _, rfl, by omega, by omega, inv.zero, inv.mono, ?_, ?_, ?_⟩
    · intro b hb
      have := key idx _ inv.mono b (idx-1) (by omega) (by omega)
      have := inv.last
      omega
    · intro i hi hw
      apply exuniq idx _ (by omega) inv.zero inv.mono
      by_contra hcon
      have h1 := inv.sum
      have h2 : w i ≤ ∑ j ∈ Ico (data (idx - 1)) nWork, w j :=
        single_le_sum (f := w) (fun _ _ => Nat.zero_le _) (by simp; omega)
      omega
    · intro b hb
      have := inv.bal b (by omega); omega

/-- Works of size zero at the end may be in no block: sizes `(5, 0)` in 2 blocks give the
displacements `0, 1` only (harmless, a zero-size matrix contributes nothing). -/
theorem C03_trailing_zero_dropped :
    ∃ d, partitionWorkload 2 (fun i => if i = 0 then 5 else 0) 5 2 0 = .ok (2, d) ∧ d 1 = 1 :=
  ⟨_, rfl, rfl⟩

/-- A declared total smaller than the sum makes the loop store outside the vector. -/
theorem C03_wrong_total_is_ub : partitionWorkload 3 (fun _ => 5) 1 1 0 = .ub := rfl

example : ∃ len d, partitionWorkload 5 (fun i => [3, 1, 4, 1, 5].getD i 0) 14 3 0 = .ok (len, d) ∧ len ≤ 4 ∧
    (∃! b, b + 1 < len ∧ d b ≤ 4 ∧ 4 < d (b+1)) := by
  obtain ⟨len, d, e, _, h2, _, _, _, h6, _⟩ := C03_partition_workload 5 (fun i => [3, 1, 4, 1, 5].getD i 0) 14 3 0
    (by decide) (by decide)
  exact ⟨len, d, e, h2, h6 4 (by decide) (by decide)⟩

end H2Pack.Utils
