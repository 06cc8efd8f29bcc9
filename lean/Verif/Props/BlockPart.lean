import Verif.Model.BlockPart
import Mathlib.Tactic.Linarith
import Mathlib.Tactic.Ring

/-!
# Properties of `calc_block_spos_len`  (C01)
-/

namespace H2Pack

/-- Specification: position `p` belongs to the half-open range `r`. -/
def BlkRange.Mem (r : BlkRange) (p : Int) : Prop := r.spos ≤ p ∧ p < r.spos + r.len

/-- In-range calls never hit undefined behaviour and the end of block `i` is the
start of block `i+1`; block `0` starts at `0`, the last block ends at `len`. -/
theorem C01_blocks_contiguous (len nblk : Int) (hl : 0 ≤ len) (hn : 1 ≤ nblk) :
    ∃ r : Int → BlkRange,
      (∀ i, 0 ≤ i → i < nblk → calcBlockSposLen len nblk i = some (r i)) ∧
      (r 0).spos = 0 ∧
      (∀ i, 0 ≤ i → i + 1 < nblk → (r (i+1)).spos = (r i).spos + (r i).len) ∧
      (r (nblk-1)).spos + (r (nblk-1)).len = len ∧
      (∀ i, 0 ≤ i → i < nblk → 0 ≤ (r i).len ∧ (r i).len ≤ len) ∧
      (∀ i j, 0 ≤ i → i < nblk → 0 ≤ j → j < nblk → (r i).len ≤ (r j).len + 1) := by
  have hdm : len = nblk * (len.tdiv nblk) + len.tmod nblk := (Int.mul_tdiv_add_tmod len nblk).symm
  have hq0 : 0 ≤ len.tdiv nblk := Int.tdiv_nonneg hl (by omega)
  have hr0 : 0 ≤ len.tmod nblk := Int.tmod_nonneg nblk hl
  have hr1 : len.tmod nblk < nblk := Int.tmod_lt_of_pos len (by omega)
  generalize hq : len.tdiv nblk = q at *
  generalize hr : len.tmod nblk = m at *
  refine ⟨fun i => if i < m then ⟨(q+1)*i, q+1⟩ else ⟨q*i+m, q⟩, ?_, ?_, ?_, ?_, ?_, ?_⟩
  · intro i h0 h1
    simp only [calcBlockSposLen]
    rw [if_neg (by omega), if_neg (by omega), hq, hr]
    split <;> rfl
  · by_cases h : (0:Int) < m
    · simp [h]
    · simp [h]; omega
  · intro i h0 h1
    by_cases h : i + 1 < m
    · have : i < m := by omega
      simp only [h, this, if_true]; ring
    · by_cases h2 : i < m
      · have : m = i + 1 := by omega
        subst this
        simp; ring
      · simp only [h, h2, if_false]; ring
  · have : ¬ (nblk - 1 < m) := by omega
    simp only [this, if_false]
    have : q * (nblk-1) + m + q = nblk * q + m := by ring
    omega
  · intro i h0 h1
    have hqn : q ≤ nblk * q := by nlinarith
    by_cases h : i < m
    · simp only [h, if_true]; exact ⟨by omega, by omega⟩
    · simp only [h, if_false]; exact ⟨by omega, by omega⟩
  · intro i j _ _ _ _
    by_cases h : i < m <;> by_cases h' : j < m <;> simp [h, h'] <;> omega

/-- **C01**.  For every length and every number of blocks, each position of
`0..len-1` is in the range of exactly one block index of `0..nblk-1`, and the
ranges contain nothing else. -/
theorem C01_blocks_tile (len nblk : Int) (hl : 0 ≤ len) (hn : 1 ≤ nblk) (p : Int) :
    (0 ≤ p ∧ p < len) ↔
      ∃! i : Int, 0 ≤ i ∧ i < nblk ∧
        ∃ r, calcBlockSposLen len nblk i = some r ∧ r.Mem p := by
  obtain ⟨r, hr, h0, hs, he, hlen, _⟩ := C01_blocks_contiguous len nblk hl hn
  -- starts are monotone
  have mono : ∀ (d : Nat) (i : Int), 0 ≤ i → i + d < nblk → (r i).spos ≤ (r (i + d)).spos := by
    intro d
    induction d with
    | zero => intro i _ _; simp
    | succ d ih =>
      intro i hi hlt
      have h1 := ih i hi (by push_cast at hlt; omega)
      have h2 := hs (i + d) (by omega) (by push_cast at hlt; omega)
      have h3 := (hlen (i+d) (by omega) (by push_cast at hlt; omega)).1
      have : i + ((d+1 : Nat) : Int) = i + d + 1 := by push_cast; ring
      rw [this, h2]; omega
  have mono' : ∀ i j : Int, 0 ≤ i → i < j → j < nblk → (r i).spos + (r i).len ≤ (r j).spos := by
    intro i j hi hij hj
    have h1 := mono (j - (i+1)).toNat (i+1) (by omega) (by omega)
    have : i + 1 + ((j - (i+1)).toNat : Int) = j := by omega
    rw [this, hs i hi (by omega)] at h1
    exact h1
  constructor
  · rintro ⟨hp0, hp1⟩
    -- existence by induction: find the first block whose end exceeds p
    have ex : ∀ (d : Nat), (d : Int) < nblk →
        p < (r d).spos + (r d).len → ∃ i : Int, 0 ≤ i ∧ i < nblk ∧ (r i).Mem p := by
      intro d
      induction d with
      | zero => intro h1 h2; exact ⟨0, by omega, by omega, by
                  refine ⟨?_, by simpa using h2⟩; rw [h0]; exact hp0⟩
      | succ d ih =>
        intro h1 h2
        by_cases h : p < (r d).spos + (r d).len
        · exact ih (by push_cast at h1; omega) h
        · refine ⟨((d+1 : Nat) : Int), by omega, h1, ?_, h2⟩
          have := hs d (by omega) (by push_cast at h1; omega)
          push_cast
          rw [this]; omega
    obtain ⟨i, hi0, hi1, hm⟩ := ex (nblk-1).toNat (by omega) (by
      have : (((nblk-1).toNat : Nat) : Int) = nblk - 1 := by omega
      rw [this, he]; exact hp1)
    refine ⟨i, ⟨hi0, hi1, r i, hr i hi0 hi1, hm⟩, ?_⟩
    rintro j ⟨hj0, hj1, r', hr', hm'⟩
    rw [hr j hj0 hj1] at hr'
    cases hr'
    rcases lt_trichotomy i j with h | h | h
    · have := mono' i j hi0 h hj1; unfold BlkRange.Mem at hm hm'; omega
    · exact h.symm
    · have := mono' j i hj0 h hi1; unfold BlkRange.Mem at hm hm'; omega
  · rintro ⟨i, ⟨hi0, hi1, r', hr', hm⟩, _⟩
    rw [hr i hi0 hi1] at hr'
    cases hr'
    have h1 : (r 0).spos ≤ (r i).spos := by
      have := mono i.toNat 0 (by omega) (by omega)
      have e : (0:Int) + (i.toNat : Int) = i := by omega
      rwa [e] at this
    have h2 : (r i).spos + (r i).len ≤ len := by
      by_cases h : i = nblk - 1
      · rw [h, he]
      · have := mono' i (nblk-1) hi0 (by omega) (by omega)
        have h3 := (hlen (nblk-1) (by omega) (by omega)).1
        omega
    unfold BlkRange.Mem at hm
    omega

/-- **C01** (balance): two block lengths differ by at most one. -/
theorem C01_blocks_balanced (len nblk i j : Int) (hl : 0 ≤ len) (hn : 1 ≤ nblk)
    (hi : 0 ≤ i ∧ i < nblk) (hj : 0 ≤ j ∧ j < nblk) (ri rj : BlkRange)
    (h1 : calcBlockSposLen len nblk i = some ri) (h2 : calcBlockSposLen len nblk j = some rj) :
    ri.len ≤ rj.len + 1 ∧ rj.len ≤ ri.len + 1 := by
  obtain ⟨r, hr, _, _, _, _, hb⟩ := C01_blocks_contiguous len nblk hl hn
  rw [hr i hi.1 hi.2] at h1
  rw [hr j hj.1 hj.2] at h2
  cases h1; cases h2
  exact ⟨hb i j hi.1 hi.2 hj.1 hj.2, hb j i hj.1 hj.2 hi.1 hi.2⟩

/-- **C01** (guard): indices outside `0..nblk` give the empty answer `(-1, 0)`. -/
theorem C01_out_of_range (len nblk iblk : Int) (h : iblk < 0 ∨ nblk < iblk) :
    calcBlockSposLen len nblk iblk = some ⟨-1, 0⟩ := by
  unfold calcBlockSposLen
  rw [if_pos (by omega)]

/-- Every in-range block lies inside `[0, len)`. -/
theorem C01_block_in_range (len nblk i : Int) (hl : 0 ≤ len) (hn : 1 ≤ nblk) (hi : 0 ≤ i ∧ i < nblk) (r : BlkRange)
    (h : calcBlockSposLen len nblk i = some r) : 0 ≤ r.spos ∧ 0 ≤ r.len ∧ r.spos + r.len ≤ len := by
  have hdm : len = nblk * (len.tdiv nblk) + len.tmod nblk := (Int.mul_tdiv_add_tmod len nblk).symm
  have hr1 : len.tmod nblk < nblk := Int.tmod_lt_of_pos len (by omega)
  have hr0 : 0 ≤ len.tmod nblk := Int.tmod_nonneg _ hl
  have hq0 : 0 ≤ len.tdiv nblk := Int.tdiv_nonneg hl (by omega)
  simp only [calcBlockSposLen] at h
  rw [if_neg (by omega), if_neg (by omega)] at h
  generalize len.tmod nblk = m at *
  generalize len.tdiv nblk = q at *
  split at h
  · simp only [Option.some.injEq] at h
    rw [← h]
    dsimp only
    refine ⟨Int.mul_nonneg (by omega) hi.1, by omega, ?_⟩
    have h1 : (q + 1) * (i + 1) ≤ (q + 1) * m := Int.mul_le_mul_of_nonneg_left (by omega) (by omega)
    have h2 : q * m ≤ q * nblk := Int.mul_le_mul_of_nonneg_left (by omega) hq0
    have h3 : (q + 1) * (i + 1) = (q + 1) * i + (q + 1) := by ring
    have h4 : (q + 1) * m = q * m + m := by ring
    have h5 : q * nblk = nblk * q := by ring
    omega
  · simp only [Option.some.injEq] at h
    rw [← h]
    dsimp only
    refine ⟨by have := Int.mul_nonneg hq0 hi.1; omega, hq0, ?_⟩
    have h1 : q * (i + 1) ≤ q * nblk := Int.mul_le_mul_of_nonneg_left (by omega) hq0
    have h3 : q * (i + 1) = q * i + q := by ring
    have h5 : q * nblk = nblk * q := by ring
    omega

/-- The guard of the code is off by one: the index `nblk` itself is accepted and
returns a range starting at `len`, of length `len / nblk`, i.e. outside the data. -/
theorem C01_guard_off_by_one (len nblk : Int) (hl : 0 ≤ len) (hn : 1 ≤ nblk) :
    calcBlockSposLen len nblk nblk = some ⟨len, len.tdiv nblk⟩ := by
  have hdm : len = nblk * (len.tdiv nblk) + len.tmod nblk := (Int.mul_tdiv_add_tmod len nblk).symm
  have hr1 : len.tmod nblk < nblk := Int.tmod_lt_of_pos len (by omega)
  simp only [calcBlockSposLen]
  rw [if_neg (by omega), if_neg (by omega), if_neg (by omega)]
  congr 2
  rw [mul_comm]; omega

/-- Concrete non-trivial instance: 10 elements, 4 blocks. -/
example : ([0, 1, 2, 3] : List Int).map (calcBlockSposLen 10 4) =
    [some ⟨0, 3⟩, some ⟨3, 3⟩, some ⟨6, 2⟩, some ⟨8, 2⟩] := by decide

example : (0:Int) ≤ 10 ∧ (1:Int) ≤ 4 := by decide

end H2Pack
