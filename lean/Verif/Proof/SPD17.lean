import Verif.Proof.SPD16
import Mathlib.LinearAlgebra.Matrix.Rank
import Mathlib.LinearAlgebra.Matrix.NonsingularInverse
import Mathlib.LinearAlgebra.Matrix.Block

set_option linter.unusedSectionVars false

/-! # SPDHSS: bases of matrices of low rank -/

namespace H2Pack.SPD
open H2Pack.MV (Mat)
open Finset

section
variable {P : Params} {m n : Nat} {a : Nat → Nat → ℝ}

theorem vCols_noTol {t : ℝ} (ht : t ≤ 0) (n : Nat) (d : Nat → ℝ) : vCols t n d = n := by
  unfold vCols
  rw [List.find?_eq_none.2]
  intro k _
  simp only [decide_eq_true_eq, not_lt]
  exact le_trans (mul_nonpos_of_nonneg_of_nonpos (abs_nonneg _) ht) (abs_nonneg _)

/-- `Q' a P = R`. -/
theorem qr_inner (hL : P.lq.Correct) {p : Nat → Nat}
    (hp : ∀ i < m, ∀ j < n, a i (p j) = ∑ t ∈ range (min m n), P.lq.orgqr m (min m n) (P.lq.geqpf m n a).1 (P.lq.geqpf m n a).2 i t * if t ≤ j then (P.lq.geqpf m n a).1 t j else 0)
    {i j : Nat} (hi : i < min m n) (hj : j < n) :
    ∑ t ∈ range m, P.lq.orgqr m (min m n) (P.lq.geqpf m n a).1 (P.lq.geqpf m n a).2 t i * a t (p j) = if i ≤ j then (P.lq.geqpf m n a).1 i j else 0 := by
  have ho := hL.orth m n a
  set Q := P.lq.orgqr m (min m n) (P.lq.geqpf m n a).1 (P.lq.geqpf m n a).2 with hQ
  have : ∀ t ∈ range m, Q t i * a t (p j) = ∑ s ∈ range (min m n), (Q t i * Q t s) * if s ≤ j then (P.lq.geqpf m n a).1 s j else 0 := by
    intro t ht
    rw [hp t (mem_range.1 ht) j hj, mul_sum]
    exact sum_congr rfl fun s _ => by ring
  rw [sum_congr rfl this, sum_comm, sum_eq_single i]
  · rw [← sum_mul, ho i hi i hi, if_pos rfl, one_mul]
  · intro s hs hne
    rw [← sum_mul, ho i hi s (mem_range.1 hs), if_neg (fun h => hne h.symm), zero_mul]
  · intro h; exact absurd (mem_range.2 hi) h

/-- A column of `R` after the rank vanishes on the diagonal. -/
theorem pivot_zero (hL : P.lq.Correct) (hpv : P.lq.Pivoted) {c : Nat} (hc : c < min m n) {F G : Nat → Nat → ℝ}
    (hr : ∀ i < m, ∀ j < n, a i j = ∑ t ∈ range c, F i t * G t j) : (P.lq.geqpf m n a).1 c c = 0 := by
  obtain ⟨p, hperm, hp⟩ := hL.qr m n a
  by_contra hne
  have hpn : ∀ j < n, p j < n := by
    intro j hj
    have : p j ∈ (List.range n).map p := List.mem_map.2 ⟨j, List.mem_range.2 hj, rfl⟩
    exact List.mem_range.1 (hperm.mem_iff.1 this)
  have hdiag : ∀ t ≤ c, (P.lq.geqpf m n a).1 t t ≠ 0 := by
    intro t ht h0
    have h1 := hpv m n a t (by omega) c (by omega) ht
    rw [h0] at h1
    have h2 := single_le_sum (f := fun i => if t ≤ i ∧ i ≤ c then (P.lq.geqpf m n a).1 i c ^ 2 else 0) (s := range (min m n))
      (fun i _ => by split <;> positivity) (mem_range.2 hc)
    rw [if_pos ⟨ht, le_refl _⟩] at h2
    have h3 : 0 < (P.lq.geqpf m n a).1 c c ^ 2 := by positivity
    have h4 : (0 : ℝ) ^ 2 = 0 := by norm_num
    linarith
  set Q := P.lq.orgqr m (min m n) (P.lq.geqpf m n a).1 (P.lq.geqpf m n a).2 with hQ
  let Rm : Matrix (Fin (c + 1)) (Fin (c + 1)) ℝ := fun i j => if i.1 ≤ j.1 then (P.lq.geqpf m n a).1 i j else 0
  let Qm : Matrix (Fin (c + 1)) (Fin m) ℝ := fun i t => Q t i
  let Fm : Matrix (Fin m) (Fin c) ℝ := fun i t => F i t
  let Gm : Matrix (Fin c) (Fin (c + 1)) ℝ := fun t j => G t (p j)
  have e : Rm = Qm * Fm * Gm := by
    ext i j
    have hi : i.1 < min m n := by have := i.2; omega
    have hj : j.1 < n := by have := j.2; omega
    show (if i.1 ≤ j.1 then (P.lq.geqpf m n a).1 i j else 0) = _
    rw [← qr_inner hL hp hi hj, Matrix.mul_assoc, Matrix.mul_apply, sum_range]
    refine sum_congr rfl fun t _ => ?_
    rw [hr t t.2 (p j) (hpn j hj), Matrix.mul_apply, sum_range]
  have hrank : Rm.rank ≤ c := by
    rw [e]
    refine le_trans (Matrix.rank_mul_le_right _ _) ?_
    have := Matrix.rank_le_height Gm
    exact this
  have hdet : Rm.det ≠ 0 := by
    rw [Matrix.det_of_isUpperTriangular]
    · refine prod_ne_zero_iff.2 fun i _ => ?_
      show (if i.1 ≤ i.1 then _ else _) ≠ _
      rw [if_pos (le_refl _)]
      exact hdiag i (by have := i.2; omega)
    · intro i j hij
      have : j.1 < i.1 := hij
      exact if_neg (by omega)
  have := Matrix.rank_of_isUnit Rm ((Matrix.isUnit_iff_isUnit_det _).2 (isUnit_iff_ne_zero.2 hdet))
  rw [Fintype.card_fin] at this
  omega

/-- The basis of a matrix of rank at most `max_rank` spans the matrix. -/
theorem basisV_span (hL : P.lq.Correct) (hpv : P.lq.Pivoted) (ht : P.reltol ≤ 0) {F G : Nat → Nat → ℝ} {rho : Nat} (hrho : rho ≤ P.maxRank)
    (hr : ∀ i < m, ∀ j < n, a i j = ∑ t ∈ range rho, F i t * G t j) :
    ∀ i < m, ∀ j < n, ∑ b ∈ range (basisV P m n a).ncol, (basisV P m n a).e i b * ∑ t ∈ range m, (basisV P m n a).e t b * a t j = a i j := by
  obtain ⟨p, hperm, hp⟩ := hL.qr m n a
  have hcol : (basisV P m n a).ncol = min (min m n) P.maxRank := vCols_noTol ht _ _
  rw [hcol]
  have hQ : (basisV P m n a).e = P.lq.orgqr m (min m n) (P.lq.geqpf m n a).1 (P.lq.geqpf m n a).2 := rfl
  rw [hQ]
  have hz : ∀ t, min (min m n) P.maxRank ≤ t → t < min m n → ∀ j < n, (if t ≤ j then (P.lq.geqpf m n a).1 t j else 0) = 0 := by
    intro t h1 h2 j hj
    have hcm : P.maxRank < min m n := by omega
    have h0 : (P.lq.geqpf m n a).1 P.maxRank P.maxRank = 0 := by
      refine pivot_zero hL hpv hcm (F := fun i t => if t < rho then F i t else 0) (G := G) fun i hi j hj => ?_
      rw [hr i hi j hj, ← sum_subset (range_subset_range.2 hrho)]
      · exact sum_congr rfl fun t ht => by rw [if_pos (mem_range.1 ht)]
      · intro t _ ht
        rw [if_neg (fun h => ht (mem_range.2 h)), zero_mul]
    split
    · rename_i htj
      have h3 := hpv m n a P.maxRank hcm j hj (by omega)
      rw [h0] at h3
      have h4 := single_le_sum (f := fun i => if P.maxRank ≤ i ∧ i ≤ j then (P.lq.geqpf m n a).1 i j ^ 2 else 0) (s := range (min m n))
        (fun i _ => by split <;> positivity) (mem_range.2 h2)
      rw [if_pos ⟨by omega, htj⟩] at h4
      have h5 : (P.lq.geqpf m n a).1 t j ^ 2 ≤ 0 := le_trans h4 (le_trans h3 (by norm_num))
      exact pow_eq_zero_iff (two_ne_zero) |>.1 (le_antisymm h5 (sq_nonneg _))
    · rfl
  intro i hi j hj
  obtain ⟨j', hj', rfl⟩ : ∃ j' < n, p j' = j := by
    have : j ∈ (List.range n).map p := hperm.mem_iff.2 (List.mem_range.2 hj)
    obtain ⟨j', h1, h2⟩ := List.mem_map.1 this
    exact ⟨j', List.mem_range.1 h1, h2⟩
  rw [hp i hi j' hj']
  have hsub : range (min (min m n) P.maxRank) ⊆ range (min m n) := range_subset_range.2 (by omega)
  rw [← sum_subset hsub]
  · refine sum_congr rfl fun b hb => ?_
    rw [qr_inner hL hp (mem_range.1 (hsub hb)) hj']
  · intro t h1 h2
    rw [mem_range] at h1 h2
    rw [hz t (by omega) h1 j' hj', mul_zero]

end

end H2Pack.SPD
