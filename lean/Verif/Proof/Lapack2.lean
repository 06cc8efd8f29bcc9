import Verif.Spec.SPDHSS
import Verif.Proof.Lapack
import Mathlib.Analysis.Matrix.Spectrum

/-! # There are functions with the documented behaviour of SYEVD, GEQPF and ORGQR -/

namespace H2Pack.SPD
open Matrix
open H2Pack.ULV (qr_exists)

theorem syevd_exists (n : Nat) (a : Nat → Nat → ℝ) : ∃ (Q : Nat → Nat → ℝ) (w : Nat → ℝ),
    (∀ i < n, ∀ j < n, ∑ t ∈ Finset.range n, Q t i * Q t j = if i = j then 1 else 0) ∧
    ∀ j < n, ∀ i ≤ j, ∑ k ∈ Finset.range n, Q i k * w k * Q j k = a i j := by
  let M : Matrix (Fin n) (Fin n) ℝ := fun i j => if i ≤ j then a i j else a j i
  have hM : M.IsHermitian := by
    ext i j
    show (if j ≤ i then a j i else a i j) = if i ≤ j then a i j else a j i
    rcases lt_trichotomy i j with h | h | h
    · rw [if_neg (not_le.2 h), if_pos h.le]
    · subst h; simp
    · rw [if_pos h.le, if_neg (not_le.2 h)]
  let U : Matrix (Fin n) (Fin n) ℝ := hM.eigenvectorUnitary
  have hU : star U * U = 1 := Unitary.coe_star_mul_self hM.eigenvectorUnitary
  have hS : M = U * diagonal hM.eigenvalues * star U := by
    have := hM.spectral_theorem
    exact this
  refine ⟨fun i j => if h : i < n ∧ j < n then U ⟨i, h.1⟩ ⟨j, h.2⟩ else 0, fun k => if h : k < n then hM.eigenvalues ⟨k, h⟩ else 0, ?_, ?_⟩
  · intro i hi j hj
    have := congrFun (congrFun hU ⟨i, hi⟩) ⟨j, hj⟩
    rw [mul_apply, one_apply] at this
    simp only [Fin.mk.injEq] at this
    rw [← this, Finset.sum_range]
    refine Finset.sum_congr rfl fun t _ => ?_
    simp [hi, hj, star_apply]
  · intro j hj i hij
    have hi : i < n := by omega
    have := congrFun (congrFun hS ⟨i, hi⟩) ⟨j, hj⟩
    have e : M ⟨i, hi⟩ ⟨j, hj⟩ = a i j := if_pos hij
    rw [e] at this
    rw [this, mul_apply, Finset.sum_range]
    refine Finset.sum_congr rfl fun t _ => ?_
    rw [mul_diagonal]
    simp [hi, hj, star_apply]

theorem qr2_exists (m n : Nat) (a : Nat → Nat → ℝ) : ∃ Q : Nat → Nat → ℝ,
    (∀ i < min m n, ∀ j < min m n, ∑ t ∈ Finset.range m, Q t i * Q t j = if i = j then 1 else 0) ∧
    ∀ i < m, ∀ j < n, a i j = ∑ t ∈ Finset.range (min m n), Q i t * if t ≤ j then ∑ s ∈ Finset.range m, Q s t * a s j else 0 := by
  obtain ⟨Q, h1, h2⟩ := qr_exists m n a
  refine ⟨Q, fun i hi j hj => h1 i (by omega) j (by omega), fun i hi j hj => ?_⟩
  -- `Q Q' = 1`
  let M : Matrix (Fin m) (Fin m) ℝ := fun i j => Q i j
  have hM : Mᵀ * M = 1 := by
    ext i j
    rw [mul_apply, one_apply]
    have := h1 i i.2 j j.2
    rw [Finset.sum_range] at this
    simp only [Fin.ext_iff]
    rw [← this]
    rfl
  have hM2 : M * Mᵀ = 1 := mul_eq_one_comm.1 hM
  have hall : a i j = ∑ t ∈ Finset.range m, Q i t * ∑ s ∈ Finset.range m, Q s t * a s j := by
    have e : ∀ s < m, ∑ t ∈ Finset.range m, Q i t * Q s t = if i = s then 1 else 0 := by
      intro s hs
      have := congrFun (congrFun hM2 ⟨i, hi⟩) ⟨s, hs⟩
      rw [mul_apply, one_apply] at this
      simp only [Fin.mk.injEq] at this
      rw [← this, Finset.sum_range]
      rfl
    simp only [Finset.mul_sum]
    rw [Finset.sum_comm, Finset.sum_eq_single i]
    · have := e i hi
      rw [if_pos rfl] at this
      simp only [← mul_assoc]
      rw [← Finset.sum_mul, this, one_mul]
    · intro s hs hne
      have := e s (Finset.mem_range.1 hs)
      rw [if_neg (fun h => hne h.symm)] at this
      simp only [← mul_assoc]
      rw [← Finset.sum_mul, this, zero_mul]
    · intro h; exact absurd (Finset.mem_range.2 hi) h
  rw [hall]
  have hz : ∀ t < m, ¬ t ≤ j → ∑ s ∈ Finset.range m, Q s t * a s j = 0 := fun t ht htj => h2 t ht j (by omega) (by omega) hj
  have hsub : Finset.range (min m n) ⊆ Finset.range m := Finset.range_subset_range.2 (by omega)
  rw [← Finset.sum_subset hsub]
  · refine Finset.sum_congr rfl fun t ht => ?_
    rw [Finset.mem_range] at ht
    by_cases htj : t ≤ j
    · rw [if_pos htj]
    · rw [if_neg htj, hz t (by omega) htj]
  · intro t ht hnt
    rw [Finset.mem_range] at ht hnt
    rw [hz t ht (by omega), mul_zero]

theorem lapack2_exists : ∃ Lq : Lapack2, Lq.Correct := by
  choose Q w hQ1 hQ2 using syevd_exists
  choose Z hZ1 hZ2 using qr2_exists
  let Lq : Lapack2 := {
    syevd := fun n a => (0, Q n a, w n a)
    geqpf := fun m n a => (fun t j => ∑ s ∈ Finset.range m, Z m n a s t * a s j, fun k => Z m n a (k % m) (k / m))
    orgqr := fun m _ _ tau i j => if i < m then tau (j * m + i) else 0 }
  have horg : ∀ m n a k, ∀ i < m, ∀ j, Lq.orgqr m k (Lq.geqpf m n a).1 (Lq.geqpf m n a).2 i j = Z m n a i j := by
    intro m n a k i hi j
    show (if i < m then Z m n a ((j * m + i) % m) ((j * m + i) / m) else 0) = _
    have e1 : (j * m + i) % m = i := by rw [Nat.add_comm, Nat.add_mul_mod_self_right, Nat.mod_eq_of_lt hi]
    have e2 : (j * m + i) / m = j := by rw [Nat.add_comm, Nat.add_mul_div_right _ _ (by omega), Nat.div_eq_of_lt hi, Nat.zero_add]
    rw [if_pos hi, e1, e2]
  refine ⟨Lq, ⟨fun _ _ => rfl, hQ1, hQ2, ?_, ?_⟩⟩
  · intro m n a i hi j hj
    rw [← hZ1 m n a i hi j hj]
    exact Finset.sum_congr rfl fun t ht => by rw [horg m n a _ t (Finset.mem_range.1 ht), horg m n a _ t (Finset.mem_range.1 ht)]
  · intro m n a
    refine ⟨id, by simp, fun i hi j hj => ?_⟩
    show a i j = _
    rw [hZ2 m n a i hi j hj]
    exact Finset.sum_congr rfl fun t _ => by rw [horg m n a _ i hi]

end H2Pack.SPD
