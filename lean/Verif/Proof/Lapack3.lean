import Verif.Proof.Lapack2
import Mathlib.Analysis.InnerProductSpace.PiL2
import Mathlib.LinearAlgebra.Dimension.Constructions

/-! # There is a QR factorization with column pivoting -/

namespace H2Pack.SPD
open Finset

section
variable {m n : Nat}

local notation "E" => EuclideanSpace ℝ (Fin m)
local notation "⟪" x ", " y "⟫" => inner ℝ x y

/-- The squared norm of what is left of `x` after the first `t` directions. -/
noncomputable def resid (Q : Nat → E) (t : Nat) (x : E) : ℝ := ⟪x, x⟫ - ∑ i ∈ range t, ⟪Q i, x⟫ ^ 2

/-- A direction for the next column. -/
theorem next_dir (Q : Nat → E) {k : Nat} (hk : k < m) (ho : ∀ i < k, ∀ j < k, ⟪Q i, Q j⟫ = if i = j then 1 else 0) (x : E) :
    ∃ q : E, ⟪q, q⟫ = 1 ∧ (∀ i < k, ⟪Q i, q⟫ = 0) ∧ x = ∑ i ∈ range k, ⟪Q i, x⟫ • Q i + ⟪q, x⟫ • q := by
  set w := x - ∑ i ∈ range k, ⟪Q i, x⟫ • Q i with hw
  have hwo : ∀ i < k, ⟪Q i, w⟫ = 0 := by
    intro i hi
    rw [hw, inner_sub_right, inner_sum, sum_eq_single i]
    · rw [inner_smul_right, ho i hi i hi, if_pos rfl, mul_one, sub_self]
    · intro j hj hne
      rw [inner_smul_right, ho i hi j (mem_range.1 hj), if_neg (fun h => hne h.symm), mul_zero]
    · intro h; exact absurd (mem_range.2 hi) h
  have fin : ∀ q : E, (∀ i < k, ⟪Q i, q⟫ = 0) → w = ⟪q, w⟫ • q → x = ∑ i ∈ range k, ⟪Q i, x⟫ • Q i + ⟪q, x⟫ • q := by
    intro q hq hqw
    have : ⟪q, x⟫ = ⟪q, w⟫ := by
      rw [hw, inner_sub_right, inner_sum, sum_eq_zero, sub_zero]
      intro i hi
      rw [inner_smul_right, real_inner_comm (Q i) q, hq i (mem_range.1 hi), mul_zero]
    rw [this, ← hqw, hw]
    abel
  by_cases h0 : w = 0
  · have hne : (Submodule.span ℝ (Set.range fun i : Fin k => Q i))ᗮ ≠ ⊥ := by
      intro hb
      rw [Submodule.orthogonal_eq_bot_iff] at hb
      have h1 : Module.finrank ℝ (Submodule.span ℝ (Set.range fun i : Fin k => Q i)) ≤ k := by
        have := finrank_range_le_card (R := ℝ) (fun i : Fin k => Q i)
        rw [Fintype.card_fin] at this
        exact this
      rw [hb, finrank_top, finrank_euclideanSpace_fin] at h1
      omega
    obtain ⟨z, hz, hz0⟩ := Submodule.exists_mem_ne_zero_of_ne_bot hne
    have hzo : ∀ i < k, ⟪Q i, z⟫ = 0 := fun i hi => (Submodule.mem_orthogonal _ _).1 hz _ (Submodule.subset_span ⟨⟨i, hi⟩, rfl⟩)
    have hzn : ‖z‖ ≠ 0 := norm_ne_zero_iff.2 hz0
    have hqo : ∀ i < k, ⟪Q i, ‖z‖⁻¹ • z⟫ = 0 := fun i hi => by rw [inner_smul_right, hzo i hi, mul_zero]
    refine ⟨‖z‖⁻¹ • z, ?_, hqo, fin _ hqo (by rw [h0]; simp)⟩
    rw [inner_smul_left, inner_smul_right, real_inner_self_eq_norm_sq]
    simp
    field_simp
  · have hwn : ‖w‖ ≠ 0 := norm_ne_zero_iff.2 h0
    have hqo : ∀ i < k, ⟪Q i, ‖w‖⁻¹ • w⟫ = 0 := fun i hi => by rw [inner_smul_right, hwo i hi, mul_zero]
    refine ⟨‖w‖⁻¹ • w, ?_, hqo, fin _ hqo ?_⟩
    · rw [inner_smul_left, inner_smul_right, real_inner_self_eq_norm_sq]
      simp
      field_simp
    · rw [inner_smul_left, real_inner_self_eq_norm_sq, smul_smul]
      have : (starRingEnd ℝ) ‖w‖⁻¹ * ‖w‖ ^ 2 * ‖w‖⁻¹ = 1 := by
        simp
        field_simp
      rw [this, one_smul]

/-- Column pivoting, `k` steps. -/
theorem pivot_steps (f : Fin n → E) : ∀ k ≤ min m n, ∃ (Q : Nat → E) (p : Equiv.Perm (Fin n)),
    (∀ i < k, ∀ j < k, ⟪Q i, Q j⟫ = if i = j then 1 else 0) ∧
    (∀ t : Fin n, t.1 < k → ∀ j : Fin n, t ≤ j → resid Q t (f (p j)) ≤ resid Q t (f (p t))) ∧
    (∀ t : Fin n, t.1 < k → f (p t) = ∑ i ∈ range (t + 1), ⟪Q i, f (p t)⟫ • Q i) := by
  intro k
  induction k with
  | zero => intro _; exact ⟨fun _ => 0, 1, fun i hi => by omega, fun _ h => by omega, fun _ h => by omega⟩
  | succ k ih =>
    intro hk
    obtain ⟨Q, p, h1, h2, h3⟩ := ih (by omega)
    have hkn : k < n := by omega
    let kf : Fin n := ⟨k, hkn⟩
    obtain ⟨js, hjs, hmax⟩ := exists_max_image (univ.filter fun j : Fin n => kf ≤ j) (fun j => resid Q k (f (p j))) ⟨kf, by simp⟩
    rw [mem_filter] at hjs
    have hjs' : kf ≤ js := hjs.2
    let p' : Equiv.Perm (Fin n) := p * Equiv.swap kf js
    have hlow : ∀ j : Fin n, j.1 < k → p' j = p j := by
      intro j hj
      show p (Equiv.swap kf js j) = p j
      rw [Equiv.swap_apply_of_ne_of_ne]
      · intro e; rw [e] at hj; exact absurd hj (lt_irrefl _)
      · intro e
        rw [e] at hj
        have : k ≤ js.1 := hjs'
        omega
    have hhigh : ∀ (s j : Fin n), s ≤ kf → s ≤ j → ∃ j' : Fin n, s ≤ j' ∧ p' j = p j' := by
      intro s j hs hj
      refine ⟨Equiv.swap kf js j, ?_, rfl⟩
      rw [Equiv.swap_apply_def]
      split
      · exact le_trans hs hjs'
      · split
        · exact hs
        · exact hj
    have hk' : p' kf = p js := by
      show p (Equiv.swap kf js kf) = p js
      rw [Equiv.swap_apply_left]
    obtain ⟨q, q1, q2, q3⟩ := next_dir Q (show k < m by omega) h1 (f (p' kf))
    have hQ : ∀ i < k, Function.update Q k q i = Q i := fun i hi => Function.update_of_ne (by omega) _ _
    have hres : ∀ t ≤ k, ∀ x, resid (Function.update Q k q) t x = resid Q t x := by
      intro t ht x
      unfold resid
      congr 1
      refine sum_congr rfl fun i hi => ?_
      rw [hQ i (by rw [mem_range] at hi; omega)]
    refine ⟨Function.update Q k q, p', ?_, ?_, ?_⟩
    · intro i hi j hj
      by_cases hik : i = k
      · by_cases hjk : j = k
        · rw [hik, hjk, Function.update_self, q1, if_pos rfl]
        · rw [hik, Function.update_self, hQ j (by omega), real_inner_comm, q2 j (by omega), if_neg (fun h => hjk h.symm)]
      · by_cases hjk : j = k
        · rw [hjk, Function.update_self, hQ i (by omega), q2 i (by omega), if_neg hik]
        · rw [hQ i (by omega), hQ j (by omega)]; exact h1 i (by omega) j (by omega)
    · intro t ht j hj
      rw [hres t (by omega), hres t (by omega)]
      by_cases htk : t.1 < k
      · obtain ⟨j', a, b⟩ := hhigh t j (show t.1 ≤ k by omega) hj
        rw [hlow t htk, b]
        exact h2 t htk j' a
      · have htk' : t = kf := Fin.ext (by show t.1 = k; omega)
        subst htk'
        obtain ⟨j', a, b⟩ := hhigh kf j (le_refl _) hj
        rw [b, hk']
        exact hmax j' (mem_filter.2 ⟨mem_univ _, a⟩)
    · intro t ht
      by_cases htk : t.1 < k
      · rw [hlow t htk]
        conv_lhs => rw [h3 t htk]
        refine sum_congr rfl fun i hi => ?_
        rw [hQ i (by rw [mem_range] at hi; omega)]
      · have htk' : t = kf := Fin.ext (by show t.1 = k; omega)
        subst htk'
        rw [sum_range_succ]
        conv_lhs => rw [q3]
        show _ = _ + ⟪Function.update Q k q k, _⟫ • Function.update Q k q k
        rw [Function.update_self]
        congr 1
        refine sum_congr rfl fun i hi => ?_
        rw [hQ i (mem_range.1 hi)]

end

/-- A QR factorization with column pivoting. -/
theorem qrp_exists (m n : Nat) (a : Nat → Nat → ℝ) : ∃ (Q : Nat → Nat → ℝ) (p : Nat → Nat), ((List.range n).map p).Perm (List.range n) ∧
    (∀ i < min m n, ∀ j < min m n, ∑ t ∈ range m, Q t i * Q t j = if i = j then 1 else 0) ∧
    (∀ i < m, ∀ j < n, a i (p j) = ∑ t ∈ range (min m n), Q i t * if t ≤ j then ∑ s ∈ range m, Q s t * a s (p j) else 0) ∧
    ∀ k < min m n, ∀ j < n, k ≤ j → ∑ i ∈ range (min m n), (if k ≤ i ∧ i ≤ j then (∑ s ∈ range m, Q s i * a s (p j)) ^ 2 else 0) ≤ (∑ s ∈ range m, Q s k * a s (p k)) ^ 2 := by
  let f : Fin n → EuclideanSpace ℝ (Fin m) := fun j => WithLp.toLp 2 fun i => a i j
  obtain ⟨Q, p, h1, h2, h3⟩ := pivot_steps f (min m n) (le_refl _)
  let Qf : Nat → Nat → ℝ := fun i t => if h : i < m then Q t ⟨i, h⟩ else 0
  let pf : Nat → Nat := fun j => if h : j < n then p ⟨j, h⟩ else j
  have hpf : ∀ j (h : j < n), pf j = p ⟨j, h⟩ := fun j h => dif_pos h
  have dot : ∀ x y : EuclideanSpace ℝ (Fin m), inner ℝ x y = ∑ i : Fin m, x i * y i := by
    intro x y
    simp [PiLp.inner_apply, mul_comm]
  have hqq : ∀ i j, ∑ t ∈ range m, Qf t i * Qf t j = inner ℝ (Q i) (Q j) := by
    intro i j
    rw [dot, sum_range]
    exact sum_congr rfl fun t _ => by show (if h : t.1 < m then _ else _) * (if h : t.1 < m then _ else _) = _; rw [dif_pos t.2, dif_pos t.2]
  have hR : ∀ t j (hj : j < n), ∑ s ∈ range m, Qf s t * a s (pf j) = inner ℝ (Q t) (f (p ⟨j, hj⟩)) := by
    intro t j hj
    rw [dot, sum_range]
    refine sum_congr rfl fun s _ => ?_
    show (if h : s.1 < m then _ else _) * _ = _
    rw [dif_pos s.2, hpf j hj]
  -- below the diagonal
  have hz : ∀ t j (hj : j < n), t < min m n → j < t → inner ℝ (Q t) (f (p ⟨j, hj⟩)) = 0 := by
    intro t j hj ht hjt
    rw [h3 ⟨j, hj⟩ (by show j < _; omega), inner_sum]
    refine sum_eq_zero fun i hi => ?_
    have hi' : i < j + 1 := mem_range.1 hi
    rw [inner_smul_right, h1 t ht i (by omega), if_neg (by omega), mul_zero]
  have hexp : ∀ i (hi : i < m), ∀ j (hj : j < n), a i (pf j) = ∑ t ∈ range (min m n), Qf i t * inner ℝ (Q t) (f (p ⟨j, hj⟩)) := by
    intro i hi j hj
    have e0 : a i (pf j) = f (p ⟨j, hj⟩) ⟨i, hi⟩ := by rw [hpf j hj]
    by_cases hjd : j < min m n
    · have e := h3 ⟨j, hj⟩ hjd
      rw [e0]
      have e' : f (p ⟨j, hj⟩) ⟨i, hi⟩ = ∑ t ∈ range (j + 1), inner ℝ (Q t) (f (p ⟨j, hj⟩)) * Q t ⟨i, hi⟩ := by
        conv_lhs => rw [e]
        rw [WithLp.ofLp_sum, Finset.sum_apply]
        rfl
      rw [e', sum_subset (range_subset_range.2 (show j + 1 ≤ min m n by omega))]
      · refine sum_congr rfl fun t _ => ?_
        show _ = (if h : i < m then _ else _) * _
        rw [dif_pos hi, mul_comm]
      · intro t ht hnt
        rw [mem_range] at ht hnt
        rw [hz t j hj ht (by omega), zero_mul]
    · have hd : min m n = m := by omega
      rw [hd] at h1 ⊢
      let M : Matrix (Fin m) (Fin m) ℝ := fun i j => Q j i
      have hM : M.transpose * M = 1 := by
        ext i j
        rw [Matrix.mul_apply, Matrix.one_apply]
        have := h1 i i.2 j j.2
        rw [dot] at this
        simp only [Fin.ext_iff]
        rw [← this]
        rfl
      have hM2 : M * M.transpose = 1 := mul_eq_one_comm.1 hM
      rw [e0]
      have key : ∀ s : Fin m, ∑ t ∈ range m, Qf i t * Q t s = if (⟨i, hi⟩ : Fin m) = s then 1 else 0 := by
        intro s
        have := congrFun (congrFun hM2 ⟨i, hi⟩) s
        rw [Matrix.mul_apply, Matrix.one_apply] at this
        rw [← this, sum_range]
        refine sum_congr rfl fun t _ => ?_
        show (if h : i < m then _ else _) * _ = _
        rw [dif_pos hi]
        rfl
      simp only [dot, mul_sum]
      rw [sum_comm, sum_eq_single ⟨i, hi⟩]
      · have := key ⟨i, hi⟩
        rw [if_pos rfl] at this
        simp only [← mul_assoc]
        rw [← sum_mul, this, one_mul]
      · intro s _ hne
        have := key s
        rw [if_neg (fun h => hne h.symm)] at this
        simp only [← mul_assoc]
        rw [← sum_mul, this, zero_mul]
      · intro h; exact absurd (mem_univ _) h
  have hnorm : ∀ j (hj : j < n), inner ℝ (f (p ⟨j, hj⟩)) (f (p ⟨j, hj⟩)) = ∑ t ∈ range (min m n), inner ℝ (Q t) (f (p ⟨j, hj⟩)) ^ 2 := by
    intro j hj
    rw [dot]
    have : ∀ i : Fin m, f (p ⟨j, hj⟩) i * f (p ⟨j, hj⟩) i = ∑ t ∈ range (min m n), Q t i * f (p ⟨j, hj⟩) i * inner ℝ (Q t) (f (p ⟨j, hj⟩)) := by
      intro i
      have e := hexp i i.2 j hj
      have e0 : a i (pf j) = f (p ⟨j, hj⟩) i := by rw [hpf j hj]
      rw [e0] at e
      conv_lhs => lhs; rw [e]
      rw [sum_mul]
      refine sum_congr rfl fun t _ => ?_
      show (if h : i.1 < m then _ else _) * _ * _ = _
      rw [dif_pos i.2]
      ring
    rw [sum_congr rfl fun i _ => this i, sum_comm]
    refine sum_congr rfl fun t _ => ?_
    rw [← sum_mul, ← dot, sq]
  refine ⟨Qf, pf, ?_, fun i hi j hj => (hqq i j).trans (h1 i hi j hj), fun i hi j hj => ?_, fun k hk j hj hkj => ?_⟩
  · rw [List.perm_ext_iff_of_nodup _ List.nodup_range]
    · intro x
      rw [List.mem_map, List.mem_range]
      constructor
      · rintro ⟨y, hy, rfl⟩
        rw [List.mem_range] at hy
        rw [hpf y hy]
        exact (p ⟨y, hy⟩).2
      · intro hx
        refine ⟨(p.symm ⟨x, hx⟩).1, List.mem_range.2 (p.symm ⟨x, hx⟩).2, ?_⟩
        rw [hpf _ (p.symm ⟨x, hx⟩).2]
        simp
    · refine List.Nodup.map_on ?_ List.nodup_range
      intro x hx y hy e
      rw [List.mem_range] at hx hy
      rw [hpf x hx, hpf y hy] at e
      have := p.injective (Fin.ext e)
      simpa using this
  · rw [hexp i hi j hj]
    refine sum_congr rfl fun t ht => ?_
    rw [mem_range] at ht
    by_cases htj : t ≤ j
    · rw [if_pos htj, hR t j hj]
    · rw [if_neg htj, hz t j hj ht (by omega)]
  · have hkn : k < n := by omega
    have hp := h2 ⟨k, hkn⟩ hk ⟨j, hj⟩ hkj
    unfold resid at hp
    rw [hnorm, hnorm] at hp
    have split : ∀ (g : Nat → ℝ), ∑ t ∈ range (min m n), g t - ∑ t ∈ range k, g t = ∑ t ∈ range (min m n), if k ≤ t then g t else 0 := by
      intro g
      have e1 : ∑ t ∈ range k, g t = ∑ t ∈ range (min m n), if t < k then g t else 0 := by
        rw [← sum_subset (range_subset_range.2 (le_of_lt hk))]
        · exact sum_congr rfl fun t ht => by rw [if_pos (mem_range.1 ht)]
        · intro t _ ht
          rw [if_neg (fun h => ht (mem_range.2 h))]
      rw [e1, ← sum_sub_distrib]
      refine sum_congr rfl fun t _ => ?_
      by_cases h : t < k
      · rw [if_pos h, if_neg (by omega), sub_self]
      · rw [if_neg h, if_pos (by omega), sub_zero]
    have hp' : ∑ t ∈ range (min m n), inner ℝ (Q t) (f (p ⟨j, hj⟩)) ^ 2 - ∑ t ∈ range k, inner ℝ (Q t) (f (p ⟨j, hj⟩)) ^ 2 ≤
      ∑ t ∈ range (min m n), inner ℝ (Q t) (f (p ⟨k, hkn⟩)) ^ 2 - ∑ t ∈ range k, inner ℝ (Q t) (f (p ⟨k, hkn⟩)) ^ 2 := hp
    rw [split (fun t => inner ℝ (Q t) (f (p ⟨j, hj⟩)) ^ 2), split (fun t => inner ℝ (Q t) (f (p ⟨k, hkn⟩)) ^ 2)] at hp'
    refine le_trans (sum_le_sum (g := fun t => if k ≤ t then inner ℝ (Q t) (f (p ⟨j, hj⟩)) ^ 2 else 0) fun i _ => ?_) (le_trans hp' (le_of_eq ?_))
    · rw [hR i j hj]
      by_cases h : k ≤ i ∧ i ≤ j
      · rw [if_pos h, if_pos h.1]
      · rw [if_neg h]
        split
        · positivity
        · exact le_refl _
    · rw [hR k k hkn, sum_eq_single k]
      · rw [if_pos (le_refl _)]
      · intro t ht hne
        by_cases h : k ≤ t
        · rw [if_pos h, hz t k hkn (mem_range.1 ht) (by omega)]
          norm_num
        · rw [if_neg h]
      · intro h; exact absurd (mem_range.2 hk) h

/-- There are functions with the documented behaviour, pivoting included. -/
theorem lapack3_exists : ∃ Lq : Lapack2, Lq.Correct ∧ Lq.Pivoted := by
  choose Q w hQ1 hQ2 using syevd_exists
  choose Z p hp hZ1 hZ2 hZ3 using qrp_exists
  let Lq : Lapack2 := {
    syevd := fun n a => (0, Q n a, w n a)
    geqpf := fun m n a => (fun t j => ∑ s ∈ Finset.range m, Z m n a s t * a s (p m n a j), fun k => Z m n a (k % m) (k / m))
    orgqr := fun m _ _ tau i j => if i < m then tau (j * m + i) else 0 }
  have horg : ∀ m n a k, ∀ i < m, ∀ j, Lq.orgqr m k (Lq.geqpf m n a).1 (Lq.geqpf m n a).2 i j = Z m n a i j := by
    intro m n a k i hi j
    show (if i < m then Z m n a ((j * m + i) % m) ((j * m + i) / m) else 0) = _
    have e1 : (j * m + i) % m = i := by rw [Nat.add_comm, Nat.add_mul_mod_self_right, Nat.mod_eq_of_lt hi]
    have e2 : (j * m + i) / m = j := by rw [Nat.add_comm, Nat.add_mul_div_right _ _ (by omega), Nat.div_eq_of_lt hi, Nat.zero_add]
    rw [if_pos hi, e1, e2]
  refine ⟨Lq, ⟨fun _ _ => rfl, hQ1, hQ2, ?_, ?_⟩, ?_⟩
  · intro m n a i hi j hj
    rw [← hZ1 m n a i hi j hj]
    exact Finset.sum_congr rfl fun t ht => by rw [horg m n a _ t (Finset.mem_range.1 ht), horg m n a _ t (Finset.mem_range.1 ht)]
  · intro m n a
    refine ⟨p m n a, hp m n a, fun i hi j hj => ?_⟩
    rw [hZ2 m n a i hi j hj]
    exact Finset.sum_congr rfl fun t _ => by rw [horg m n a _ i hi]
  · intro m n a k hk j hj hkj
    exact hZ3 m n a k hk j hj hkj

end H2Pack.SPD
