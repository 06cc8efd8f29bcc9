import Verif.Spec.RankEst
import Mathlib.Analysis.Matrix.PosDef
import Mathlib.Analysis.Matrix.Order
import Mathlib.Tactic.NoncommRing
import Mathlib.Tactic.Linarith

/-! # The error of the Nyström approximation decreases with the number of rows -/

namespace H2Pack.AFN
open Matrix
open scoped MatrixOrder

section
variable {ι κ κ' : Type} [Fintype ι] [DecidableEq ι] [Fintype κ] [DecidableEq κ] [Fintype κ'] [DecidableEq κ']

/-- The part of `A` that is left after the columns of `P`. -/
noncomputable def left (A : Matrix ι ι ℝ) (P : Matrix ι κ ℝ) : Matrix ι ι ℝ := A - A * P * (Pᵀ * A * P)⁻¹ * (Pᵀ * A)

/-- Every other correction by columns of `P` leaves more. -/
theorem left_min {A : Matrix ι ι ℝ} (hA : Aᵀ = A) {P : Matrix ι κ ℝ} (hM : IsUnit (Pᵀ * A * P).det) (T : Matrix κ ι ℝ) :
    (1 - P * T)ᵀ * A * (1 - P * T) = left A P + (T - (Pᵀ * A * P)⁻¹ * (Pᵀ * A))ᵀ * (Pᵀ * A * P) * (T - (Pᵀ * A * P)⁻¹ * (Pᵀ * A)) := by
  set M := Pᵀ * A * P with hMd
  have hMt : Mᵀ = M := by rw [hMd]; simp only [Matrix.transpose_mul, Matrix.transpose_transpose, hA, Matrix.mul_assoc]
  have hMi : (M⁻¹)ᵀ = M⁻¹ := by rw [Matrix.transpose_nonsing_inv, hMt]
  have e1 : (M⁻¹ * (Pᵀ * A))ᵀ = A * P * M⁻¹ := by
    rw [Matrix.transpose_mul, Matrix.transpose_mul, Matrix.transpose_transpose, hA, hMi]
  have e2 : M⁻¹ * M = 1 := Matrix.nonsing_inv_mul _ hM
  have e3 : M * M⁻¹ = 1 := Matrix.mul_nonsing_inv _ hM
  rw [Matrix.transpose_sub, Matrix.transpose_sub, e1, Matrix.transpose_one, Matrix.transpose_mul]
  have l1 : (1 - Tᵀ * Pᵀ) * A * (1 - P * T) = A - A * P * T - Tᵀ * (Pᵀ * A) + Tᵀ * M * T := by
    rw [hMd]
    simp only [Matrix.sub_mul, Matrix.mul_sub, Matrix.one_mul, Matrix.mul_one, Matrix.mul_assoc]
    abel
  have l2 : (Tᵀ - A * P * M⁻¹) * M * (T - M⁻¹ * (Pᵀ * A)) = Tᵀ * M * T - Tᵀ * (Pᵀ * A) - A * P * T + A * P * M⁻¹ * (Pᵀ * A) := by
    rw [Matrix.sub_mul, Matrix.mul_assoc (A * P), e2, Matrix.mul_one, Matrix.sub_mul, Matrix.mul_sub, Matrix.mul_sub, ← Matrix.mul_assoc (Tᵀ * M), Matrix.mul_assoc Tᵀ M M⁻¹, e3,
      Matrix.mul_one, ← Matrix.mul_assoc (A * P) M⁻¹]
    abel
  rw [l1, l2, left]
  abel

theorem left_eq {A : Matrix ι ι ℝ} (hA : Aᵀ = A) {P : Matrix ι κ ℝ} (hM : IsUnit (Pᵀ * A * P).det) :
    left A P = (1 - P * ((Pᵀ * A * P)⁻¹ * (Pᵀ * A)))ᵀ * A * (1 - P * ((Pᵀ * A * P)⁻¹ * (Pᵀ * A))) := by
  rw [left_min hA hM, sub_self]
  simp

theorem left_posSemidef {A : Matrix ι ι ℝ} (hA : A.PosSemidef) {P : Matrix ι κ ℝ} (hM : IsUnit (Pᵀ * A * P).det) : (left A P).PosSemidef := by
  have ht : Aᵀ = A := by have := hA.1.eq; rwa [Matrix.conjTranspose_eq_transpose_of_trivial] at this
  rw [left_eq ht hM, ← Matrix.conjTranspose_eq_transpose_of_trivial]
  exact hA.conjTranspose_mul_mul_same _

theorem left_mono {A : Matrix ι ι ℝ} (hA : A.PosSemidef) {P : Matrix ι κ ℝ} (hM : IsUnit (Pᵀ * A * P).det) {P' : Matrix ι κ' ℝ} (hM' : IsUnit (P'ᵀ * A * P').det)
    {J : Matrix κ' κ ℝ} (hJ : P = P' * J) : (left A P - left A P').PosSemidef := by
  have ht : Aᵀ = A := by have := hA.1.eq; rwa [Matrix.conjTranspose_eq_transpose_of_trivial] at this
  have h1 := left_eq ht hM
  have h2 := left_min ht hM' (J * ((Pᵀ * A * P)⁻¹ * (Pᵀ * A)))
  rw [← Matrix.mul_assoc P' J, ← hJ, ← h1] at h2
  rw [h2, add_sub_cancel_left, ← Matrix.conjTranspose_eq_transpose_of_trivial]
  apply Matrix.PosSemidef.conjTranspose_mul_mul_same
  rw [← Matrix.conjTranspose_eq_transpose_of_trivial]
  exact hA.conjTranspose_mul_mul_same _

theorem trace_mul_nonneg {A B : Matrix ι ι ℝ} (hA : A.PosSemidef) (hB : B.PosSemidef) : 0 ≤ (A * B).trace := by
  obtain ⟨C, hC⟩ := CStarAlgebra.nonneg_iff_eq_star_mul_self.mp hA.nonneg
  rw [Matrix.star_eq_conjTranspose] at hC
  rw [hC, Matrix.mul_assoc, Matrix.trace_mul_comm]
  exact (hB.mul_mul_conjTranspose_same C).trace_nonneg

theorem sumSq_trace {A : Matrix ι ι ℝ} (hA : Aᵀ = A) : ∑ i, ∑ j, A i j ^ 2 = (A * A).trace := by
  rw [Matrix.trace]
  apply Finset.sum_congr rfl
  intro i _
  rw [Matrix.diag_apply, Matrix.mul_apply]
  apply Finset.sum_congr rfl
  intro j _
  rw [pow_two]
  congr 1
  exact (congrFun (congrFun hA i) j).symm

theorem sumSq_mono {A B : Matrix ι ι ℝ} (hA : A.PosSemidef) (hB : B.PosSemidef) (h : (B - A).PosSemidef) : ∑ i, ∑ j, A i j ^ 2 ≤ ∑ i, ∑ j, B i j ^ 2 := by
  have ht : ∀ {C : Matrix ι ι ℝ}, C.PosSemidef → Cᵀ = C := by
    intro C hC; have := hC.1.eq; rwa [Matrix.conjTranspose_eq_transpose_of_trivial] at this
  rw [sumSq_trace (ht hA), sumSq_trace (ht hB)]
  have h1 := trace_mul_nonneg h (hB.add hA)
  rw [Matrix.sub_mul, Matrix.mul_add, Matrix.mul_add, Matrix.trace_sub, Matrix.trace_add, Matrix.trace_add, Matrix.trace_mul_comm A B] at h1
  linarith

end

section
variable {n : Nat}

/-- The first `r` unit vectors. -/
noncomputable def inc (n r : Nat) (h : r ≤ n) : Matrix (Fin n) (Fin r) ℝ := (1 : Matrix (Fin n) (Fin n) ℝ).submatrix id (Fin.castLE h)

theorem mul_inc (A : Matrix (Fin n) (Fin n) ℝ) {r : Nat} (h : r ≤ n) : A * inc n r h = A.submatrix id (Fin.castLE h) := by
  ext i j
  rw [Matrix.mul_apply]
  simp [inc, Matrix.one_apply]

theorem incT_mul {m : Nat} (A : Matrix (Fin n) (Fin m) ℝ) {r : Nat} (h : r ≤ n) : (inc n r h)ᵀ * A = A.submatrix (Fin.castLE h) id := by
  ext i j
  rw [Matrix.mul_apply]
  simp [inc, Matrix.one_apply]

theorem inc_block (A : Matrix (Fin n) (Fin n) ℝ) {r : Nat} (h : r ≤ n) : (inc n r h)ᵀ * A * inc n r h = A.submatrix (Fin.castLE h) (Fin.castLE h) := by
  rw [Matrix.mul_assoc, mul_inc, incT_mul]
  rfl

theorem left_inc (A : Matrix (Fin n) (Fin n) ℝ) {r : Nat} (h : r ≤ n) : A - nysLead A r h = left A (inc n r h) := by
  unfold left nysLead
  rw [inc_block, mul_inc, incT_mul]

theorem lead_posDef {A : Matrix (Fin n) (Fin n) ℝ} (hA : A.PosDef) {r : Nat} (h : r ≤ n) : (A.submatrix (Fin.castLE h) (Fin.castLE h)).PosDef :=
  hA.submatrix (Fin.castLE_injective h)

theorem lead_unit {A : Matrix (Fin n) (Fin n) ℝ} (hA : A.PosDef) {r : Nat} (h : r ≤ n) : IsUnit ((inc n r h)ᵀ * A * inc n r h).det := by
  rw [inc_block]
  exact (lead_posDef hA h).isUnit.map Matrix.detMonoidHom

theorem inc_inc {r r' : Nat} (h : r ≤ r') (h' : r' ≤ n) : inc n r (h.trans h') = inc n r' h' * inc r' r h := by
  ext i j
  rw [Matrix.mul_apply]
  simp [inc, Matrix.one_apply]

/-- The error of the Nyström approximation does not increase. -/
theorem frob_antitone {A : Matrix (Fin n) (Fin n) ℝ} (hA : A.PosDef) {r r' : Nat} (h : r ≤ r') (h' : r' ≤ n) :
    frob (A - nysLead A r' h') ≤ frob (A - nysLead A r (h.trans h')) := by
  unfold frob
  apply Real.sqrt_le_sqrt
  rw [left_inc, left_inc]
  exact sumSq_mono (left_posSemidef hA.posSemidef (lead_unit hA _)) (left_posSemidef hA.posSemidef (lead_unit hA _))
    (left_mono hA.posSemidef (lead_unit hA _) (lead_unit hA _) (inc_inc h h'))

/-- With all rows there is no error. -/
theorem nysLead_full {A : Matrix (Fin n) (Fin n) ℝ} (hA : A.PosDef) : A - nysLead A n (le_refl n) = 0 := by
  have hu : IsUnit A.det := hA.isUnit.map Matrix.detMonoidHom
  have : nysLead A n (le_refl n) = A * A⁻¹ * A := rfl
  rw [this, Matrix.mul_nonsing_inv _ hu, Matrix.one_mul, sub_self]

theorem frob_pos {A : Matrix (Fin n) (Fin n) ℝ} (hA : A.PosDef) (hn : 1 ≤ n) : 0 < frob A := by
  unfold frob
  apply Real.sqrt_pos.2
  have h0 := hA.diag_pos (i := (⟨0, hn⟩ : Fin n))
  have : A ⟨0, hn⟩ ⟨0, hn⟩ ^ 2 ≤ ∑ i, ∑ j, A i j ^ 2 :=
    le_trans (Finset.single_le_sum (f := fun j => A ⟨0, hn⟩ j ^ 2) (fun j _ => sq_nonneg _) (Finset.mem_univ _))
      (Finset.single_le_sum (f := fun i => ∑ j, A i j ^ 2) (fun i _ => Finset.sum_nonneg fun j _ => sq_nonneg _) (Finset.mem_univ _))
  have : 0 < A ⟨0, hn⟩ ⟨0, hn⟩ ^ 2 := by positivity
  linarith

end

/-! ## The binary search -/

/-- The result of the search, for any test: it is in the range, the number before fails the test, the result passes it or is the last one. -/
theorem bsearch_spec (test : Nat → Bool) : ∀ (k rs re : Nat), re - rs = k → rs ≤ re →
    rs ≤ bsearch test rs re ∧ bsearch test rs re ≤ re ∧ (bsearch test rs re = re ∨ test (bsearch test rs re) = true) ∧
    (bsearch test rs re = rs ∨ test (bsearch test rs re - 1) = false) := by
  intro k
  induction k using Nat.strong_induction_on with
  | _ k ih =>
    intro rs re hk hle
    rw [bsearch]
    by_cases h : rs < re
    · rw [if_pos h]
      dsimp only
      set rc := (rs + re) / 2 with hrc
      by_cases ht : test rc = true
      · rw [if_pos ht]
        obtain ⟨a, b, c, d⟩ := ih (rc - rs) (by omega) rs rc rfl (by omega)
        refine ⟨a, by omega, ?_, d⟩
        rcases c with c | c
        · right; rw [c]; exact ht
        · exact Or.inr c
      · rw [if_neg ht]
        obtain ⟨a, b, c, d⟩ := ih (re - (rc + 1)) (by omega) (rc + 1) re rfl (by omega)
        refine ⟨by omega, b, c, ?_⟩
        rcases d with d | d
        · right
          rw [d, Nat.add_sub_cancel]
          simpa using ht
        · exact Or.inr d
    · rw [if_neg h]
      exact ⟨le_refl _, by omega, Or.inl (by omega), Or.inl rfl⟩

end H2Pack.AFN
