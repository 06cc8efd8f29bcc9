import Verif.Proof.PCG1

/-! # Optimality and the loop -/

namespace H2Pack.PCG
open Matrix Finset Polynomial

variable {n : Nat} {A B : Matrix (Fin n) (Fin n) ℝ} {b x0 r0 : Fin n → ℝ}

theorem sol_eq (hA : A.PosDef) (b : Fin n → ℝ) : A *ᵥ (A⁻¹ *ᵥ b) = b := by
  rw [Matrix.mulVec_mulVec, Matrix.mul_nonsing_inv _ ((Matrix.isUnit_iff_isUnit_det _).1 hA.isUnit), Matrix.one_mulVec]

theorem cg_res (hr0 : r0 = b - A *ᵥ x0) (k : Nat) : (cg A B x0 r0 k).r = b - A *ᵥ (cg A B x0 r0 k).x := by
  induction k with
  | zero => exact hr0
  | succ k ih =>
    show (cg A B x0 r0 k).r - valpha A B (cg A B x0 r0 k) • (A *ᵥ (cg A B x0 r0 k).p) =
      b - A *ᵥ ((cg A B x0 r0 k).x + valpha A B (cg A B x0 r0 k) • (cg A B x0 r0 k).p)
    rw [ih, Matrix.mulVec_add, Matrix.mulVec_smul]
    abel

theorem cg_err (hA : A.PosDef) (hr0 : r0 = b - A *ᵥ x0) (k : Nat) : A *ᵥ (A⁻¹ *ᵥ b - (cg A B x0 r0 k).x) = (cg A B x0 r0 k).r := by
  rw [Matrix.mulVec_sub, sol_eq hA, cg_res hr0]

theorem cg_x_mem (k : Nat) : (cg A B x0 r0 k).x - x0 ∈ dirs A B x0 r0 k := by
  induction k with
  | zero =>
    have : (cg A B x0 r0 0).x - x0 = 0 := sub_self x0
    rw [this]; exact Submodule.zero_mem _
  | succ k ih =>
    have : (cg A B x0 r0 (k + 1)).x - x0 = ((cg A B x0 r0 k).x - x0) + valpha A B (cg A B x0 r0 k) • (cg A B x0 r0 k).p := by
      show (cg A B x0 r0 k).x + valpha A B (cg A B x0 r0 k) • (cg A B x0 r0 k).p - x0 = _
      abel
    rw [this]
    exact Submodule.add_mem _ (dirs_mono (Nat.le_succ k) ih) (Submodule.smul_mem _ _ (dirs_mem (j := k) (Nat.lt_succ_self k)))

theorem poly_mem (hA : A.PosDef) (hB : B.PosDef) (hr0 : r0 = b - A *ᵥ x0) (k : Nat) (hr : ∀ i < k, (cg A B x0 r0 i).r ≠ 0) {q : ℝ[X]} (hq : q.natDegree ≤ k) (hq0 : q.eval 0 = 1) :
    aeval (B * A) q *ᵥ (A⁻¹ *ᵥ b - x0) - (A⁻¹ *ᵥ b - x0) ∈ dirs A B x0 r0 k := by
  have hBA : (B * A) *ᵥ (A⁻¹ *ᵥ b - x0) = B *ᵥ r0 := by
    rw [← Matrix.mulVec_mulVec, Matrix.mulVec_sub, sol_eq hA, ← hr0]
  rw [aeval_eq_sum_range' (n := k + 1) (by omega), sum_range_succ', coeff_zero_eq_eval_zero, hq0, pow_zero, one_smul, Matrix.add_mulVec, Matrix.one_mulVec, add_sub_cancel_right, Matrix.sum_mulVec]
  refine Submodule.sum_mem _ fun i hi => ?_
  rw [mem_range] at hi
  rw [Matrix.smul_mulVec, pow_succ, ← Matrix.mulVec_mulVec, hBA]
  exact Submodule.smul_mem _ _ (dirs_mono (by omega) (dirs_krylov hA hB i fun t ht => hr t (by omega)))

/-- The error is smallest among all polynomial iterations. -/
theorem cg_opt (hA : A.PosDef) (hB : B.PosDef) (hr0 : r0 = b - A *ᵥ x0) (k : Nat) (hr : ∀ i < k, (cg A B x0 r0 i).r ≠ 0) {q : ℝ[X]} (hq : q.natDegree ≤ k) (hq0 : q.eval 0 = 1) :
    errA A b (cg A B x0 r0 k).x ≤ errA A b (polyIter A B b x0 q) := by
  have hy : aeval (B * A) q *ᵥ (A⁻¹ *ᵥ b - x0) - (A⁻¹ *ᵥ b - (cg A B x0 r0 k).x) ∈ dirs A B x0 r0 k := by
    have := Submodule.add_mem _ (poly_mem hA hB hr0 k hr hq hq0) (cg_x_mem (A := A) (B := B) (x0 := x0) (r0 := r0) k)
    have e : aeval (B * A) q *ᵥ (A⁻¹ *ᵥ b - x0) - (A⁻¹ *ᵥ b - (cg A B x0 r0 k).x) =
      aeval (B * A) q *ᵥ (A⁻¹ *ᵥ b - x0) - (A⁻¹ *ᵥ b - x0) + ((cg A B x0 r0 k).x - x0) := by abel
    rw [e]; exact this
  unfold errA polyIter
  rw [sub_sub_cancel]
  generalize hyd : aeval (B * A) q *ᵥ (A⁻¹ *ᵥ b - x0) - (A⁻¹ *ᵥ b - (cg A B x0 r0 k).x) = y at hy
  have e : aeval (B * A) q *ᵥ (A⁻¹ *ᵥ b - x0) = (A⁻¹ *ᵥ b - (cg A B x0 r0 k).x) + y := by rw [← hyd]; abel
  rw [e, Matrix.mulVec_add, dotProduct_add, add_dotProduct, add_dotProduct, bil_symm hA _ y, cg_err hA hr0, dotProduct_comm y, dirs_orth hA hB k hr hy]
  have : 0 ≤ y ⬝ᵥ (A *ᵥ y) := by simpa using hA.posSemidef.dotProduct_mulVec_nonneg y
  linarith

/-- The iteration is a polynomial iteration. -/
theorem cg_attained (hA : A.PosDef) (hr0 : r0 = b - A *ᵥ x0) (k : Nat) :
    ∃ q : ℝ[X], q.natDegree ≤ k ∧ q.eval 0 = 1 ∧ (cg A B x0 r0 k).x = polyIter A B b x0 q := by
  have main : ∀ k, (∃ q : ℝ[X], q.natDegree ≤ k ∧ q.eval 0 = 1 ∧ A⁻¹ *ᵥ b - (cg A B x0 r0 k).x = aeval (B * A) q *ᵥ (A⁻¹ *ᵥ b - x0)) ∧
      ∃ t : ℝ[X], t.natDegree ≤ k + 1 ∧ t.eval 0 = 0 ∧ (cg A B x0 r0 k).p = aeval (B * A) t *ᵥ (A⁻¹ *ᵥ b - x0) := by
    intro k
    have hz : ∀ (k : Nat) (q : ℝ[X]), A⁻¹ *ᵥ b - (cg A B x0 r0 k).x = aeval (B * A) q *ᵥ (A⁻¹ *ᵥ b - x0) → B *ᵥ (cg A B x0 r0 k).r = aeval (B * A) (X * q) *ᵥ (A⁻¹ *ᵥ b - x0) := by
      intro k q h
      rw [← cg_err hA hr0, h, aeval_mul, aeval_X, Matrix.mulVec_mulVec, Matrix.mulVec_mulVec, Matrix.mul_assoc]
    have hdeg : ∀ (k : Nat) (q : ℝ[X]), q.natDegree ≤ k → (X * q).natDegree ≤ k + 1 := by
      intro k q h
      have := natDegree_mul_le (p := (X : ℝ[X])) (q := q)
      have := natDegree_X_le (R := ℝ)
      omega
    induction k with
    | zero =>
      have h1 : A⁻¹ *ᵥ b - (cg A B x0 r0 0).x = aeval (B * A) (1 : ℝ[X]) *ᵥ (A⁻¹ *ᵥ b - x0) := by rw [map_one, Matrix.one_mulVec]; rfl
      exact ⟨⟨1, by simp, by simp, h1⟩, ⟨X * 1, hdeg 0 1 (by simp), by simp, hz 0 1 h1⟩⟩
    | succ k ih =>
      obtain ⟨⟨q, q1, q2, q3⟩, ⟨t, t1, t2, t3⟩⟩ := ih
      have h1 : A⁻¹ *ᵥ b - (cg A B x0 r0 (k + 1)).x = aeval (B * A) (q - C (valpha A B (cg A B x0 r0 k)) * t) *ᵥ (A⁻¹ *ᵥ b - x0) := by
        rw [map_sub, map_mul, aeval_C, Matrix.sub_mulVec, ← q3, ← Matrix.mulVec_mulVec, ← t3]
        show A⁻¹ *ᵥ b - ((cg A B x0 r0 k).x + valpha A B (cg A B x0 r0 k) • (cg A B x0 r0 k).p) = _
        rw [Algebra.algebraMap_eq_smul_one, Matrix.smul_mulVec, Matrix.one_mulVec]
        abel
      have hd : (q - C (valpha A B (cg A B x0 r0 k)) * t).natDegree ≤ k + 1 := by
        refine (natDegree_sub_le _ _).trans (max_le (by omega) ((natDegree_C_mul_le _ _).trans t1))
      refine ⟨⟨_, hd, by simp [q2, t2], h1⟩,
        ⟨X * (q - C (valpha A B (cg A B x0 r0 k)) * t) + C (vrho B (cg A B x0 r0 (k + 1)).r / vrho B (cg A B x0 r0 k).r) * t, ?_, by simp [t2], ?_⟩⟩
      · exact (natDegree_add_le _ _).trans (max_le (hdeg _ _ hd) ((natDegree_C_mul_le _ _).trans (by omega)))
      · rw [map_add, Matrix.add_mulVec, ← hz (k + 1) _ h1, map_mul, aeval_C, ← Matrix.mulVec_mulVec, ← t3, Algebra.algebraMap_eq_smul_one, Matrix.smul_mulVec, Matrix.one_mulVec]
        rfl
  obtain ⟨⟨q, q1, q2, q3⟩, -⟩ := main k
  exact ⟨q, q1, q2, by unfold polyIter; rw [← q3, sub_sub_cancel]⟩

/-! ## The loop -/

theorem norm2_eq (v : Fin n → ℝ) : norm2 v = Real.sqrt (v ⬝ᵥ v) := rfl

theorem norm2_zero {v : Fin n → ℝ} : norm2 v = 0 ↔ v = 0 := by
  rw [norm2_eq, Real.sqrt_eq_zero (show 0 ≤ v ⬝ᵥ v from sum_nonneg fun i _ => mul_self_nonneg _), dotProduct_self_eq_zero]

theorem norm2_nonneg (v : Fin n → ℝ) : 0 ≤ norm2 v := Real.sqrt_nonneg _

/-- The state after `k` iterations. -/
noncomputable def stOf (A B : Matrix (Fin n) (Fin n) ℝ) (x0 r0 p0 : Fin n → ℝ) (h0 : Nat → ℝ) (k : Nat) : St n :=
  ⟨k, (cg A B x0 r0 k).x, (cg A B x0 r0 k).r, if k = 0 then p0 else (cg A B x0 r0 (k - 1)).p, if k = 0 then 1 else vrho B (cg A B x0 r0 (k - 1)).r,
    norm2 (cg A B x0 r0 k).r, fun i => if i < k then norm2 (cg A B x0 r0 (i + 1)).r else h0 i⟩

theorem step_eq {a : Args n} (ho : Operators a A B) (hA : A.PosDef) (hB : B.PosDef) (p0 : Fin n → ℝ) (h0 : Nat → ℝ) (k : Nat)
    (hr : ∀ i ≤ k, (cg A B x0 r0 i).r ≠ 0) : step a (stOf A B x0 r0 p0 h0 k) = some (stOf A B x0 r0 p0 h0 (k + 1)) := by
  obtain ⟨h1, h2⟩ := cg_dir hA hB k hr
  have hz : applyM a (cg A B x0 r0 k).r = B *ᵥ (cg A B x0 r0 k).r := by
    unfold applyM
    have := ho.2
    cases hm : a.mx with
    | none => rw [hm] at this; rw [this, Matrix.one_mulVec]
    | some m => rw [hm] at this; exact this _
  have hrho0 : (stOf A B x0 r0 p0 h0 k).rho ≠ 0 := by
    show (if k = 0 then (1 : ℝ) else vrho B (cg A B x0 r0 (k - 1)).r) ≠ 0
    split
    · exact one_ne_zero
    · exact (bil_pos hB (hr (k - 1) (by omega))).ne'
  have hp : (if k = 0 then B *ᵥ (cg A B x0 r0 k).r else fun i => (B *ᵥ (cg A B x0 r0 k).r) i +
      vrho B (cg A B x0 r0 k).r / (stOf A B x0 r0 p0 h0 k).rho * (stOf A B x0 r0 p0 h0 k).p i) = (cg A B x0 r0 k).p := by
    cases k with
    | zero => rfl
    | succ k => rw [if_neg (by omega)]; rfl
  unfold step
  dsimp only
  rw [if_neg hrho0]
  have hz' : applyM a (stOf A B x0 r0 p0 h0 k).r = B *ᵥ (cg A B x0 r0 k).r := hz
  rw [hz']
  have hp' : (if (stOf A B x0 r0 p0 h0 k).iter = 0 then B *ᵥ (cg A B x0 r0 k).r else fun i => (B *ᵥ (cg A B x0 r0 k).r) i +
      (∑ i, (stOf A B x0 r0 p0 h0 k).r i * (B *ᵥ (cg A B x0 r0 k).r) i) / (stOf A B x0 r0 p0 h0 k).rho * (stOf A B x0 r0 p0 h0 k).p i) = (cg A B x0 r0 k).p := hp
  rw [hp', ho.1]
  rw [if_neg (show ¬ (∑ i, (cg A B x0 r0 k).p i * (A *ᵥ (cg A B x0 r0 k).p) i) = 0 from h2.ne')]
  unfold stOf
  rw [Option.some_inj, St.mk.injEq]
  refine ⟨rfl, rfl, rfl, rfl, rfl, rfl, ?_⟩
  funext i
  show Function.update (fun i => if i < k then norm2 (cg A B x0 r0 (i + 1)).r else h0 i) k (norm2 (cg A B x0 r0 (k + 1)).r) i =
    if i < k + 1 then norm2 (cg A B x0 r0 (i + 1)).r else h0 i
  rcases Nat.lt_trichotomy i k with h | h | h
  · rw [Function.update_of_ne (by omega), if_pos h, if_pos (by omega)]
  · subst h
    rw [Function.update_self, if_pos (by omega)]
  · rw [Function.update_of_ne (by omega), if_neg (by omega), if_neg (by omega)]

theorem loop_eq {a : Args n} (ho : Operators a A B) (hA : A.PosDef) (hB : B.PosDef) (htol : 0 ≤ a.tol) (p0 : Fin n → ℝ) (h0 : Nat → ℝ) (f : Nat) :
    ∀ k, k + f = a.maxIter → (∀ i < k, norm2 a.b * a.tol < norm2 (cg A B x0 r0 i).r) →
    ∃ k', loop a f (stOf A B x0 r0 p0 h0 k) = some (stOf A B x0 r0 p0 h0 k') ∧ k' ≤ a.maxIter ∧ (∀ i < k', norm2 a.b * a.tol < norm2 (cg A B x0 r0 i).r) ∧
      (k' = a.maxIter ∨ norm2 (cg A B x0 r0 k').r ≤ norm2 a.b * a.tol) := by
  induction f with
  | zero => exact fun k hk hr => ⟨k, rfl, by omega, hr, Or.inl (by omega)⟩
  | succ f ih =>
    intro k hk hr
    unfold loop
    by_cases hc : norm2 a.b * a.tol < norm2 (cg A B x0 r0 k).r
    · have hc' : (stOf A B x0 r0 p0 h0 k).iter < a.maxIter ∧ norm2 a.b * a.tol < (stOf A B x0 r0 p0 h0 k).rn := ⟨by show k < _; omega, hc⟩
      rw [if_pos hc']
      have hr' : ∀ i < k + 1, norm2 a.b * a.tol < norm2 (cg A B x0 r0 i).r := by
        intro i hi
        rcases Nat.lt_or_ge i k with h | h
        · exact hr i h
        · rwa [show i = k by omega]
      have hne : ∀ i ≤ k, (cg A B x0 r0 i).r ≠ 0 := by
        intro i hi h
        have := hr' i (by omega)
        rw [norm2_zero.2 h] at this
        exact absurd this (not_lt.2 (mul_nonneg (norm2_nonneg _) htol))
      rw [step_eq ho hA hB p0 h0 k hne]
      exact ih (k + 1) (by omega) hr'
    · have hc' : ¬ ((stOf A B x0 r0 p0 h0 k).iter < a.maxIter ∧ norm2 a.b * a.tol < (stOf A B x0 r0 p0 h0 k).rn) := fun h => hc h.2
      rw [if_neg hc']
      exact ⟨k, rfl, by omega, hr, Or.inr (not_lt.1 hc)⟩

end H2Pack.PCG
