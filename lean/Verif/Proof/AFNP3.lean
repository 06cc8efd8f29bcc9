import Verif.Spec.AFNPrecond
import Verif.Proof.Lapack2
import Mathlib.Data.Fin.Tuple.Sort
import Mathlib.Analysis.Matrix.Spectrum
import Mathlib.LinearAlgebra.Matrix.PosDef
import Mathlib.Tactic.FieldSimp

/-! # Functions of the Nyström approximation -/

namespace H2Pack.AFN
open Finset Matrix

/-- A library with the sorted eigenvalues exists. -/
theorem ascending_exists : ∃ Lq : H2Pack.SPD.Lapack2, Lq.Correct ∧ Ascending Lq := by
  obtain ⟨Lq, h⟩ := H2Pack.SPD.lapack2_exists
  let σ : ∀ (n : Nat) (a : Nat → Nat → ℝ), Equiv.Perm (Fin n) := fun n a => Tuple.sort fun k : Fin n => (Lq.syevd n a).2.2 k
  have hσ : ∀ n a, Monotone ((fun k : Fin n => (Lq.syevd n a).2.2 k) ∘ σ n a) := fun n a => Tuple.monotone_sort _
  let Lq' : H2Pack.SPD.Lapack2 := { Lq with
    syevd := fun n a => (0, fun i k => if h : k < n then (Lq.syevd n a).2.1 i (σ n a ⟨k, h⟩) else 0, fun k => if h : k < n then (Lq.syevd n a).2.2 (σ n a ⟨k, h⟩) else 0) }
  refine ⟨Lq', ⟨fun _ _ => rfl, ?_, ?_, h.orth, h.qr⟩, ?_⟩
  · intro n a i hi j hj
    show ∑ t ∈ range n, (if h : i < n then (Lq.syevd n a).2.1 t (σ n a ⟨i, h⟩) else 0) * (if h : j < n then (Lq.syevd n a).2.1 t (σ n a ⟨j, h⟩) else 0) = _
    simp only [dif_pos hi, dif_pos hj]
    rw [h.evOrth n a _ (Fin.is_lt _) _ (Fin.is_lt _)]
    by_cases hij : i = j
    · subst hij; simp
    · rw [if_neg hij, if_neg]
      intro e
      exact hij (by simpa using (σ n a).injective (Fin.ext e))
  · intro n a j hj i hi
    rw [← h.ev n a j hj i hi, sum_range, sum_range]
    conv_rhs => rw [← Equiv.sum_comp (σ n a)]
    refine sum_congr rfl fun k _ => ?_
    show (if h : (k : Nat) < n then (Lq.syevd n a).2.1 i (σ n a ⟨k, h⟩) else 0) * (if h : (k : Nat) < n then (Lq.syevd n a).2.2 (σ n a ⟨k, h⟩) else 0) *
      (if h : (k : Nat) < n then (Lq.syevd n a).2.1 j (σ n a ⟨k, h⟩) else 0) = _
    simp only [dif_pos k.2]
  · intro n a i j hij hj
    show (if h : i < n then (Lq.syevd n a).2.2 (σ n a ⟨i, h⟩) else 0) ≤ (if h : j < n then (Lq.syevd n a).2.2 (σ n a ⟨j, h⟩) else 0)
    rw [dif_pos hj, dif_pos (by omega)]
    exact hσ n a (show (⟨i, by omega⟩ : Fin n) ≤ ⟨j, hj⟩ from hij)

section
variable {n : Nat} {A B : Matrix (Fin n) (Fin n) ℝ} {h : ℝ → ℝ}

/-- A function of a symmetric matrix in the eigenvector basis. -/
theorem FunOf.eq (hA : A.IsHermitian) (hB : FunOf h A B) :
    B = (hA.eigenvectorUnitary).1 * diagonal (fun i => h (hA.eigenvalues i)) * (hA.eigenvectorUnitary).1ᵀ := by
  set Q : Matrix (Fin n) (Fin n) ℝ := (hA.eigenvectorUnitary).1 with hQ
  have hQQ : Q * Qᵀ = 1 := by
    have := (Matrix.mem_unitaryGroup_iff (A := Q)).1 hA.eigenvectorUnitary.2
    rwa [Matrix.star_eq_conjTranspose, Matrix.conjTranspose_eq_transpose_of_trivial] at this
  have hBQ : B * Q = Q * diagonal (fun i => h (hA.eigenvalues i)) := by
    ext i j
    have e1 := hB (hA.eigenvalues j) (fun i => Q i j) (by
      have := hA.mulVec_eigenvectorBasis j
      exact this)
    have := congrFun e1 i
    rw [Matrix.mul_diagonal]
    rw [mul_comm]
    exact this
  calc B = B * (Q * Qᵀ) := by rw [hQQ, Matrix.mul_one]
    _ = _ := by rw [← Matrix.mul_assoc, hBQ]

/-- A function of a symmetric matrix is determined. -/
theorem FunOf.unique {B' : Matrix (Fin n) (Fin n) ℝ} (hA : A.IsHermitian) (hB : FunOf h A B) (hB' : FunOf h A B') : B = B' := by
  rw [hB.eq hA, hB'.eq hA]

theorem FunOf.posDef (hA : A.IsHermitian) (hB : FunOf h A B) (hp : ∀ w v, v ≠ 0 → A *ᵥ v = w • v → 0 < h w) : B.PosDef := by
  rw [hB.eq hA]
  set Q : Matrix (Fin n) (Fin n) ℝ := (hA.eigenvectorUnitary).1 with hQ
  have hQQ : Qᵀ * Q = 1 := by
    have := (Matrix.mem_unitaryGroup_iff' (A := Q)).1 hA.eigenvectorUnitary.2
    rwa [Matrix.star_eq_conjTranspose, Matrix.conjTranspose_eq_transpose_of_trivial] at this
  have hd : (diagonal (fun i => h (hA.eigenvalues i))).PosDef := Matrix.PosDef.diagonal fun i => by
    refine hp _ (fun t => Q t i) ?_ (hA.mulVec_eigenvectorBasis i)
    intro h0
    have := congrFun (congrFun hQQ i) i
    rw [Matrix.mul_apply, Matrix.one_apply_eq] at this
    rw [sum_eq_zero] at this
    · exact zero_ne_one this
    · intro t _
      have h1 : Q t i = 0 := congrFun h0 t
      rw [h1, mul_zero]
  have := hd.mul_mul_conjTranspose_same (B := Q) (by
    intro x y hxy
    have hu : Q * Qᵀ = 1 := mul_eq_one_comm.1 hQQ
    have : x ᵥ* (Q * Qᵀ) = y ᵥ* (Q * Qᵀ) := by
      rw [← Matrix.vecMul_vecMul, ← Matrix.vecMul_vecMul]
      exact congrArg (fun z => z ᵥ* Qᵀ) hxy
    rwa [hu, Matrix.vecMul_one, Matrix.vecMul_one] at this)
  rwa [Matrix.conjTranspose_eq_transpose_of_trivial] at this

end

/-- The construction through the small eigenvalue problem. -/
theorem small_eig {m n : Nat} {M : Matrix (Fin n) (Fin m) ℝ} {V : Matrix (Fin m) (Fin m) ℝ} {w d : Fin m → ℝ} (hV : Vᵀ * V = 1)
    (hM : Mᵀ * M = V * diagonal w * Vᵀ) (keep : ℝ → Prop) [DecidablePred keep] (h0 : ∀ x, keep x → 0 < x)
    (hd : ∀ j, d j = if keep (w j) then 1 / Real.sqrt (w j) else 0) (f : ℝ → ℝ) :
    FunOf (fun x => if keep x then f x else 1) (M * Mᵀ) (1 - M * V * diagonal d * (M * V * diagonal d)ᵀ + M * V * diagonal d * diagonal (fun j => f (w j)) * (M * V * diagonal d)ᵀ) := by
  intro x v hv
  have hVV : V * Vᵀ = 1 := mul_eq_one_comm.1 hV
  set y : Fin m → ℝ := Vᵀ *ᵥ (Mᵀ *ᵥ v) with hy
  have hwy : ∀ j, w j * y j = x * y j := by
    intro j
    have e1 : diagonal w *ᵥ y = x • y := by
      have e2 : diagonal w = Vᵀ * (Mᵀ * M) * V := by
        rw [hM]
        calc diagonal w = (Vᵀ * V) * diagonal w * (Vᵀ * V) := by rw [hV, Matrix.one_mul, Matrix.mul_one]
          _ = _ := by simp only [Matrix.mul_assoc]
      have e3 : diagonal w *ᵥ y = Vᵀ *ᵥ (Mᵀ *ᵥ ((M * Mᵀ) *ᵥ v)) := by
        rw [e2, hy]
        simp only [Matrix.mulVec_mulVec]
        congr 1
        calc Vᵀ * (Mᵀ * M) * V * (Vᵀ * Mᵀ) = Vᵀ * (Mᵀ * M) * (V * Vᵀ) * Mᵀ := by simp only [Matrix.mul_assoc]
          _ = _ := by rw [hVV]; simp only [Matrix.mul_assoc, Matrix.one_mul]
      rw [e3, hv, Matrix.mulVec_smul, Matrix.mulVec_smul]
    have := congrFun e1 j
    rw [Matrix.mulVec_diagonal] at this
    exact this
  have hUt : (M * V * diagonal d)ᵀ *ᵥ v = fun j => d j * y j := by
    rw [Matrix.transpose_mul, Matrix.transpose_mul, diagonal_transpose, ← Matrix.mulVec_mulVec, ← Matrix.mulVec_mulVec]
    funext j
    rw [Matrix.mulVec_diagonal]
  have hB : (1 - M * V * diagonal d * (M * V * diagonal d)ᵀ + M * V * diagonal d * diagonal (fun j => f (w j)) * (M * V * diagonal d)ᵀ) *ᵥ v =
      v + (M * V) *ᵥ (fun j => d j * (f (w j) - 1) * (d j * y j)) := by
    rw [Matrix.add_mulVec, Matrix.sub_mulVec, Matrix.one_mulVec, ← Matrix.mulVec_mulVec _ (M * V * diagonal d), ← Matrix.mulVec_mulVec _ (M * V * diagonal d * diagonal _), hUt]
    rw [← Matrix.mulVec_mulVec _ (M * V), ← Matrix.mulVec_mulVec _ (M * V * diagonal d), ← Matrix.mulVec_mulVec _ (M * V)]
    have : (fun j => d j * (f (w j) - 1) * (d j * y j)) = diagonal d *ᵥ (diagonal (fun j => f (w j)) *ᵥ fun j => d j * y j) - diagonal d *ᵥ fun j => d j * y j := by
      funext j
      rw [Pi.sub_apply, Matrix.mulVec_diagonal, Matrix.mulVec_diagonal, Matrix.mulVec_diagonal]
      ring
    rw [this, Matrix.mulVec_sub]
    abel
  rw [hB]
  have hg : (fun j => d j * (f (w j) - 1) * (d j * y j)) = (if keep x then (f x - 1) / x else 0) • y := by
    funext j
    rw [Pi.smul_apply, smul_eq_mul]
    by_cases hyj : y j = 0
    · rw [hyj]; ring
    · have hwx : w j = x := mul_right_cancel₀ hyj (hwy j)
      rw [hd j, hwx]
      by_cases hk : keep x
      · rw [if_pos hk, if_pos hk]
        have hx := h0 x hk
        have hs : Real.sqrt x * Real.sqrt x = x := Real.mul_self_sqrt hx.le
        have hs0 : Real.sqrt x ≠ 0 := (Real.sqrt_pos.2 hx).ne'
        field_simp
        rw [pow_two, hs]
        ring
      · rw [if_neg hk, if_neg hk]; ring
  rw [hg, Matrix.mulVec_smul]
  have hMVy : (M * V) *ᵥ y = x • v := by
    rw [hy, ← hv]
    simp only [Matrix.mulVec_mulVec]
    congr 1
    calc M * V * (Vᵀ * Mᵀ) = M * (V * Vᵀ) * Mᵀ := by simp only [Matrix.mul_assoc]
      _ = _ := by rw [hVV, Matrix.mul_one]
  rw [hMVy]
  by_cases hk : keep x
  · simp only [if_pos hk]
    have hx := (h0 x hk).ne'
    rw [smul_smul, div_mul_cancel₀ _ hx, sub_smul, one_smul]
    abel
  · simp only [if_neg hk]
    rw [zero_smul, add_zero, one_smul]

/-- The eigenvalues of the small problem. -/
theorem small_eig_iff {m : Nat} {A V : Matrix (Fin m) (Fin m) ℝ} {w : Fin m → ℝ} (hV : Vᵀ * V = 1) (hA : A = V * diagonal w * Vᵀ) (x : ℝ) :
    (∃ y : Fin m → ℝ, y ≠ 0 ∧ A *ᵥ y = x • y) ↔ ∃ j, w j = x := by
  have hVV : V * Vᵀ = 1 := mul_eq_one_comm.1 hV
  constructor
  · rintro ⟨y, hy, he⟩
    have hne : Vᵀ *ᵥ y ≠ 0 := by
      intro h
      apply hy
      have : V *ᵥ (Vᵀ *ᵥ y) = 0 := by rw [h, Matrix.mulVec_zero]
      rwa [Matrix.mulVec_mulVec, hVV, Matrix.one_mulVec] at this
    obtain ⟨j, hj⟩ := Function.ne_iff.1 hne
    refine ⟨j, ?_⟩
    have e : diagonal w *ᵥ (Vᵀ *ᵥ y) = x • (Vᵀ *ᵥ y) := by
      rw [← Matrix.mulVec_smul, ← he, hA]
      simp only [Matrix.mulVec_mulVec]
      congr 1
      rw [← Matrix.mul_assoc, ← Matrix.mul_assoc, hV, Matrix.one_mul]
    have := congrFun e j
    rw [Matrix.mulVec_diagonal] at this
    exact mul_right_cancel₀ hj this
  · rintro ⟨j, hj⟩
    refine ⟨fun i => V i j, ?_, ?_⟩
    · intro h
      have := congrFun (congrFun hV j) j
      rw [Matrix.mul_apply, Matrix.one_apply_eq, sum_eq_zero] at this
      · exact zero_ne_one this
      · intro t _
        have h1 : V t j = 0 := congrFun h t
        rw [h1, mul_zero]
    · have hAV : A * V = V * diagonal w := by rw [hA, Matrix.mul_assoc, hV, Matrix.mul_one]
      funext i
      have := congrFun (congrFun hAV i) j
      rw [Matrix.mul_diagonal, hj, mul_comm] at this
      exact this

end H2Pack.AFN
