import Verif.Spec.PCG
import Mathlib.Tactic.Linarith
import Mathlib.Tactic.FieldSimp
import Mathlib.Tactic.Ring
import Mathlib.Tactic.Positivity

/-! # Conjugate directions -/

namespace H2Pack.PCG
open Matrix Finset

variable {n : Nat}

/-- The vectors of the method with the operators `A` and `B`. -/
structure Vecs (n : Nat) where
  x : Fin n → ℝ
  r : Fin n → ℝ
  p : Fin n → ℝ

section
variable (A B : Matrix (Fin n) (Fin n) ℝ)

noncomputable def vrho (r : Fin n → ℝ) : ℝ := r ⬝ᵥ (B *ᵥ r)

noncomputable def valpha (v : Vecs n) : ℝ := vrho B v.r / (v.p ⬝ᵥ (A *ᵥ v.p))

/-- The iteration without the tests; `p` is the direction of the next step. -/
noncomputable def next (v : Vecs n) : Vecs n :=
  let r' := v.r - valpha A B v • (A *ᵥ v.p)
  ⟨v.x + valpha A B v • v.p, r', B *ᵥ r' + (vrho B r' / vrho B v.r) • v.p⟩

noncomputable def cg (x0 r0 : Fin n → ℝ) : Nat → Vecs n
  | 0 => ⟨x0, r0, B *ᵥ r0⟩
  | k + 1 => next A B (cg x0 r0 k)

end

variable {A B : Matrix (Fin n) (Fin n) ℝ} {x0 r0 : Fin n → ℝ}

theorem bil_symm (hA : A.PosDef) (u v : Fin n → ℝ) : u ⬝ᵥ (A *ᵥ v) = v ⬝ᵥ (A *ᵥ u) := by
  have hs : Aᵀ = A := by have := hA.isHermitian; rwa [Matrix.IsHermitian, Matrix.conjTranspose_eq_transpose_of_trivial] at this
  rw [Matrix.dotProduct_mulVec, dotProduct_comm, ← Matrix.mulVec_transpose, hs]

theorem bil_pos (hA : A.PosDef) {u : Fin n → ℝ} (hu : u ≠ 0) : 0 < u ⬝ᵥ (A *ᵥ u) := by
  simpa using hA.dotProduct_mulVec_pos hu

theorem cg_orth (hA : A.PosDef) (hB : B.PosDef) (k : Nat) (hr : ∀ i < k, (cg A B x0 r0 i).r ≠ 0) :
    (∀ j < k, (cg A B x0 r0 k).r ⬝ᵥ (cg A B x0 r0 j).p = 0) ∧
    ((cg A B x0 r0 k).r ⬝ᵥ (cg A B x0 r0 k).p = vrho B (cg A B x0 r0 k).r) ∧
    (∀ j < k, (cg A B x0 r0 k).p ⬝ᵥ (A *ᵥ (cg A B x0 r0 j).p) = 0) := by
  induction k using Nat.strong_induction_on with
  | _ k ih =>
  cases k with
  | zero => exact ⟨fun j hj => absurd hj (by omega), rfl, fun j hj => absurd hj (by omega)⟩
  | succ k =>
    have ihj : ∀ j ≤ k, _ := fun j hj => ih j (by omega) (fun i hi => hr i (by omega))
    have hrho : ∀ j ≤ k, 0 < vrho B (cg A B x0 r0 j).r := fun j hj => bil_pos hB (hr j (by omega))
    have hp0 : ∀ j ≤ k, (cg A B x0 r0 j).p ≠ 0 := by
      intro j hj h0
      have := (ihj j hj).2.1
      rw [h0, dotProduct_zero] at this
      have := hrho j hj
      linarith
    have hpp : ∀ j ≤ k, 0 < (cg A B x0 r0 j).p ⬝ᵥ (A *ᵥ (cg A B x0 r0 j).p) := fun j hj => bil_pos hA (hp0 j hj)
    have hR : ∀ j, (cg A B x0 r0 (j + 1)).r = (cg A B x0 r0 j).r - valpha A B (cg A B x0 r0 j) • (A *ᵥ (cg A B x0 r0 j).p) := fun j => rfl
    have hP : ∀ j, (cg A B x0 r0 (j + 1)).p = B *ᵥ (cg A B x0 r0 (j + 1)).r + (vrho B (cg A B x0 r0 (j + 1)).r / vrho B (cg A B x0 r0 j).r) • (cg A B x0 r0 j).p := fun j => rfl
    -- the new residual
    have c1 : ∀ j < k + 1, (cg A B x0 r0 (k + 1)).r ⬝ᵥ (cg A B x0 r0 j).p = 0 := by
      intro j hj
      rw [hR, sub_dotProduct, smul_dotProduct, smul_eq_mul, dotProduct_comm (A *ᵥ _), bil_symm hA]
      rcases Nat.lt_or_ge j k with h | h
      · rw [(ihj k le_rfl).1 j h, (ihj k le_rfl).2.2 j h]; ring
      · have : j = k := by omega
        subst this
        rw [(ihj j le_rfl).2.1]
        unfold valpha
        rw [div_mul_cancel₀ _ (hpp j le_rfl).ne']; ring
    have c2 : ∀ j < k + 1, (cg A B x0 r0 (k + 1)).r ⬝ᵥ (B *ᵥ (cg A B x0 r0 j).r) = 0 := by
      intro j hj
      cases j with
      | zero => exact c1 0 hj
      | succ j =>
        have : B *ᵥ (cg A B x0 r0 (j + 1)).r = (cg A B x0 r0 (j + 1)).p - (vrho B (cg A B x0 r0 (j + 1)).r / vrho B (cg A B x0 r0 j).r) • (cg A B x0 r0 j).p := by
          rw [hP j, add_sub_cancel_right]
        rw [this, dotProduct_sub, dotProduct_smul, c1 (j + 1) hj, c1 j (by omega)]; simp
    refine ⟨c1, ?_, ?_⟩
    · rw [hP k, dotProduct_add, dotProduct_smul, c1 k (by omega), smul_zero, add_zero]; rfl
    · intro j hj
      have halpha : valpha A B (cg A B x0 r0 j) ≠ 0 := (div_pos (hrho j (by omega)) (hpp j (by omega))).ne'
      have hAp : A *ᵥ (cg A B x0 r0 j).p = (valpha A B (cg A B x0 r0 j))⁻¹ • ((cg A B x0 r0 j).r - (cg A B x0 r0 (j + 1)).r) := by
        rw [hR j, sub_sub_cancel, smul_smul, inv_mul_cancel₀ halpha, one_smul]
      have hz : ∀ i, (B *ᵥ (cg A B x0 r0 (k + 1)).r) ⬝ᵥ (cg A B x0 r0 i).r = (cg A B x0 r0 (k + 1)).r ⬝ᵥ (B *ᵥ (cg A B x0 r0 i).r) := by
        intro i; rw [dotProduct_comm, bil_symm hB]
      conv_lhs => rw [hP k, add_dotProduct, smul_dotProduct, smul_eq_mul]
      rcases Nat.lt_or_ge j k with h | h
      · rw [(ihj k le_rfl).2.2 j h, mul_zero, add_zero, hAp, dotProduct_smul, dotProduct_sub, hz, hz, c2 j (by omega), c2 (j + 1) (by omega)]; simp
      · have : j = k := by omega
        subst this
        have e1 : (B *ᵥ (cg A B x0 r0 (j + 1)).r) ⬝ᵥ (A *ᵥ (cg A B x0 r0 j).p) = - (vrho B (cg A B x0 r0 (j + 1)).r) / valpha A B (cg A B x0 r0 j) := by
          rw [hAp, dotProduct_smul, dotProduct_sub, hz, hz, c2 j (by omega), smul_eq_mul]
          unfold vrho
          ring
        rw [e1]
        unfold valpha
        have h1 := (hrho j le_rfl).ne'
        have h2 := (hpp j le_rfl).ne'
        field_simp
        ring

/-- The direction of a step with a nonzero residual. -/
theorem cg_dir (hA : A.PosDef) (hB : B.PosDef) (k : Nat) (hr : ∀ i ≤ k, (cg A B x0 r0 i).r ≠ 0) :
    0 < vrho B (cg A B x0 r0 k).r ∧ 0 < (cg A B x0 r0 k).p ⬝ᵥ (A *ᵥ (cg A B x0 r0 k).p) := by
  have h1 : 0 < vrho B (cg A B x0 r0 k).r := bil_pos hB (hr k le_rfl)
  refine ⟨h1, bil_pos hA fun h0 => ?_⟩
  have := (cg_orth hA hB k fun i hi => hr i (by omega)).2.1
  rw [h0, dotProduct_zero] at this
  linarith

/-- The span of the directions. -/
def dirs (A B : Matrix (Fin n) (Fin n) ℝ) (x0 r0 : Fin n → ℝ) (k : Nat) : Submodule ℝ (Fin n → ℝ) := Submodule.span ℝ {v | ∃ j < k, v = (cg A B x0 r0 j).p}

theorem dirs_mono {k l : Nat} (h : k ≤ l) : dirs A B x0 r0 k ≤ dirs A B x0 r0 l :=
  Submodule.span_mono fun _ ⟨j, hj, e⟩ => ⟨j, by omega, e⟩

theorem dirs_mem {k j : Nat} (h : j < k) : (cg A B x0 r0 j).p ∈ dirs A B x0 r0 k := Submodule.subset_span ⟨j, h, rfl⟩

theorem dirs_orth (hA : A.PosDef) (hB : B.PosDef) (k : Nat) (hr : ∀ i < k, (cg A B x0 r0 i).r ≠ 0) {v : Fin n → ℝ} (hv : v ∈ dirs A B x0 r0 k) :
    (cg A B x0 r0 k).r ⬝ᵥ v = 0 := by
  induction hv using Submodule.span_induction with
  | mem v h => obtain ⟨j, hj, rfl⟩ := h; exact (cg_orth hA hB k hr).1 j hj
  | zero => exact dotProduct_zero _
  | add u v _ _ hu hv => rw [dotProduct_add, hu, hv, add_zero]
  | smul c v _ hv => rw [dotProduct_smul, hv, smul_zero]

theorem dirs_z (j : Nat) : B *ᵥ (cg A B x0 r0 j).r ∈ dirs A B x0 r0 (j + 1) := by
  cases j with
  | zero =>
    have h := dirs_mem (A := A) (B := B) (x0 := x0) (r0 := r0) (show 0 < 0 + 1 by omega)
    exact h
  | succ j =>
    have : B *ᵥ (cg A B x0 r0 (j + 1)).r = (cg A B x0 r0 (j + 1)).p - (vrho B (cg A B x0 r0 (j + 1)).r / vrho B (cg A B x0 r0 j).r) • (cg A B x0 r0 j).p := by
      rw [show (cg A B x0 r0 (j + 1)).p = B *ᵥ (cg A B x0 r0 (j + 1)).r + (vrho B (cg A B x0 r0 (j + 1)).r / vrho B (cg A B x0 r0 j).r) • (cg A B x0 r0 j).p from rfl, add_sub_cancel_right]
    rw [this]
    exact Submodule.sub_mem _ (dirs_mem (j := j + 1) (by omega)) (Submodule.smul_mem _ _ (dirs_mem (j := j) (by omega)))

theorem dirs_krylov (hA : A.PosDef) (hB : B.PosDef) : ∀ i, (∀ t < i, (cg A B x0 r0 t).r ≠ 0) → (B * A) ^ i *ᵥ (B *ᵥ r0) ∈ dirs A B x0 r0 (i + 1)
  | 0, _ => by rw [pow_zero, Matrix.one_mulVec]; exact dirs_z 0
  | i + 1, hr => by
    have ih := dirs_krylov hA hB i fun t ht => hr t (by omega)
    have key : ∀ v ∈ dirs A B x0 r0 (i + 1), (B * A) *ᵥ v ∈ dirs A B x0 r0 (i + 2) := by
      intro v hv
      induction hv using Submodule.span_induction with
      | mem v h =>
        obtain ⟨j, hj, rfl⟩ := h
        obtain ⟨h1, h2⟩ := cg_dir (x0 := x0) (r0 := r0) hA hB j fun t ht => hr t (by omega)
        have halpha : valpha A B (cg A B x0 r0 j) ≠ 0 := (div_pos h1 h2).ne'
        have : (B * A) *ᵥ (cg A B x0 r0 j).p = (valpha A B (cg A B x0 r0 j))⁻¹ • (B *ᵥ (cg A B x0 r0 j).r - B *ᵥ (cg A B x0 r0 (j + 1)).r) := by
          rw [show (cg A B x0 r0 (j + 1)).r = (cg A B x0 r0 j).r - valpha A B (cg A B x0 r0 j) • (A *ᵥ (cg A B x0 r0 j).p) from rfl,
            ← Matrix.mulVec_sub, sub_sub_cancel, Matrix.mulVec_smul, smul_smul, inv_mul_cancel₀ halpha, one_smul, Matrix.mulVec_mulVec]
        rw [this]
        exact Submodule.smul_mem _ _ (Submodule.sub_mem _ (dirs_mono (by omega) (dirs_z j)) (dirs_mono (by omega) (dirs_z (j + 1))))
      | zero => rw [Matrix.mulVec_zero]; exact Submodule.zero_mem _
      | add u v _ _ hu hv => rw [Matrix.mulVec_add]; exact Submodule.add_mem _ hu hv
      | smul c v _ hv => rw [Matrix.mulVec_smul]; exact Submodule.smul_mem _ _ hv
    rw [pow_succ', ← Matrix.mulVec_mulVec]
    exact key _ ih

end H2Pack.PCG
