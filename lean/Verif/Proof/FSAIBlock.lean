import Verif.Model.FSAIBlock
import Verif.Proof.FSAI4
import Verif.Proof.AFNP2
import Verif.Props.CSRPlus
import Mathlib.LinearAlgebra.Matrix.PosDef

/-! # One block row of the block FSAI matrix -/

namespace H2Pack.FSB
open H2Pack.ULV H2Pack.AFN Finset Matrix

/-- The algebra of one block row. -/
theorem block_core {a kd : Nat} {A : Matrix (Fin a) (Fin a) ℝ} (hA : A.PosDef) {last : Fin kd → Fin a} (hl : Function.Injective last)
    {U : Matrix (Fin a) (Fin kd) ℝ} (hU : A * U = Matrix.of fun p j => if p = last j then 1 else 0) :
    (U.submatrix last id).PosDef ∧ ∀ (L : Matrix (Fin kd) (Fin kd) ℝ) (Y : Matrix (Fin kd) (Fin a) ℝ), L * Lᵀ = U.submatrix last id → L * Y = Uᵀ →
      (∀ j q, q ∉ Set.range last → (Y * A) j q = 0) ∧ Y * A * Yᵀ = 1 := by
  generalize hE : (Matrix.of fun p j => if p = last j then (1 : ℝ) else 0 : Matrix (Fin a) (Fin kd) ℝ) = E at hU
  have hAT : Aᵀ = A := by have := hA.isHermitian; rwa [Matrix.IsHermitian, Matrix.conjTranspose_eq_transpose_of_trivial] at this
  have hdet : IsUnit A.det := (Matrix.isUnit_iff_isUnit_det _).1 hA.isUnit
  have hUE : U = A⁻¹ * E := by rw [← hU, ← Matrix.mul_assoc, Matrix.nonsing_inv_mul _ hdet, Matrix.one_mul]
  have hD : U.submatrix last id = (A⁻¹).submatrix last last := by
    ext j k
    rw [Matrix.submatrix_apply, Matrix.submatrix_apply, hUE, Matrix.mul_apply, sum_eq_single (last k)]
    · rw [← hE]; simp
    · intro b _ hb; rw [← hE, Matrix.of_apply, id, if_neg hb, mul_zero]
    · intro h; exact absurd (mem_univ _) h
  have hET : Eᵀ * U = U.submatrix last id := by
    ext j k
    rw [Matrix.mul_apply, sum_eq_single (last j)]
    · rw [← hE, Matrix.transpose_apply, Matrix.of_apply, if_pos rfl, one_mul]; rfl
    · intro b _ hb; rw [← hE, Matrix.transpose_apply, Matrix.of_apply, if_neg hb, zero_mul]
    · intro h; exact absurd (mem_univ _) h
  have hpd : (U.submatrix last id).PosDef := by rw [hD]; exact hA.inv.submatrix hl
  refine ⟨hpd, fun L Y hL hY => ?_⟩
  have hLd : IsUnit L.det := by
    have h := (Matrix.isUnit_iff_isUnit_det _).1 hpd.isUnit
    rw [← hL, Matrix.det_mul] at h
    exact isUnit_of_mul_isUnit_left h
  have hLT : IsUnit (Lᵀ).det := by rwa [Matrix.det_transpose]
  have e1 : L * (Y * A) = Eᵀ := by
    rw [← Matrix.mul_assoc, hY, ← hU, Matrix.transpose_mul, hAT]
  have e1' : Y * A = L⁻¹ * Eᵀ := by rw [← e1, ← Matrix.mul_assoc, Matrix.nonsing_inv_mul _ hLd, Matrix.one_mul]
  refine ⟨fun j q hq => ?_, ?_⟩
  · rw [e1', Matrix.mul_apply]
    refine sum_eq_zero fun t _ => ?_
    rw [← hE, Matrix.transpose_apply, Matrix.of_apply, if_neg (fun h => hq ⟨t, h.symm⟩), mul_zero]
  · have e2 : L * (Y * A * Yᵀ) * Lᵀ = L * Lᵀ := by
      rw [hL, ← hET, ← Matrix.mul_assoc, ← Matrix.mul_assoc, Matrix.mul_assoc L, e1, Matrix.mul_assoc, ← Matrix.transpose_mul, hY, Matrix.transpose_transpose]
    have e3 := congrArg (fun M => L⁻¹ * M * (Lᵀ)⁻¹) e2
    rw [Matrix.mul_assoc L, ← Matrix.mul_assoc L⁻¹, Matrix.nonsing_inv_mul _ hLd, Matrix.one_mul, Matrix.mul_nonsing_inv_cancel_right _ _ hLT] at e3
    rw [e3, ← Matrix.mul_assoc, Matrix.nonsing_inv_mul _ hLd, Matrix.one_mul, Matrix.mul_nonsing_inv _ hLT]

/-- GETRF followed by GETRS in exact arithmetic: a nonsingular system is solved. -/
def Solves (solve : Nat → (Nat → Nat → ℝ) → Nat → (Nat → Nat → ℝ) → Nat → Nat → ℝ) : Prop :=
  ∀ d A m B, (Matrix.of fun p q : Fin d => A p q).det ≠ 0 → ∀ p < d, ∀ j < m, ∑ q ∈ range d, A p q * solve d A m B q j = B p j

variable {F : In} {N : List Nat}

/-- `tmpU` solves the system. -/
theorem tmpU_solves (hs : Solves F.solve)
    (hA : (Matrix.of fun p q : Fin (N.length * F.kd) => tmpA F N p q).PosDef) :
    ∀ p < N.length * F.kd, ∀ j < F.kd, ∑ q ∈ range (N.length * F.kd), tmpA F N p q * tmpU F N q j = unitCols F.kd N.length p j := by
  intro p hp j hj
  unfold tmpU
  by_cases h1 : N.length * F.kd = 1
  · rw [if_pos h1]
    have h00 : 0 < tmpA F N 0 0 := by
      have := hA.diag_pos (i := ⟨0, by omega⟩)
      simpa using this
    rw [h1, Finset.sum_range_one]
    obtain rfl : p = 0 := by omega
    exact mul_div_cancel₀ _ h00.ne'
  · rw [if_neg h1]
    exact hs _ _ _ _ ((Matrix.isUnit_iff_isUnit_det _).1 hA.isUnit).ne_zero p hp j hj

/-- The rows of `tmpY`: zero on the neighbours, and orthonormal. -/
theorem tmpY_spec (hL : F.lp.Correct) (hD : F.lp.Definite) (hs : Solves F.solve) (hkd : 0 < F.kd) (hN : 0 < N.length)
    (hA : (Matrix.of fun p q : Fin (N.length * F.kd) => tmpA F N p q).PosDef) :
    ∃ Y, tmpY F N = some Y ∧
      (∀ j < F.kd, ∀ q < F.kd * (N.length - 1), ∑ k ∈ range (N.length * F.kd), Y j k * tmpA F N k q = 0) ∧
      ∀ j < F.kd, ∀ j' < F.kd, ∑ q ∈ range (N.length * F.kd), (∑ k ∈ range (N.length * F.kd), Y j k * tmpA F N k q) * Y j' q = if j = j' then 1 else 0 := by
  have hU := tmpU_solves hs hA
  generalize hUd : tmpU F N = U at hU
  obtain ⟨m, hm⟩ : ∃ m, N.length = m + 1 := ⟨N.length - 1, by omega⟩
  have ha : N.length * F.kd = F.kd * m + F.kd := by rw [hm]; ring
  have hm1 : N.length - 1 = m := by omega
  rw [hm1]
  have hUc : ∀ p j, unitCols F.kd N.length p j = if p = F.kd * m + j then 1 else 0 := by intro p j; unfold unitCols; rw [hm, Nat.add_sub_cancel]
  generalize hTA : tmpA F N = T at *
  generalize had : N.length * F.kd = a at *
  let last : Fin F.kd → Fin a := fun j => ⟨F.kd * m + j, by have := j.2; omega⟩
  have hlast : Function.Injective last := by
    intro x y h
    have : F.kd * m + (x : Nat) = F.kd * m + y := congrArg Fin.val h
    exact Fin.ext (by omega)
  have hAU : (Matrix.of fun p q : Fin a => T p q) * (Matrix.of fun (p : Fin a) (j : Fin F.kd) => U p j) = Matrix.of fun p j => if p = last j then 1 else 0 := by
    ext p j
    have := hU p p.2 j j.2
    rw [hUc, sum_range] at this
    rw [Matrix.mul_apply]
    refine this.trans ?_
    rw [Matrix.of_apply]
    by_cases h : (p : Nat) = F.kd * m + j
    · rw [if_pos h, if_pos (Fin.ext h)]
    · rw [if_neg h, if_neg (fun e => h (congrArg Fin.val e))]
  obtain ⟨hpd, hcore⟩ := block_core hA hlast hAU
  have hDm : ∀ j k : Fin F.kd, ((Matrix.of fun (p : Fin a) (j : Fin F.kd) => U p j).submatrix last id) j k = U (F.kd * m + j) k := fun _ _ => rfl
  have hsym : ∀ j < F.kd, ∀ k < F.kd, U (F.kd * m + j) k = U (F.kd * m + k) j := by
    intro j hj k hk
    have := hpd.isHermitian
    rw [Matrix.IsHermitian, Matrix.conjTranspose_eq_transpose_of_trivial] at this
    have := congrFun (congrFun this ⟨j, hj⟩) ⟨k, hk⟩
    exact this.symm
  -- it is enough to give the factor
  have fin : ∀ (Y : Nat → Nat → ℝ) (L : Matrix (Fin F.kd) (Fin F.kd) ℝ), L * Lᵀ = (Matrix.of fun (p : Fin a) (j : Fin F.kd) => U p j).submatrix last id →
      L * (Matrix.of fun (j : Fin F.kd) (k : Fin a) => Y j k) = (Matrix.of fun (p : Fin a) (j : Fin F.kd) => U p j)ᵀ →
      (∀ j < F.kd, ∀ q < F.kd * m, ∑ k ∈ range a, Y j k * T k q = 0) ∧
      ∀ j < F.kd, ∀ j' < F.kd, ∑ q ∈ range a, (∑ k ∈ range a, Y j k * T k q) * Y j' q = if j = j' then 1 else 0 := by
    intro Y L h1 h2
    obtain ⟨c1, c2⟩ := hcore L _ h1 h2
    refine ⟨fun j hj q hq => ?_, fun j hj j' hj' => ?_⟩
    · have := c1 ⟨j, hj⟩ ⟨q, by omega⟩ (by
        rintro ⟨x, hx⟩
        have : F.kd * m + (x : Nat) = q := congrArg Fin.val hx
        omega)
      rw [Matrix.mul_apply] at this
      rw [sum_range]
      exact this
    · have := congrFun (congrFun c2 ⟨j, hj⟩) ⟨j', hj'⟩
      rw [Matrix.mul_apply, Matrix.one_apply] at this
      simp only [Fin.mk.injEq] at this
      rw [← this, sum_range]
      refine sum_congr rfl fun q _ => ?_
      rw [Matrix.mul_apply, Matrix.transpose_apply, sum_range]
      rfl
  unfold tmpY
  dsimp only
  rw [hUd, had]
  by_cases h1 : F.kd = 1
  · rw [if_pos h1]
    have ha1 : a - 1 = F.kd * m + 0 := by omega
    have hpos : 0 < U (a - 1) 0 := by
      have := hpd.diag_pos (i := ⟨0, by omega⟩)
      rw [hDm] at this
      rw [ha1]
      exact this
    have hsq : 0 < √(U (a - 1) 0) := Real.sqrt_pos.2 hpos
    refine ⟨_, rfl, fin _ (Matrix.of fun _ _ => √(U (a - 1) 0)) ?_ ?_⟩
    · ext j k
      have hj : (j : Nat) = 0 := by have := j.2; omega
      have hk : (k : Nat) = 0 := by have := k.2; omega
      rw [hDm, hj, hk, ← ha1, Matrix.mul_apply]
      simp only [Matrix.of_apply, Matrix.transpose_apply, sum_const, card_univ, Fintype.card_fin]
      rw [h1, one_smul, Real.mul_self_sqrt hpos.le]
    · ext j k
      have hj : (j : Nat) = 0 := by have := j.2; omega
      rw [Matrix.mul_apply]
      simp only [Matrix.of_apply, Matrix.transpose_apply, sum_const, card_univ, Fintype.card_fin]
      rw [hj, h1, one_smul]
      field_simp
  · rw [if_neg h1]
    have hoff : ∀ k, a - F.kd + k = F.kd * m + k := by intro k; omega
    simp only [hoff]
    have hT : ∀ j < F.kd, ∀ k < F.kd, (0.5 : ℝ) * (U (F.kd * m + k) j + U (F.kd * m + j) k) = U (F.kd * m + j) k := by
      intro j hj k hk
      rw [hsym k hk j hj]; ring
    have hinfo : (F.lp.potrf F.kd fun j k => (0.5 : ℝ) * (U (F.kd * m + k) j + U (F.kd * m + j) k)).1 = 0 := by
      rw [hD]
      convert hpd using 1
      ext j k
      rw [hDm, Matrix.of_apply]
      split
      · exact hT j j.2 k k.2
      · rw [hT k k.2 j j.2, hsym k k.2 j j.2]
    rw [if_pos hinfo]
    have hchol := chol_mat hL (c := F.kd) (g := fun j k => U (F.kd * m + j) k) (fun j hj k hk => hT j hj k (by omega)) (fun j hj k hk => hsym j hj k hk) hinfo
    have hdg := hL.cholDiag F.kd _ hinfo
    refine ⟨_, rfl, fin _ (lowM false F.kd _) (hchol.symm.trans ?_) ?_⟩
    · ext j k; rfl
    · ext j k
      have := congrFun (fsub_mulVec false F.kd _ (fun r => U k r) (fun _ => hdg)) j
      rw [Matrix.mul_apply]
      exact this

end H2Pack.FSB
