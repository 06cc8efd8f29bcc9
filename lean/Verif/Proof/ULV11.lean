import Verif.Proof.ULV10
import Mathlib.LinearAlgebra.Matrix.PosDef
import Mathlib.Analysis.Matrix.PosDef
import Mathlib.Analysis.Matrix.Order

/-! # Positive definite matrices: the factorizations succeed -/

set_option linter.unusedSectionVars false

namespace H2Pack.ULV
open Matrix
open H2Pack.MV
open H2Pack.Part (Arr kids ClusterTree Desc)

section
variable {K : Type} [Field K]

/-- What a node below the root leaves to its parent. -/
noncomputable def schur (n d : Nat) (t : Nat → Nat → K) : Matrix (Fin n) (Fin n) K :=
  mf n n t - mf n d (fun i j => t i (n + j)) * (mf d d fun i j => t (n + i) (n + j))⁻¹ * mf d n (fun i j => t (n + i) j)

/-- The conjugated diagonal block of a node. -/
def conjD (Lp : Lapack K) (tU tD : Mat K) : Nat → Nat → K :=
  mulR tU.nrow (mulTL tU.nrow (Lp.orm tU.nrow tU.ncol (Lp.geqrf tU.nrow tU.ncol tU.e).1 (Lp.geqrf tU.nrow tU.ncol tU.e).2) tD.e)
    (Lp.orm tU.nrow tU.ncol (Lp.geqrf tU.nrow tU.ncol tU.e).1 (Lp.geqrf tU.nrow tU.ncol tU.e).2)

theorem schur_of {n d : Nat} {t : Nat → Nat → K} {a b : Matrix (Fin d) (Fin d) K} (hab : a * mf d d (fun i j => t (n + i) (n + j)) * b = 1) :
    schur n d t = mf n n t - mf n d (fun i j => t i (n + j)) * b * (a * mf d n (fun i j => t (n + i) j)) := by
  unfold schur
  have : (mf d d fun i j => t (n + i) (n + j))⁻¹ = b * a := by
    apply Matrix.inv_eq_left_inv
    rw [Matrix.mul_assoc] at hab ⊢
    have h2 := mul_eq_one_comm.1 hab
    rw [Matrix.mul_assoc] at h2
    have h3 : mf d d (fun i j => t (n + i) (n + j)) * (b * a) = 1 := h2
    have h4 := mul_eq_one_comm.1 h3
    rw [Matrix.mul_assoc] at h4
    exact h4
  rw [this]
  simp only [Matrix.mul_assoc]

theorem luStep_schur {Lp : Lapack K} (hL : Lp.Correct) (lg : K → K) (tU tD : Mat K) {n d : Nat} (hn : tU.ncol = n) (hm : tU.nrow = n + d)
    (hinfo : (luStep Lp lg tU tD).info = 0) : mf n n (deref (luStep Lp lg tU tD).dm).e = schur n d (conjD Lp tU tD) := by
  obtain ⟨r, c, u⟩ := tU
  dsimp only at hn hm
  subst c r
  unfold luStep at hinfo ⊢
  unfold conjD
  dsimp only at hinfo ⊢
  simp only [Nat.add_sub_cancel_left] at hinfo ⊢
  generalize mulR (n + d) (mulTL (n + d) (Lp.orm (n + d) n (Lp.geqrf (n + d) n u).1 (Lp.geqrf (n + d) n u).2) tD.e) (Lp.orm (n + d) n (Lp.geqrf (n + d) n u).1 (Lp.geqrf (n + d) n u).2) = t at *
  have key : ∀ F : Matrix (Fin d) (Fin n) K, ∀ C : Matrix (Fin n) (Fin d) K, ∀ f : Nat → Nat → K, ∀ c : Nat → Nat → K, mf d n f = F → mf n d c = C →
      mf n n (fun i j => t i j - ∑ s ∈ Finset.range d, c i s * f s j) = mf n n t - C * F := by
    rintro F C f c rfl rfl
    ext i j
    rw [Matrix.sub_apply, Matrix.mul_apply]
    simp only [mf]
    rw [Finset.sum_range]
  by_cases h0 : 0 < d
  · rw [if_pos h0] at hinfo
    obtain ⟨hp, hdiag, hab, _⟩ := lu_factor hL hinfo
    rw [schur_of hab]
    simp only [deref, Option.getD_some]
    apply key
    · rw [fsub_cols true d n _ (fun r j => t (n + permOf d (Lp.getrf d fun i j => t (n + i) (n + j)).2.1 r) j) (by simp), Matrix.mul_assoc,
        permM_mul hp (fun i j => t (n + i) j)]
    · exact fsub_rows n d _ (fun i c => t i (n + c)) hdiag
  · have : d = 0 := by omega
    subst this
    unfold schur
    ext i j
    simp [mf, deref, Matrix.mul_apply]

theorem cholStep_schur {Lp : Lapack K} (hL : Lp.Correct) (lg : K → K) (tU tD : Mat K) {n d : Nat} (hn : tU.ncol = n) (hm : tU.nrow = n + d)
    (hsym : Sym (n + d) tD.e) (hinfo : (cholStep Lp lg tU tD).info = 0) : mf n n (deref (cholStep Lp lg tU tD).dm).e = schur n d (conjD Lp tU tD) := by
  obtain ⟨r, c, u⟩ := tU
  dsimp only at hn hm
  subst c r
  have htsym := conj_sym (Q := Lp.orm (n + d) n (Lp.geqrf (n + d) n u).1 (Lp.geqrf (n + d) n u).2) hsym
  unfold cholStep at hinfo ⊢
  unfold conjD
  dsimp only at hinfo ⊢
  simp only [Nat.add_sub_cancel_left] at hinfo ⊢
  generalize mulR (n + d) (mulTL (n + d) (Lp.orm (n + d) n (Lp.geqrf (n + d) n u).1 (Lp.geqrf (n + d) n u).2) tD.e) (Lp.orm (n + d) n (Lp.geqrf (n + d) n u).1 (Lp.geqrf (n + d) n u).2) = t at *
  have key : ∀ F : Matrix (Fin d) (Fin n) K, ∀ C : Matrix (Fin n) (Fin d) K, ∀ f : Nat → Nat → K, ∀ c : Nat → Nat → K, mf d n f = F → mf n d c = C →
      mf n n (fun i j => t i j - ∑ s ∈ Finset.range d, c i s * f s j) = mf n n t - C * F := by
    rintro F C f c rfl rfl
    ext i j
    rw [Matrix.sub_apply, Matrix.mul_apply]
    simp only [mf]
    rw [Finset.sum_range]
  by_cases h0 : 0 < d
  · rw [if_pos h0] at hinfo
    generalize hl : (fun i j => if i < j then 0 else (Lp.potrf d (fun i j => t (n + i) (n + j))).2 i j) = l at *
    obtain ⟨hdiag, hab, _⟩ := chol_factor hL hinfo hl.symm (fun i hi j hj => htsym _ (by omega) _ (by omega))
    rw [schur_of hab]
    simp only [deref, Option.getD_some]
    refine key _ _ _ (fun i s => fsub false l (fun r => t (n + r) i) s) ?_ ?_
    · exact fsub_cols false d n l (fun r j => t (n + r) j) (fun _ => hdiag)
    · rw [← fsub_rows n d (fun r c => l c r) (fun i c => t i (n + c)) hdiag]
      ext i j
      simp only [mf]
      rw [fsub_inv false d l _ (fun _ => hdiag) j, fsub_inv false d l _ (fun _ => hdiag) j]
      congr 2
      funext r
      exact htsym _ (by have := r.2; omega) _ (by have := i.2; omega)
  · have : d = 0 := by omega
    subst this
    unfold schur
    ext i j
    simp [mf, deref, Matrix.mul_apply]

/-- GETRF finds no zero pivot in a nonsingular matrix. -/
theorem getrf_info {Lp : Lapack K} (hL : Lp.Correct) {d : Nat} {T : Nat → Nat → K} (hdet : (mf d d T).det ≠ 0) : (Lp.getrf d T).1 = 0 := by
  rw [hL.luInfo d T]
  have hpiv := hL.piv d T
  have hlu := hL.lu d T
  generalize Lp.getrf d T = f at *
  obtain ⟨hperm, hint⟩ := permOf_spec d f.2.1 hpiv T
  generalize permOf d f.2.1 = perm at *
  generalize hlude : f.2.2 = lu at *
  have hfac : permM K d perm * mf d d T = lowM true d lu * upM d lu := by
    rw [permM_mul hperm]
    ext i j
    simp only [mf]
    rw [← hint, hlu _ i.2 _ j.2, Matrix.mul_apply, Finset.sum_range]
    apply Finset.sum_congr rfl
    intro s _
    simp only [lowM, upM]
    by_cases h1 : (s : Nat) < i
    · rw [if_pos h1, if_pos h1]
    · rw [if_neg h1, if_neg h1]
      by_cases h2 : i = s
      · rw [if_pos h2, if_pos (by rw [h2])]; rfl
      · rw [if_neg h2, if_neg (fun e => h2 (Fin.ext e.symm))]
  have hP := congrArg Matrix.det (permM_orth (K := K) hperm)
  rw [Matrix.det_mul, Matrix.det_one, Matrix.det_transpose] at hP
  have hd := congrArg Matrix.det hfac
  rw [Matrix.det_mul, Matrix.det_mul, det_lowM, det_upM] at hd
  simp only [if_true, Finset.prod_const_one, one_mul] at hd
  intro k hk h0
  have : ∏ i : Fin d, lu i i = 0 := Finset.prod_eq_zero (Finset.mem_univ (⟨k, hk⟩ : Fin d)) h0
  rw [this] at hd
  rcases mul_eq_zero.1 hd with h | h
  · rw [h, mul_zero] at hP
    exact zero_ne_one hP
  · exact hdet h

end

/-! ## Over the reals -/

section
open scoped MatrixOrder
variable {R : Rep ℝ} {W : Nat → Nat → Nat → ℝ} {shift : ℝ}

theorem posDef_conj {ι κ : Type} [Fintype ι] [Fintype κ] [DecidableEq ι] [DecidableEq κ] {A : Matrix ι ι ℝ} (hA : A.PosDef) {B : Matrix ι κ ℝ} {C : Matrix κ ι ℝ} (hC : C * B = 1) :
    (Bᵀ * A * B).PosDef := by
  rw [← conjTranspose_eq_transpose_of_trivial]
  apply hA.conjTranspose_mul_mul_same
  intro x y h
  have := congrArg (fun z => C *ᵥ z) h
  simpa [Matrix.mulVec_mulVec, hC] using this

/-- A node with a positive definite block of the positions to be removed can be eliminated by an operator and its transpose. -/
theorem pd_node' {n d : Nat} {tD tU um Q : Nat → Nat → ℝ} {dm : Matrix (Fin n) (Fin n) ℝ} (hQ : (mat n d Q)ᵀ * mat n d Q = 1)
    (hU : (mat n d Q)ᵀ * colm n d n tU = fromRows (mf n n um) 0) (hS : dm = schur n d (mulR (n + d) (mulTL (n + d) Q tD) Q))
    (hsym : (mat n d (mulR (n + d) (mulTL (n + d) Q tD) Q))ᵀ = mat n d (mulR (n + d) (mulTL (n + d) Q tD) Q))
    (h22 : (mf d d fun i j => mulR (n + d) (mulTL (n + d) Q tD) Q (n + i) (n + j)).PosDef) : ∃ g : Matrix (Ix n d) (Ix n d) ℝ, g.det ≠ 0 ∧ g * mat n d tD * gᵀ = fromBlocks dm 0 0 1 ∧ BasisOk n d tU um g gᵀ := by
  have hconj := mat_conj n d Q tD
  generalize mulR (n + d) (mulTL (n + d) Q tD) Q = t at *
  obtain ⟨B, hBu, hB⟩ : ∃ B : Matrix (Fin d) (Fin d) ℝ, IsUnit B.det ∧ (mf d d fun i j => t (n + i) (n + j)) = Bᵀ * B := by
    obtain ⟨B, hB⟩ := CStarAlgebra.nonneg_iff_eq_star_mul_self.mp h22.posSemidef.nonneg
    rw [star_eq_conjTranspose, conjTranspose_eq_transpose_of_trivial] at hB
    refine ⟨B, ?_, hB⟩
    have := h22.det_pos
    rw [hB, Matrix.det_mul, Matrix.det_transpose] at this
    rw [isUnit_iff_ne_zero]
    intro h
    rw [h] at this
    simp at this
  have hBt : IsUnit (Bᵀ).det := by rw [Matrix.det_transpose]; exact hBu
  have hab : (Bᵀ)⁻¹ * mf d d (fun i j => t (n + i) (n + j)) * B⁻¹ = 1 := by
    rw [hB, ← Matrix.mul_assoc, Matrix.nonsing_inv_mul _ hBt, Matrix.one_mul, Matrix.mul_nonsing_inv _ hBu]
  have hba : B⁻¹ = ((Bᵀ)⁻¹)ᵀ := by rw [Matrix.transpose_nonsing_inv, Matrix.transpose_transpose]
  have h12 : mf d n (fun i j => t (n + i) j) = (mf n d fun i j => t i (n + j))ᵀ := by
    ext i j
    have := congrFun (congrFun hsym (.inl j)) (.inr i)
    exact this
  set a := (Bᵀ)⁻¹ with ha
  set T12 := mf n d (fun i j => t i (n + j)) with hT12
  have hgT : (fromBlocks 1 (-(T12 * B⁻¹ * a)) 0 a * (mat n d Q)ᵀ)ᵀ = mat n d Q * fromBlocks 1 0 (-(B⁻¹ * (a * mf d n (fun i j => t (n + i) j)))) B⁻¹ := by
    rw [Matrix.transpose_mul, Matrix.transpose_transpose, Matrix.fromBlocks_transpose, Matrix.transpose_one, Matrix.transpose_zero, h12, hba]
    congr 2
    simp only [Matrix.transpose_neg, Matrix.transpose_mul, Matrix.transpose_transpose]
  refine ⟨fromBlocks 1 (-(T12 * B⁻¹ * a)) 0 a * (mat n d Q)ᵀ, ?_, ?_, ?_⟩
  · rw [Matrix.det_mul, Matrix.det_fromBlocks_zero₂₁, Matrix.det_one, one_mul, Matrix.det_transpose]
    have h1 := congrArg Matrix.det hQ
    rw [Matrix.det_mul, Matrix.det_one] at h1
    have h2 := congrArg Matrix.det (Matrix.nonsing_inv_mul _ hBt)
    rw [Matrix.det_mul, Matrix.det_one] at h2
    exact mul_ne_zero (left_ne_zero_of_mul_eq_one h2) (right_ne_zero_of_mul_eq_one h1)
  · rw [hgT, ← Matrix.mul_assoc, Matrix.mul_assoc _ _ (mat n d tD), Matrix.mul_assoc _ _ (mat n d Q), ← hconj, mat_blocks n d t,
      elim_core _ _ _ _ _ _ hab, hS, schur_of hab]
  · rw [hgT]
    exact basis_ok hU _ _ _ _

theorem pd_node {n d : Nat} {tD tU um Q : Nat → Nat → ℝ} {dm : Matrix (Fin n) (Fin n) ℝ} (hQ : (mat n d Q)ᵀ * mat n d Q = 1)
    (hU : (mat n d Q)ᵀ * colm n d n tU = fromRows (mf n n um) 0) (hS : dm = schur n d (mulR (n + d) (mulTL (n + d) Q tD) Q))
    (hP : (mat n d tD).PosDef) : ∃ g : Matrix (Ix n d) (Ix n d) ℝ, g.det ≠ 0 ∧ g * mat n d tD * gᵀ = fromBlocks dm 0 0 1 ∧ BasisOk n d tU um g gᵀ := by
  have hT : (mat n d (mulR (n + d) (mulTL (n + d) Q tD) Q)).PosDef := by rw [mat_conj n d Q tD]; exact posDef_conj hP hQ
  refine pd_node' hQ hU hS ?_ (hT.submatrix (e := Sum.inr) Sum.inr_injective)
  have := hT.isHermitian
  rw [Matrix.IsHermitian, conjTranspose_eq_transpose_of_trivial] at this
  exact this

/-- What is needed of the steps. -/
structure PDok (step root : Mat ℝ → Mat ℝ → Step ℝ) : Prop where
  step : ∀ (tU tD : Mat ℝ) (n d : Nat), tU.ncol = n → tU.nrow = n + d → (mat n d tD.e).PosDef → (step tU tD).info = 0 ∧
    ∃ g : Matrix (Ix n d) (Ix n d) ℝ, g.det ≠ 0 ∧ g * mat n d tD.e * gᵀ = fromBlocks (mf n n (deref (step tU tD).dm).e) 0 0 1 ∧
      BasisOk n d tU.e (deref (step tU tD).um).e g gᵀ
  root : ∀ (tU tD : Mat ℝ) (d : Nat), tU.nrow = d → (mat 0 d tD.e).PosDef → (root tU tD).info = 0

theorem pd_sub {n d : Nat} {t : Nat → Nat → ℝ} (h : (mat n d t).PosDef) : (mf d d fun i j => t (n + i) (n + j)).PosDef :=
  h.submatrix (e := Sum.inr) Sum.inr_injective

theorem conj_pd {Lp : Lapack ℝ} (hL : Lp.Correct) {tU tD : Mat ℝ} {n d : Nat} (hn : tU.ncol = n) (hm : tU.nrow = n + d) (hP : (mat n d tD.e).PosDef) :
    (mat n d (conjD Lp tU tD)).PosDef ∧ (mat n d (Lp.orm tU.nrow tU.ncol (Lp.geqrf tU.nrow tU.ncol tU.e).1 (Lp.geqrf tU.nrow tU.ncol tU.e).2))ᵀ *
      mat n d (Lp.orm tU.nrow tU.ncol (Lp.geqrf tU.nrow tU.ncol tU.e).1 (Lp.geqrf tU.nrow tU.ncol tU.e).2) = 1 ∧
    (mat n d (Lp.orm tU.nrow tU.ncol (Lp.geqrf tU.nrow tU.ncol tU.e).1 (Lp.geqrf tU.nrow tU.ncol tU.e).2))ᵀ * colm n d n tU.e =
      fromRows (mf n n (upperPart n (Lp.geqrf tU.nrow tU.ncol tU.e).1).e) 0 := by
  unfold conjD
  rw [hn, hm]
  have h1 := mat_orth (hL.orth (n + d) n tU.e (by omega))
  refine ⟨?_, h1, basis_rows (hL.qr (n + d) n tU.e (by omega))⟩
  rw [mat_conj]
  exact posDef_conj hP h1

theorem lu_pdok {Lp : Lapack ℝ} (hL : Lp.Correct) (lg : ℝ → ℝ) : PDok (luStep Lp lg) (luRoot Lp lg) := by
  constructor
  · intro tU tD n d hn hm hP
    obtain ⟨h1, h2, h3⟩ := conj_pd hL hn hm hP
    have hinfo : (luStep Lp lg tU tD).info = 0 := by
      show (if 0 < tU.nrow - tU.ncol then (Lp.getrf (tU.nrow - tU.ncol) (fun i j => conjD Lp tU tD (tU.ncol + i) (tU.ncol + j))).1 else 0) = 0
      rw [hn, show tU.nrow - n = d by omega, getrf_info hL, ite_self]
      exact ne_of_gt (pd_sub h1).det_pos
    refine ⟨hinfo, ?_⟩
    refine pd_node (dm := mf n n (deref (luStep Lp lg tU tD).dm).e) h2 ?_ ?_ hP
    · rw [h3, ← hn]; rfl
    · rw [luStep_schur hL lg tU tD hn hm hinfo]
      unfold conjD
      rw [hm]
  · intro tU tD d hm hP
    show (Lp.getrf tU.nrow tD.e).1 = 0
    rw [hm]
    apply getrf_info hL
    have := (pd_sub hP).det_pos
    simp only [Nat.zero_add] at this
    exact ne_of_gt this

theorem pd_lower {d : Nat} {t : Nat → Nat → ℝ} (h : (mf d d t).PosDef) : (Matrix.of fun i j : Fin d => if j ≤ i then t i j else t j i).PosDef := by
  have e : (Matrix.of fun i j : Fin d => if j ≤ i then t i j else t j i) = mf d d t := by
    ext i j
    have hs := h.isHermitian
    rw [Matrix.IsHermitian, conjTranspose_eq_transpose_of_trivial] at hs
    have := congrFun (congrFun hs i) j
    rw [Matrix.of_apply]
    by_cases hij : j ≤ i
    · rw [if_pos hij]; rfl
    · rw [if_neg hij]; exact this
  rw [e]
  exact h

theorem pd_symm {n d : Nat} {t : Nat → Nat → ℝ} (h : (mat n d t).PosDef) : Sym (n + d) t := by
  intro i hi j hj
  obtain ⟨i, rfl⟩ := pos_surj hi
  obtain ⟨j, rfl⟩ := pos_surj hj
  have hs := h.isHermitian
  rw [Matrix.IsHermitian, conjTranspose_eq_transpose_of_trivial] at hs
  exact (congrFun (congrFun hs i) j).symm

theorem chol_pdok {Lp : Lapack ℝ} (hL : Lp.Correct) (hD : Lp.Definite) (lg : ℝ → ℝ) : PDok (cholStep Lp lg) (cholRoot Lp lg) := by
  constructor
  · intro tU tD n d hn hm hP
    obtain ⟨h1, h2, h3⟩ := conj_pd hL hn hm hP
    have hinfo : (cholStep Lp lg tU tD).info = 0 := by
      show (if 0 < tU.nrow - tU.ncol then (Lp.potrf (tU.nrow - tU.ncol) (fun i j => conjD Lp tU tD (tU.ncol + i) (tU.ncol + j))).1 else 0) = 0
      rw [hn, show tU.nrow - n = d by omega, (hD d _).2 (pd_lower (pd_sub h1)), ite_self]
    refine ⟨hinfo, ?_⟩
    refine pd_node (dm := mf n n (deref (cholStep Lp lg tU tD).dm).e) h2 ?_ ?_ hP
    · rw [h3, ← hn]; rfl
    · rw [cholStep_schur hL lg tU tD hn hm (pd_symm hP) hinfo]
      unfold conjD
      rw [hm]
  · intro tU tD d hm hP
    show (Lp.potrf tU.nrow tD.e).1 = 0
    rw [hm, hD]
    apply pd_lower
    have := pd_sub hP
    simp only [Nat.zero_add] at this
    exact this

end

end H2Pack.ULV
