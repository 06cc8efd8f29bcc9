import Verif.Model.LRDPrecond
import Verif.Proof.AFNP2
import Verif.Proof.AFNP3

/-! # The matrices of the low rank plus diagonal preconditioner -/

namespace H2Pack.LRD
open H2Pack.ULV H2Pack.AFN Finset Matrix

/-- Lines 70-75. -/
theorem maxDiag_spec (m : Nat) (w : Nat → ℝ) : 0 ≤ maxDiag m w ∧ (∀ i < m, w i ≤ maxDiag m w) ∧ (maxDiag m w = 0 ∨ ∃ i < m, maxDiag m w = w i) := by
  induction m with
  | zero => simp [maxDiag]
  | succ m ih =>
    obtain ⟨a, b, c⟩ := ih
    have e : maxDiag (m + 1) w = if w m > maxDiag m w then w m else maxDiag m w := by
      unfold maxDiag; rw [List.range_succ, List.foldl_append]; rfl
    rw [e]
    split
    · rename_i h
      refine ⟨a.trans h.le, fun i hi => ?_, Or.inr ⟨m, by omega, rfl⟩⟩
      rcases Nat.lt_succ_iff_lt_or_eq.1 hi with h' | rfl
      · exact (b i h').trans h.le
      · exact le_refl _
    · rename_i h
      refine ⟨a, fun i hi => ?_, ?_⟩
      · rcases Nat.lt_succ_iff_lt_or_eq.1 hi with h' | rfl
        · exact b i h'
        · exact not_lt.1 h
      · rcases c with c | ⟨i, hi, c⟩
        · exact Or.inl c
        · exact Or.inr ⟨i, by omega, c⟩

/-- The kept eigenvalues are inverted. -/
noncomputable def keep (top w : ℝ) : ℝ := if 1 / 10000000000 * top ≤ w then 1 / w else 0

theorem factor_spec {lp : Lapack ℝ} (hL : lp.Correct) (hD : lp.Definite) {lq : H2Pack.SPD.Lapack2} (hQ : lq.Correct) {m N : Nat} {shift : ℝ} (hs : 0 < shift)
    {S C : Nat → Nat → ℝ} (hS : ∀ i < m, ∀ j < m, S i j = S j i) (hpos : ∃ w : ℝ, 0 < w ∧ ∃ y : Fin m → ℝ, y ≠ 0 ∧ mf m m S *ᵥ y = w • y) :
    ∃ (U : Nat → Nat → ℝ) (top : ℝ) (Q : Matrix (Fin m) (Fin m) ℝ), factor lp lq m N shift S C = some U ∧
      IsGreatest {w : ℝ | ∃ y : Fin m → ℝ, y ≠ 0 ∧ mf m m S *ᵥ y = w • y} top ∧ 0 < top ∧ FunOf (keep top) (mf m m S) Q ∧ Q.PosSemidef ∧
      ((mf m N C)ᵀ * Q * mf m N C + shift • (1 : Matrix (Fin N) (Fin N) ℝ)) * (1 - (mf m N U)ᵀ * mf m N U) = shift • 1 := by
  classical
  set V : Matrix (Fin m) (Fin m) ℝ := mf m m (lq.syevd m S).2.1 with hVd
  set w := (lq.syevd m S).2.2 with hw
  have hV : Vᵀ * V = 1 := by
    ext i j
    rw [Matrix.mul_apply, Matrix.one_apply]
    have := hQ.evOrth m S i i.2 j j.2
    rw [sum_range] at this
    refine Eq.trans this ?_
    by_cases hij : i = j
    · subst hij; simp
    · rw [if_neg hij, if_neg fun h => hij (Fin.ext h)]
  have hVV : V * Vᵀ = 1 := mul_eq_one_comm.1 hV
  have hSV : mf m m S = V * diagonal (fun j : Fin m => w j) * Vᵀ := by
    have key : ∀ i j : Fin m, i ≤ j → mf m m S i j = (V * diagonal (fun j : Fin m => w j) * Vᵀ) i j := by
      intro i j hij
      have : S i j = _ := (hQ.ev m S j j.2 i hij).symm
      show S i j = _
      rw [this, Matrix.mul_apply, sum_range]
      refine sum_congr rfl fun t _ => ?_
      rw [Matrix.mul_diagonal]; rfl
    ext i j
    rcases le_total i j with h | h
    · exact key i j h
    · have e1 : mf m m S i j = mf m m S j i := hS i i.2 j j.2
      have e2 : (V * diagonal (fun j : Fin m => w j) * Vᵀ) i j = (V * diagonal (fun j : Fin m => w j) * Vᵀ) j i := by
        have : (V * diagonal (fun j : Fin m => w j) * Vᵀ)ᵀ = V * diagonal (fun j : Fin m => w j) * Vᵀ := by
          rw [Matrix.transpose_mul, Matrix.transpose_mul, Matrix.transpose_transpose, diagonal_transpose, Matrix.mul_assoc]
        rw [← congrFun (congrFun this i) j, Matrix.transpose_apply]
      rw [e1, e2]
      exact key j i h
  have heig := small_eig_iff (w := fun j : Fin m => w j) hV hSV
  obtain ⟨t0, t1, t2⟩ := maxDiag_spec m w
  have htop : 0 < maxDiag m w := by
    obtain ⟨x, hx, hy⟩ := hpos
    obtain ⟨j, hj⟩ := (heig x).1 hy
    have := t1 j j.2
    have hj' : w j = x := hj
    linarith
  have hmem : ∃ i < m, maxDiag m w = w i := by
    rcases t2 with h | h
    · exact absurd h htop.ne'
    · exact h
  set top := maxDiag m w with htopd
  set d : Fin m → ℝ := fun j => scale m w j with hd
  have hdd : ∀ j : Fin m, d j * d j = keep top (w j) := by
    intro j
    show scale m w j * scale m w j = _
    unfold scale keep
    rw [← htopd]
    by_cases h : 1 / 10000000000 * top ≤ w j
    · have hwj : 0 < w j := lt_of_lt_of_le (by positivity) h
      rw [if_pos h, if_pos h]
      rw [div_mul_div_comm, one_mul, Real.mul_self_sqrt hwj.le]
    · rw [if_neg h, if_neg h, mul_zero]
  set Q : Matrix (Fin m) (Fin m) ℝ := (V * diagonal d) * (V * diagonal d)ᵀ with hQd
  set U0 : Matrix (Fin m) (Fin N) ℝ := (V * diagonal d)ᵀ * mf m N C with hU0
  have hU0' : mf m N (u0 m (lq.syevd m S).2.1 (scale m w) C) = U0 := by
    ext i c
    rw [hU0, Matrix.mul_apply]
    show u0 m _ _ C i c = _
    unfold u0
    rw [sum_range]
    refine sum_congr rfl fun t _ => ?_
    rw [Matrix.transpose_apply, Matrix.mul_diagonal]; rfl
  have hUU : U0ᵀ * U0 = (mf m N C)ᵀ * Q * mf m N C := by
    rw [hU0, hQd, Matrix.transpose_mul, Matrix.transpose_transpose]; simp only [Matrix.mul_assoc]
  -- the factorization
  set T : Nat → Nat → ℝ := fun i j => (∑ c ∈ range N, u0 m (lq.syevd m S).2.1 (scale m w) C i c * u0 m (lq.syevd m S).2.1 (scale m w) C j c) + if i = j then shift else 0 with hT
  have hTm : mf m m T = U0 * U0ᵀ + shift • (1 : Matrix (Fin m) (Fin m) ℝ) := by
    ext i j
    rw [← hU0', Matrix.add_apply, Matrix.mul_apply, Matrix.smul_apply, Matrix.one_apply, smul_eq_mul]
    show (∑ c ∈ range N, _) + _ = _
    rw [sum_range]
    congr 1
    by_cases h : i = j
    · subst h; simp
    · rw [if_neg h, if_neg (fun e => h (Fin.ext e)), mul_zero]
  have hTsym : ∀ i j, T i j = T j i := by
    intro i j
    show (∑ c ∈ range N, _) + _ = (∑ c ∈ range N, _) + _
    congr 1
    · exact sum_congr rfl fun c _ => mul_comm _ _
    · exact if_congr eq_comm rfl rfl
  have hTpd : (mf m m T).PosDef := by
    rw [hTm]
    refine Matrix.PosDef.posSemidef_add ?_ ?_
    · have := Matrix.posSemidef_self_mul_conjTranspose U0
      rwa [Matrix.conjTranspose_eq_transpose_of_trivial] at this
    · exact Matrix.PosDef.one.smul hs
  have hinfo : (lp.potrf m T).1 = 0 := by
    rw [hD]
    have : (Matrix.of fun i j : Fin m => if j ≤ i then T i j else T j i) = mf m m T := by
      ext i j
      rw [Matrix.of_apply]
      split
      · rfl
      · exact hTsym j i
    rw [this]; exact hTpd
  have hchol := chol_mat hL (c := m) (g := T) (fun _ _ _ _ => rfl) (fun i _ j _ => hTsym i j) hinfo
  have hdiag := hL.cholDiag m _ hinfo
  have hF : factor lp lq m N shift S C = some (fun i c => fsub false (lp.potrf m T).2 (fun t => u0 m (lq.syevd m S).2.1 (scale m w) C t c) i) := by
    unfold factor
    dsimp only
    rw [if_pos (hQ.evInfo m S), ← hw, if_pos hinfo]
  generalize (lp.potrf m T).2 = l at *
  have hUt : mf m N (fun i c => fsub false l (fun t => u0 m (lq.syevd m S).2.1 (scale m w) C t c) i) = (lowM false m l)⁻¹ * U0 := by
    rw [← hU0']
    exact fsub_cols false m N l (fun t c => u0 m (lq.syevd m S).2.1 (scale m w) C t c) (fun _ => hdiag)
  have hLu : IsUnit (lowM false m l).det := isUnit_lowM _ _ _ fun _ => hdiag
  have hTu : IsUnit (mf m m T).det := hTpd.det_pos.ne'.isUnit
  refine ⟨_, top, Q, hF, ⟨(heig _).2 ?_, ?_⟩, htop, ?_, ?_, ?_⟩
  · obtain ⟨i, hi, e⟩ := hmem
    exact ⟨⟨i, hi⟩, e.symm⟩
  · rintro x hx
    obtain ⟨j, rfl⟩ := (heig x).1 hx
    exact t1 j j.2
  · intro x v hv
    have hQ2 : Q = V * diagonal (fun j : Fin m => keep top (w j)) * Vᵀ := by
      rw [hQd, Matrix.transpose_mul, diagonal_transpose, Matrix.mul_assoc V, ← Matrix.mul_assoc (diagonal d), diagonal_mul_diagonal, ← Matrix.mul_assoc]
      simp only [hdd]
    have e1 : diagonal (fun j : Fin m => w j) *ᵥ (Vᵀ *ᵥ v) = x • (Vᵀ *ᵥ v) := by
      rw [← Matrix.mulVec_smul, ← hv, hSV]
      simp only [Matrix.mulVec_mulVec]
      congr 1
      rw [← Matrix.mul_assoc, ← Matrix.mul_assoc, hV, Matrix.one_mul]
    have e2 : diagonal (fun j : Fin m => keep top (w j)) *ᵥ (Vᵀ *ᵥ v) = keep top x • (Vᵀ *ᵥ v) := by
      funext j
      have := congrFun e1 j
      rw [Matrix.mulVec_diagonal, Pi.smul_apply, smul_eq_mul] at this ⊢
      by_cases h : (Vᵀ *ᵥ v) j = 0
      · rw [h, mul_zero, mul_zero]
      · rw [mul_right_cancel₀ h this]
    calc Q *ᵥ v = V *ᵥ (diagonal (fun j : Fin m => keep top (w j)) *ᵥ (Vᵀ *ᵥ v)) := by
            rw [hQ2]; simp only [Matrix.mulVec_mulVec, Matrix.mul_assoc]
      _ = keep top x • v := by rw [e2, Matrix.mulVec_smul, Matrix.mulVec_mulVec, hVV, Matrix.one_mulVec]
  · have := Matrix.posSemidef_self_mul_conjTranspose (V * diagonal d)
    rwa [Matrix.conjTranspose_eq_transpose_of_trivial] at this
  · rw [hUt, ← hUU]
    have hUtU : ((lowM false m l)⁻¹ * U0)ᵀ * ((lowM false m l)⁻¹ * U0) = U0ᵀ * (mf m m T)⁻¹ * U0 := by
      rw [hchol, Matrix.mul_inv_rev, Matrix.transpose_mul, ← Matrix.transpose_nonsing_inv]
      simp only [Matrix.mul_assoc]
    rw [hUtU]
    have key : (U0ᵀ * U0 + shift • (1 : Matrix (Fin N) (Fin N) ℝ)) * (U0ᵀ * (mf m m T)⁻¹ * U0) = U0ᵀ * U0 := by
      have e : (U0ᵀ * U0 + shift • (1 : Matrix (Fin N) (Fin N) ℝ)) * U0ᵀ = U0ᵀ * mf m m T := by
        rw [hTm, Matrix.add_mul, Matrix.mul_add, Matrix.smul_mul, Matrix.mul_smul, Matrix.one_mul, Matrix.mul_one, Matrix.mul_assoc]
      have e' : (U0ᵀ * U0 + shift • (1 : Matrix (Fin N) (Fin N) ℝ)) * (U0ᵀ * (mf m m T)⁻¹ * U0) =
          (U0ᵀ * U0 + shift • (1 : Matrix (Fin N) (Fin N) ℝ)) * U0ᵀ * (mf m m T)⁻¹ * U0 := by simp only [Matrix.mul_assoc]
      rw [e', e, Matrix.mul_assoc U0ᵀ, Matrix.mul_nonsing_inv _ hTu, Matrix.mul_one]
    rw [Matrix.mul_sub, key, Matrix.mul_one, add_sub_cancel_left]

end H2Pack.LRD
