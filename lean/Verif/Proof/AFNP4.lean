import Verif.Proof.AFNP2
import Verif.Proof.AFNP3

/-! # The Nyström preconditioner in the order of the program -/

namespace H2Pack.AFN
open H2Pack.ULV Finset Matrix

theorem nysBuild_spec {E : Env} (hL : E.lp.Correct) (hD : E.lp.Definite) (hQ : E.lq.Correct) (hQa : Ascending E.lq) (heps : 0 < E.eps)
    (mu : ℝ) {n1 n2 n : Nat} (hn : n1 + n2 = n) (h1 : 1 ≤ n1) {k1 : Nat → Nat → ℝ} (hsym : ∀ i < n1, ∀ j < n1, k1 i j = k1 j i)
    {W : Matrix (Fin n1) (Fin n1) ℝ} (hWd : ∀ a b : Fin n1, W a b = k1 a b + if a = b then nysNu E n1 n k1 else 0) (hW : W.PosDef)
    {K1 : Matrix (Fin n1) (Fin n) ℝ} (hK1d : ∀ a j, K1 a j = k1 a j) (hK1 : K1 ≠ 0) :
    ∃ (N : Nys) (lo hi : ℝ) (B : Matrix (Fin n) (Fin n) ℝ), nysBuild E mu n1 n2 k1 = .ok (some N) ∧
      IsLeast {w | ∃ y : Fin n1 → ℝ, y ≠ 0 ∧ (K1 * K1ᵀ) *ᵥ y = w • (W *ᵥ y)} lo ∧ IsGreatest {w | ∃ y : Fin n1 → ℝ, y ≠ 0 ∧ (K1 * K1ᵀ) *ᵥ y = w • (W *ᵥ y)} hi ∧
      0 ≤ lo ∧ 0 < hi ∧
      FunOf (fun x => if ¬ Real.sqrt x < Real.sqrt hi * E.eps * 10 then
        (max (lo - nysNu E n1 n k1) 0 + mu) / (max (x - nysNu E n1 n k1) 0 + mu) else 1) (K1ᵀ * W⁻¹ * K1) B ∧
      ∀ (x : Nat → ℝ) (i : Fin n), nysApply n1 n N x i = (B *ᵥ fun j => x j) i := by
  classical
  generalize hnu : nysNu E n1 n k1 = nu at *
  -- the Cholesky factor
  have hTeq : (Matrix.of fun i j : Fin n1 => if j ≤ i then (k1 i j + if (i : Nat) = j then nu else 0) else (k1 j i + if (j : Nat) = i then nu else 0)) = W := by
    ext i j
    rw [hWd]
    simp only [Matrix.of_apply]
    by_cases hij : i = j
    · subst hij; simp
    · have hij' : ¬ (i : Nat) = j := fun h => hij (Fin.ext h)
      have hij'' : ¬ (j : Nat) = i := fun h => hij' h.symm
      rw [if_neg hij, if_neg hij', if_neg hij'', hsym j j.2 i i.2]
      split <;> rfl
  have hinfo : (E.lp.potrf n1 (fun i j => k1 i j + if i = j then nu else 0)).1 = 0 := by
    rw [hD]
    exact hTeq ▸ hW
  have hchol := chol_mat hL (c := n1) (g := fun i j => k1 i j + if i = j then nu else 0) (fun _ _ _ _ => rfl) (by
    intro i hi j hj
    rw [hsym i hi j hj]
    by_cases h : i = j
    · subst h; rfl
    · rw [if_neg h, if_neg (Ne.symm h)]) hinfo
  have hdiag := hL.cholDiag n1 _ hinfo
  generalize hf : (E.lp.potrf n1 (fun i j => k1 i j + if i = j then nu else 0)).2 = l at hchol hdiag
  have hWL : W = lowM false n1 l * (lowM false n1 l)ᵀ := by
    rw [← hchol]
    ext i j
    rw [hWd]
    simp only [mf]
    by_cases hij : i = j
    · subst hij; simp
    · rw [if_neg hij, if_neg (fun h => hij (Fin.ext h))]
  have hWinv : W⁻¹ = (mf n1 n1 (trInv l))ᵀ * mf n1 n1 (trInv l) := by
    rw [hWL, Matrix.mul_inv_rev, trInv_mf hdiag, Matrix.transpose_nonsing_inv]
  have hLu : IsUnit (lowM false n1 l).det := isUnit_lowM _ _ _ fun _ => hdiag
  have hNL : mf n1 n1 (trInv l) * lowM false n1 l = 1 := by rw [trInv_mf hdiag, Matrix.nonsing_inv_mul _ hLu]
  have hLN : lowM false n1 l * mf n1 n1 (trInv l) = 1 := mul_eq_one_comm.1 hNL
  generalize lowM false n1 l = L at *
  generalize hNd : mf n1 n1 (trInv l) = Ni at *
  -- the tall matrix
  set M : Matrix (Fin n) (Fin n1) ℝ := K1ᵀ * Niᵀ with hMd
  have hM : ∀ (i : Fin n) (j : Fin n1), nysM n1 k1 l i j = M i j := by
    intro i j
    rw [hMd, Matrix.mul_apply]
    unfold nysM
    rw [sum_range]
    refine sum_congr rfl fun t _ => ?_
    rw [Matrix.transpose_apply, Matrix.transpose_apply, hK1d, ← hNd]; rfl
  have hKM : K1 = L * Mᵀ := by
    rw [hMd, Matrix.transpose_mul, Matrix.transpose_transpose, Matrix.transpose_transpose, ← Matrix.mul_assoc, hLN, Matrix.one_mul]
  have hMM : M * Mᵀ = K1ᵀ * W⁻¹ * K1 := by
    rw [hMd, hWinv, Matrix.transpose_mul, Matrix.transpose_transpose, Matrix.transpose_transpose]
    simp only [Matrix.mul_assoc]
  -- the eigenvalues
  set a : Nat → Nat → ℝ := fun i j => ∑ t ∈ range n, nysM n1 k1 l t i * nysM n1 k1 l t j with ha
  have haM : ∀ i j : Fin n1, a i j = (Mᵀ * M) i j := by
    intro i j
    rw [Matrix.mul_apply, ha]
    simp only
    rw [sum_range]
    exact sum_congr rfl fun t _ => by rw [hM t i, hM t j, Matrix.transpose_apply]
  set V : Matrix (Fin n1) (Fin n1) ℝ := mf n1 n1 (E.lq.syevd n1 a).2.1 with hVd
  set w := (E.lq.syevd n1 a).2.2 with hw
  have hV : Vᵀ * V = 1 := by
    ext i j
    rw [Matrix.mul_apply, Matrix.one_apply]
    have := hQ.evOrth n1 a i i.2 j j.2
    rw [sum_range] at this
    refine Eq.trans this ?_
    by_cases hij : i = j
    · subst hij; simp
    · rw [if_neg hij, if_neg fun h => hij (Fin.ext h)]
  have hMtM : Mᵀ * M = V * diagonal (fun j : Fin n1 => w j) * Vᵀ := by
    have key : ∀ i j : Fin n1, i ≤ j → (Mᵀ * M) i j = (V * diagonal (fun j : Fin n1 => w j) * Vᵀ) i j := by
      intro i j hij
      rw [← haM, ← hQ.ev n1 a j j.2 i hij, Matrix.mul_apply, sum_range]
      refine sum_congr rfl fun t _ => ?_
      rw [Matrix.mul_diagonal]; rfl
    ext i j
    rcases le_total i j with h | h
    · exact key i j h
    · have e1 : (Mᵀ * M) i j = (Mᵀ * M) j i := by
        have : (Mᵀ * M)ᵀ = Mᵀ * M := by rw [Matrix.transpose_mul, Matrix.transpose_transpose]
        rw [← congrFun (congrFun this i) j, Matrix.transpose_apply]
      have e2 : (V * diagonal (fun j : Fin n1 => w j) * Vᵀ) i j = (V * diagonal (fun j : Fin n1 => w j) * Vᵀ) j i := by
        have : (V * diagonal (fun j : Fin n1 => w j) * Vᵀ)ᵀ = V * diagonal (fun j : Fin n1 => w j) * Vᵀ := by
          rw [Matrix.transpose_mul, Matrix.transpose_mul, Matrix.transpose_transpose, diagonal_transpose, Matrix.mul_assoc]
        rw [← congrFun (congrFun this i) j, Matrix.transpose_apply]
      rw [e1, e2]
      exact key j i h
  have heig : ∀ x, (∃ y : Fin n1 → ℝ, y ≠ 0 ∧ (K1 * K1ᵀ) *ᵥ y = x • (W *ᵥ y)) ↔ ∃ j : Fin n1, w j = x := by
    intro x
    rw [← small_eig_iff (w := fun j : Fin n1 => w j) hV hMtM x]
    have hKK : K1 * K1ᵀ = L * (Mᵀ * M) * Lᵀ := by
      calc K1 * K1ᵀ = (L * Mᵀ) * (L * Mᵀ)ᵀ := by rw [← hKM]
        _ = _ := by rw [Matrix.transpose_mul L, Matrix.transpose_transpose M]; simp only [Matrix.mul_assoc]
    have hNLt : Lᵀ * Niᵀ = 1 := by rw [← Matrix.transpose_mul, hNL, Matrix.transpose_one]
    have hNLt' : Niᵀ * Lᵀ = 1 := mul_eq_one_comm.1 hNLt
    constructor
    · rintro ⟨y, hy, he⟩
      refine ⟨Lᵀ *ᵥ y, ?_, ?_⟩
      · intro h0
        apply hy
        have : Niᵀ *ᵥ (Lᵀ *ᵥ y) = 0 := by rw [h0, Matrix.mulVec_zero]
        rwa [Matrix.mulVec_mulVec, hNLt', Matrix.one_mulVec] at this
      · rw [hKK, hWL] at he
        have := congrArg (fun z => Ni *ᵥ z) he
        simp only [Matrix.mulVec_smul, Matrix.mulVec_mulVec] at this ⊢
        have e1 : Ni * (L * (Mᵀ * M) * Lᵀ) = Mᵀ * M * Lᵀ := by
          rw [Matrix.mul_assoc L, ← Matrix.mul_assoc, hNL, Matrix.one_mul]
        have e2 : Ni * (L * Lᵀ) = Lᵀ := by rw [← Matrix.mul_assoc, hNL, Matrix.one_mul]
        rw [e1, e2] at this
        exact this
    · rintro ⟨y, hy, he⟩
      refine ⟨Niᵀ *ᵥ y, ?_, ?_⟩
      · intro h0
        apply hy
        have : Lᵀ *ᵥ (Niᵀ *ᵥ y) = 0 := by rw [h0, Matrix.mulVec_zero]
        rwa [Matrix.mulVec_mulVec, hNLt, Matrix.one_mulVec] at this
      · have := congrArg (fun z => L *ᵥ z) he
        rw [hKK, hWL]
        simp only [Matrix.mulVec_smul, Matrix.mulVec_mulVec] at this ⊢
        have e1 : L * (Mᵀ * M) * Lᵀ * Niᵀ = L * (Mᵀ * M) := by rw [Matrix.mul_assoc (L * (Mᵀ * M)), hNLt, Matrix.mul_one]
        have e2 : L * Lᵀ * Niᵀ = L := by rw [Matrix.mul_assoc, hNLt, Matrix.mul_one]
        rw [e1, e2]
        exact this
  have hw0 : ∀ j : Fin n1, 0 ≤ w j := by
    intro j
    obtain ⟨y, hy, he⟩ := (small_eig_iff (w := fun j : Fin n1 => w j) hV hMtM (w j)).2 ⟨j, rfl⟩
    have h2 : y ⬝ᵥ ((Mᵀ * M) *ᵥ y) = (M *ᵥ y) ⬝ᵥ (M *ᵥ y) := by
      rw [← Matrix.mulVec_mulVec, Matrix.dotProduct_mulVec, Matrix.vecMul_transpose]
    rw [he, dotProduct_smul, smul_eq_mul] at h2
    have h3 : 0 ≤ (M *ᵥ y) ⬝ᵥ (M *ᵥ y) := sum_nonneg fun i _ => mul_self_nonneg _
    have h4 : 0 < y ⬝ᵥ y := by
      rcases lt_or_eq_of_le (show 0 ≤ y ⬝ᵥ y from sum_nonneg fun i _ => mul_self_nonneg _) with h | h
      · exact h
      · exact absurd (dotProduct_self_eq_zero.1 h.symm) hy
    by_contra hneg
    have := mul_neg_of_neg_of_pos (not_le.1 hneg) h4
    linarith
  have hhi : 0 < w (n1 - 1) := by
    by_contra hle
    have hz : (fun j : Fin n1 => w j) = 0 := by
      funext j
      have := hQa n1 a j (n1 - 1) (by omega) (by omega)
      exact le_antisymm (this.trans (not_lt.1 hle)) (hw0 j)
    rw [hz] at hMtM
    have hM0 : Mᵀ * M = 0 := by rw [hMtM]; simp
    have hM1 : M = 0 := by
      have := Matrix.conjTranspose_mul_self_eq_zero (A := M)
      rw [Matrix.conjTranspose_eq_transpose_of_trivial] at this
      exact this.1 hM0
    apply hK1
    rw [hKM, hM1, Matrix.transpose_zero, Matrix.mul_zero]
  -- the numbers
  have hS : ∀ j : Fin n1, nysS E n1 w j = Real.sqrt (w j) := by
    intro j
    unfold nysS
    rw [if_neg (not_lt.2 (hw0 j))]
  have hlam : ∀ j : Fin n1, nysLam E n1 nu w j = max (w j - nu) 0 := by
    intro j
    unfold nysLam
    rw [hS, Real.mul_self_sqrt (hw0 j)]
    by_cases h : w j - nu < 0
    · rw [if_pos h, max_eq_right h.le]
    · rw [if_neg h, max_eq_left (not_lt.1 h)]
  have hinv : ∀ j : Fin n1, nysInvS E n1 w j = if ¬ Real.sqrt (w j) < Real.sqrt (w (n1 - 1)) * E.eps * 10 then 1 / Real.sqrt (w j) else 0 := by
    intro j
    unfold nysInvS
    rw [hS]
    by_cases h : Real.sqrt (w j) < Real.sqrt (w (n1 - 1)) * E.eps * 10
    · rw [if_pos h, if_neg (not_not.2 h)]
    · rw [if_neg h, if_pos h]
  have hfun := small_eig (w := fun j : Fin n1 => w j) (d := fun j => nysInvS E n1 w j) hV hMtM (fun x => ¬ Real.sqrt x < Real.sqrt (w (n1 - 1)) * E.eps * 10)
    (by
      intro x hx
      have h2 : 0 < Real.sqrt (w (n1 - 1)) * E.eps * 10 := by
        have := Real.sqrt_pos.2 hhi
        positivity
      exact Real.sqrt_pos.1 (lt_of_lt_of_le h2 (not_lt.1 hx)))
    hinv (fun x => (max (w 0 - nu) 0 + mu) / (max (x - nu) 0 + mu))
  rw [hMM] at hfun
  refine ⟨⟨fun i => (nysLam E n1 nu w 0 + mu) / (nysLam E n1 nu w i + mu),
    fun i j => ∑ t ∈ range n1, nysM n1 k1 l i t * ((E.lq.syevd n1 a).2.1 t j * nysInvS E n1 w j)⟩, w 0, w (n1 - 1), _, ?_, ?_, ?_, hw0 ⟨0, by omega⟩, hhi, hfun, ?_⟩
  · unfold nysBuild
    dsimp only
    rw [if_neg (by omega), hn, hnu, if_pos hinfo, hf]
  · refine ⟨(heig _).2 ⟨⟨0, by omega⟩, rfl⟩, fun x hx => ?_⟩
    obtain ⟨j, hj⟩ := (heig x).1 hx
    rw [← hj]
    exact hQa n1 a 0 j (Nat.zero_le _) j.2
  · refine ⟨(heig _).2 ⟨⟨n1 - 1, by omega⟩, rfl⟩, fun x hx => ?_⟩
    obtain ⟨j, hj⟩ := (heig x).1 hx
    rw [← hj]
    exact hQa n1 a j (n1 - 1) (by omega) (by omega)
  · intro x i
    set U := M * V * diagonal (fun j : Fin n1 => nysInvS E n1 w j) with hU
    have hu : ∀ (i : Fin n) (j : Fin n1), ∑ t ∈ range n1, nysM n1 k1 l i t * ((E.lq.syevd n1 a).2.1 t j * nysInvS E n1 w j) = U i j := by
      intro i j
      rw [hU, Matrix.mul_diagonal, Matrix.mul_apply, sum_range, sum_mul]
      refine sum_congr rfl fun t _ => ?_
      rw [hM i t, hVd, mul_assoc]; rfl
    unfold nysApply
    dsimp only
    have ht : ∀ j : Fin n1, (∑ r ∈ range n, (∑ t ∈ range n1, nysM n1 k1 l r t * ((E.lq.syevd n1 a).2.1 t j * nysInvS E n1 w j)) * x r) = (Uᵀ *ᵥ fun j => x j) j := by
      intro j
      rw [sum_range, Matrix.mulVec, dotProduct]
      exact sum_congr rfl fun r _ => by rw [hu r j, Matrix.transpose_apply]
    rw [Matrix.add_mulVec, Matrix.sub_mulVec, Matrix.one_mulVec, ← Matrix.mulVec_mulVec _ U, ← Matrix.mulVec_mulVec _ (U * diagonal _), ← Matrix.mulVec_mulVec _ U,
      Pi.add_apply, Pi.sub_apply]
    congr 1
    · congr 1
      rw [sum_range, Matrix.mulVec, dotProduct]
      exact sum_congr rfl fun j _ => by rw [hu i j, ht j]
    · rw [sum_range, Matrix.mulVec, dotProduct]
      refine sum_congr rfl fun j _ => ?_
      rw [hu i j, ht j, Matrix.mulVec_diagonal, hlam j, show nysLam E n1 nu w 0 = max (w 0 - nu) 0 from hlam ⟨0, by omega⟩]
      rw [mul_comm (_ / _)]

end H2Pack.AFN
