import Verif.Proof.RankEst1
import Verif.Proof.ULV11
import Verif.Proof.AFN2
import Verif.Proof.AFN3
import Verif.Props.Utils
import Mathlib.LinearAlgebra.Matrix.Charpoly.Coeff

/-! # The computed quantities of the rank estimation -/

namespace H2Pack.AFN
open Matrix
open H2Pack.ULV (Lapack fsub bsub permOf mf lowM upM permM lu_factor getrf_info fsub_inv bsub_inv permM_mulVec)

theorem luSolve1_eq {Lp : Lapack ℝ} (hL : Lp.Correct) {r : Nat} {a : Nat → Nat → ℝ} (hu : (mf r r a).det ≠ 0) (b : Nat → ℝ) (i : Fin r) :
    luSolve1 Lp r a b i = ((mf r r a)⁻¹ *ᵥ fun j : Fin r => b j) i := by
  obtain ⟨hp, hd, h1, _⟩ := lu_factor hL (getrf_info hL hu)
  unfold luSolve1
  generalize Lp.getrf r a = f at *
  rw [bsub_inv r f.2.2 _ hd i]
  have e1 : (fun i : Fin r => fsub true f.2.2 (fun i => b (permOf r f.2.1 i)) i) = (lowM true r f.2.2)⁻¹ *ᵥ (permM ℝ r (permOf r f.2.1) *ᵥ fun j : Fin r => b j) := by
    funext i
    rw [fsub_inv true r f.2.2 _ (by simp) i]
    congr 2
    funext j
    exact (permM_mulVec hp b j).symm
  rw [e1, Matrix.mulVec_mulVec, Matrix.mulVec_mulVec]
  congr 2
  symm
  apply Matrix.inv_eq_right_inv
  rw [Matrix.mul_assoc] at h1
  have := mul_eq_one_comm.1 h1
  rw [← this]
  simp only [Matrix.mul_assoc]

theorem mf_lead (n : Nat) (ks : Nat → Nat → ℝ) {r : Nat} (h : r ≤ n) : (mf n n ks).submatrix (Fin.castLE h) (Fin.castLE h) = mf r r ks := rfl

theorem knys_eq {Lp : Lapack ℝ} (hL : Lp.Correct) {n : Nat} {ks : Nat → Nat → ℝ} {r : Nat} (h : r ≤ n) (hu : (mf r r ks).det ≠ 0) (i j : Fin n) :
    knys Lp ks r i j = nysLead (mf n n ks) r h i j := by
  unfold knys nysLead
  rw [mf_lead, Matrix.mul_assoc, Matrix.mul_apply, Finset.sum_range]
  apply Finset.sum_congr rfl
  intro t _
  rw [luSolve1_eq hL hu]
  rfl

theorem sumSq_frob (n : Nat) (a : Nat → Nat → ℝ) : sumSq n a = ∑ i, ∑ j, (mf n n a) i j ^ 2 := by
  unfold sumSq
  rw [Finset.sum_range]
  apply Finset.sum_congr rfl
  intro i _
  rw [Finset.sum_range]
  apply Finset.sum_congr rfl
  intro j _
  rw [pow_two]
  rfl

theorem sqrt_sumSq (n : Nat) (a : Nat → Nat → ℝ) : Real.sqrt (sumSq n a) = frob (mf n n a) := by rw [sumSq_frob]; rfl

/-- The test of the search. -/
theorem rankTest_iff {Lp : Lapack ℝ} (hL : Lp.Correct) {n : Nat} (hn : 1 ≤ n) {ks : Nat → Nat → ℝ} (hA : (mf n n ks).PosDef) {r : Nat} (h : r ≤ n) :
    rankTest Lp n ks r = true ↔ frob (mf n n ks - nysLead (mf n n ks) r h) < 1 / 10 * frob (mf n n ks) := by
  have hf := frob_pos hA hn
  have hu : (mf r r ks).det ≠ 0 := by
    have := lead_posDef hA h
    rw [mf_lead] at this
    exact this.det_pos.ne'
  have e : frob (mf n n fun i j => ks i j - knys Lp ks r i j) = frob (mf n n ks - nysLead (mf n n ks) r h) := by
    congr 1
    ext i j
    show ks i j - knys Lp ks r i j = _
    rw [knys_eq hL h hu]
    rfl
  unfold rankTest
  rw [decide_eq_true_iff, sqrt_sumSq, sqrt_sumSq, e, div_lt_iff₀ hf]
  constructor
  · exact fun h => h.2.2
  · intro hlt
    refine ⟨getrf_info hL hu, ?_, hlt⟩
    intro h0
    rw [← sqrt_sumSq, h0, Real.sqrt_zero] at hf
    exact lt_irrefl _ hf

/-- The search finds the smallest rank. -/
theorem bsearch_rank {Lp : Lapack ℝ} (hL : Lp.Correct) {n : Nat} (hn : 1 ≤ n) {ks : Nat → Nat → ℝ} (hA : (mf n n ks).PosDef) :
    IsNysRank (mf n n ks) (bsearch (rankTest Lp n ks) 1 n) := by
  obtain ⟨h1, h2, h3, h4⟩ := bsearch_spec (rankTest Lp n ks) _ 1 n rfl hn
  set b := bsearch (rankTest Lp n ks) 1 n
  have hb : frob (mf n n ks - nysLead (mf n n ks) b h2) < 1 / 10 * frob (mf n n ks) := by
    rcases h3 with h3 | h3
    · have : frob (mf n n ks - nysLead (mf n n ks) n (le_refl n)) < 1 / 10 * frob (mf n n ks) := by
        rw [nysLead_full hA]
        have : frob (0 : Matrix (Fin n) (Fin n) ℝ) = 0 := by simp [frob]
        rw [this]
        have := frob_pos hA hn
        positivity
      exact lt_of_le_of_lt (frob_antitone hA (le_of_eq h3.symm) h2) this |>.trans_le (le_refl _)
    · exact (rankTest_iff hL hn hA h2).1 h3
  refine ⟨⟨h1, h2, hb⟩, ?_⟩
  rintro r ⟨hr1, hr, hlt⟩
  by_contra hc
  have hne : b ≠ 1 := by omega
  rcases h4 with h4 | h4
  · exact hne h4
  · have h5 : rankTest Lp n ks (b - 1) = true :=
      (rankTest_iff hL hn hA (by omega)).2 (lt_of_le_of_lt (frob_antitone hA (show r ≤ b - 1 by omega) (by omega)) hlt)
    rw [h4] at h5
    exact Bool.false_ne_true h5

/-! ## Eigenvalues -/

theorem count_above {Lq : H2Pack.SPD.Lapack2} (hQ : Lq.Correct) (n : Nat) (k : Nat → Nat → ℝ) (hk : ∀ i < n, ∀ j < n, k i j = k j i) (mu : ℝ) :
    (List.range n).countP (fun i => decide ((Lq.syevd n fun i j => k i j + if i = j then mu else 0).2.2 i > 11 / 10 * mu)) = nAbove (mf n n k) (mu / 10) := by
  have ho := hQ.evOrth n (fun i j => k i j + if i = j then mu else 0)
  have he := hQ.ev n (fun i j => k i j + if i = j then mu else 0)
  generalize Lq.syevd n (fun i j => k i j + if i = j then mu else 0) = f at *
  set V := mf n n f.2.1
  set w : Fin n → ℝ := fun i => f.2.2 i
  have hV : Vᵀ * V = 1 := by
    ext i j
    rw [Matrix.mul_apply, Matrix.one_apply]
    have := ho i i.2 j j.2
    rw [Finset.sum_range] at this
    simp only [Fin.val_inj] at this
    exact this
  have hV' : V * Vᵀ = 1 := mul_eq_one_comm.1 hV
  have hA : V * diagonal w * Vᵀ = mf n n k + mu • (1 : Matrix (Fin n) (Fin n) ℝ) := by
    have key : ∀ i j : Fin n, i ≤ j → (V * diagonal w * Vᵀ) i j = k i j + if i = j then mu else 0 := by
      intro i j hij
      rw [Matrix.mul_apply]
      simp only [Matrix.mul_diagonal, Matrix.transpose_apply]
      have := he j j.2 i hij
      rw [Finset.sum_range] at this
      simp only [Fin.val_inj] at this
      exact this
    have hs : (V * diagonal w * Vᵀ)ᵀ = V * diagonal w * Vᵀ := by
      simp only [Matrix.transpose_mul, Matrix.transpose_transpose, Matrix.diagonal_transpose, Matrix.mul_assoc]
    ext i j
    rw [Matrix.add_apply, Matrix.smul_apply, Matrix.one_apply]
    simp only [smul_eq_mul, mul_ite, mul_one, mul_zero]
    rcases le_total i j with h | h
    · exact key i j h
    · have := congrFun (congrFun hs i) j
      rw [Matrix.transpose_apply, key j i h] at this
      rw [← this, hk j j.2 i i.2]
      congr 1
      simp only [eq_comm]
  have hK : mf n n k = V * diagonal (fun i => w i - mu) * Vᵀ := by
    have : diagonal (fun i => w i - mu) = diagonal w - mu • (1 : Matrix (Fin n) (Fin n) ℝ) := by
      ext i j
      by_cases h : i = j
      · subst h; simp
      · simp [h]
    rw [this, Matrix.mul_sub, Matrix.sub_mul, hA, Matrix.mul_smul, Matrix.mul_one, Matrix.smul_mul, hV']
    simp
  have hchar : (mf n n k).charpoly = ∏ i, (Polynomial.X - Polynomial.C (w i - mu)) := by
    rw [hK, ← Matrix.charpoly_diagonal]
    have := Matrix.charpoly_units_conj (⟨V, Vᵀ, hV', hV⟩ : (Matrix (Fin n) (Fin n) ℝ)ˣ) (diagonal fun i => w i - mu)
    have hi : V⁻¹ = Vᵀ := Matrix.inv_eq_right_inv hV'
    rw [← hi]
    exact this
  unfold nAbove
  have hr : (∏ i : Fin n, (Polynomial.X - Polynomial.C (w i - mu))).roots = (Finset.univ.val : Multiset (Fin n)).map fun i => w i - mu := by
    have := Polynomial.roots_multiset_prod_X_sub_C ((Finset.univ.val : Multiset (Fin n)).map fun i => w i - mu)
    rw [Multiset.map_map] at this
    exact this
  rw [hchar, hr, Multiset.filter_map, Multiset.card_map]
  have e1 : (Finset.univ.val : Multiset (Fin n)) = (List.finRange n : Multiset (Fin n)) := rfl
  rw [e1, Multiset.filter_coe, Multiset.coe_card, ← List.countP_eq_length_filter, ← List.map_coe_finRange_eq_range, List.countP_map]
  apply List.countP_congr
  intro i _
  simp only [Function.comp_apply, decide_eq_true_eq]
  show w i > 11 / 10 * mu ↔ mu / 10 < w i - mu
  constructor <;> intro h <;> linarith

end H2Pack.AFN
