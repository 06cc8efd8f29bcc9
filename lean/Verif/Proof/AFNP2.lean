import Verif.Spec.AFNPrecond
import Verif.Proof.AFNP1
import Verif.Proof.SPD4
import Verif.Props.FSAI

/-! # The AFN preconditioner as a block matrix -/

namespace H2Pack.AFN
open H2Pack.ULV Finset Matrix

/-- The Cholesky factor in matrix form. -/
theorem chol_mat {Lp : Lapack ℝ} (hL : Lp.Correct) {c : Nat} {T g : Nat → Nat → ℝ} (hT : ∀ i < c, ∀ j ≤ i, T i j = g i j)
    (hsym : ∀ i < c, ∀ j < c, g i j = g j i) (hinfo : (Lp.potrf c T).1 = 0) :
    mf c c g = lowM false c (Lp.potrf c T).2 * (lowM false c (Lp.potrf c T).2)ᵀ := by
  generalize hf : (Lp.potrf c T).2 = f
  ext i j
  have key : ∀ i < c, ∀ j ≤ i, g i j = ∑ t ∈ range c, (if t ≤ i then f i t else 0) * (if t ≤ j then f j t else 0) := by
    intro i hi j hj
    rw [← hT i hi j hj, ← hL.chol c T hinfo i hi j hj, hf, ← sum_range_add_sum_Ico _ (show j + 1 ≤ c by omega)]
    rw [sum_eq_zero (s := Ico (j + 1) c), add_zero]
    · refine sum_congr rfl fun t ht => ?_
      rw [mem_range] at ht
      rw [if_pos (by omega), if_pos (by omega)]
    · intro t ht
      rw [mem_Ico] at ht
      rw [if_neg (show ¬ t ≤ j by omega), mul_zero]
  have hlow : ∀ i t : Fin c, lowM false c f i t = if (t : Nat) ≤ i then f i t else 0 := by
    intro i t
    simp only [lowM]
    rcases lt_trichotomy (t : Nat) i with h | h | h
    · rw [if_pos h, if_pos h.le]
    · have : i = t := Fin.ext h.symm
      subst this
      simp
    · rw [if_neg (by omega), if_neg (fun e => by rw [e] at h; exact lt_irrefl _ h), if_neg (by omega)]
  have e : (lowM false c f * (lowM false c f)ᵀ) i j = ∑ t ∈ range c, (if t ≤ (i : Nat) then f i t else 0) * (if t ≤ (j : Nat) then f j t else 0) := by
    rw [Matrix.mul_apply, sum_range]
    refine sum_congr rfl fun t _ => ?_
    rw [Matrix.transpose_apply, hlow, hlow]
  rw [e]
  show g i j = _
  rcases le_total (j : Nat) i with h | h
  · exact key i i.2 j h
  · rw [hsym i i.2 j j.2, key j j.2 i h]
    exact sum_congr rfl fun t _ => mul_comm _ _

theorem trInv_mf {d : Nat} {s : Nat → Nat → ℝ} (hd : ∀ k < d, s k k ≠ 0) : mf d d (trInv s) = (lowM false d s)⁻¹ := H2Pack.SPD.sInv_mf hd

/-- The position of a row of the block matrix. -/
def bpos (n1 n2 : Nat) : Fin n1 ⊕ Fin n2 → Nat
  | .inl i => i
  | .inr j => n1 + j

section
variable {E : Env} {kf : (Nat → ℝ) → (Nat → ℝ) → ℝ} {mu : ℝ} {n1 n2 : Nat} {pt : Nat → Nat → ℝ}

theorem afnBuild_spec (hL : E.lp.Correct) (hD : E.lp.Definite) (hk : ∀ x y, kf x y = kf y x)
    (hA : (A11 kf mu n1 pt).PosDef) (hS : (schur kf mu n1 n2 pt).PosDef)
    {m : Nat} {nn : Nat → List Nat} (hn : ∀ i < n2, Lower m i (nn i)) (ev : CsrEnv) (h1 : ev.ordG.Perm (List.range n2)) (h2 : ev.ordGT.Perm (List.range n2)) :
    ∃ (A : Afn) (G : Matrix (Fin n2) (Fin n2) ℝ),
      Returns (afnBuild E kf mu n1 n2 (fun i j => kf (pt i) (pt j)) (fun i j => kf (pt i) (pt (n1 + j))) (fun d j => pt (n1 + j) d) nn ev) (some A) ∧
      IsFSAI nn (schur kf mu n1 n2 pt) G ∧ (Gᵀ * G).PosDef ∧
      ∀ (x : Nat → ℝ) (s : Fin n1 ⊕ Fin n2), afnApply n1 n2 A x (bpos n1 n2 s) =
        ((fromBlocks (A11 kf mu n1 pt) (A12 kf n1 n2 pt) (A12 kf n1 n2 pt)ᵀ ((A12 kf n1 n2 pt)ᵀ * (A11 kf mu n1 pt)⁻¹ * A12 kf n1 n2 pt + (Gᵀ * G)⁻¹))⁻¹ *ᵥ
          fun t => x (bpos n1 n2 t)) s := by
  -- the Cholesky factor
  have hTeq : (Matrix.of fun i j : Fin n1 => if j ≤ i then (kf (pt i) (pt j) + if (i : Nat) = j then mu else 0) else (kf (pt j) (pt i) + if (j : Nat) = i then mu else 0)) =
      A11 kf mu n1 pt := by
    ext i j
    simp only [Matrix.of_apply, A11]
    by_cases hij : i = j
    · subst hij; simp
    · have hij' : ¬ (i : Nat) = j := fun h => hij (Fin.ext h)
      have hij'' : ¬ (j : Nat) = i := fun h => hij' h.symm
      rw [if_neg hij, if_neg hij', if_neg hij'', hk (pt j)]
      split <;> rfl
  have hinfo : (E.lp.potrf n1 (fun i j => kf (pt i) (pt j) + if i = j then mu else 0)).1 = 0 := by
    rw [hD]
    exact hTeq ▸ hA
  have hchol := chol_mat hL (c := n1) (g := fun i j => kf (pt i) (pt j) + if i = j then mu else 0) (fun _ _ _ _ => rfl) (by
    intro i _ j _
    rw [hk]
    by_cases h : i = j
    · subst h; rfl
    · rw [if_neg h, if_neg (Ne.symm h)]) hinfo
  have hdiag := hL.cholDiag n1 _ hinfo
  generalize hf : (E.lp.potrf n1 (fun i j => kf (pt i) (pt j) + if i = j then mu else 0)).2 = l at hchol hdiag
  have hA11 : A11 kf mu n1 pt = lowM false n1 l * (lowM false n1 l)ᵀ := by
    rw [← hchol]
    ext i j
    simp only [A11, mf]
    by_cases hij : i = j
    · subst hij; simp
    · rw [if_neg hij, if_neg (fun h => hij (Fin.ext h))]
  have hAinv : (A11 kf mu n1 pt)⁻¹ = (mf n1 n1 (trInv l))ᵀ * mf n1 n1 (trInv l) := by
    rw [hA11, Matrix.mul_inv_rev, trInv_mf hdiag, Matrix.transpose_nonsing_inv]
  have hpotri : mf n1 n1 (potriSym n1 l) = (A11 kf mu n1 pt)⁻¹ := by
    rw [hAinv]
    ext i j
    rw [Matrix.mul_apply]
    simp only [mf, potriSym, Matrix.transpose_apply]
    rw [← Finset.sum_range (fun t : Nat => trInv l t i * trInv l t j)]
    split
    · exact sum_congr rfl fun t _ => mul_comm _ _
    · rfl
  -- the target of FSAI
  set F : FsaiIn := ⟨E.lp, kf, n2, fun d j => pt (n1 + j) d, n1, fun i j => ∑ t ∈ Finset.range n1, kf (pt t) (pt (n1 + i)) * trInv l j t, mu⟩ with hF
  have htgt : target F = schur kf mu n1 n2 pt := by
    refine Matrix.ext fun (i j : Fin n2) => ?_
    have : ((A12 kf n1 n2 pt)ᵀ * (A11 kf mu n1 pt)⁻¹ * A12 kf n1 n2 pt) i j =
        ∑ t ∈ range n1, (∑ a ∈ range n1, kf (pt a) (pt (n1 + i)) * trInv l t a) * (∑ a ∈ range n1, kf (pt a) (pt (n1 + j)) * trInv l t a) := by
      rw [hAinv, ← Matrix.mul_assoc, Matrix.mul_assoc, Matrix.mul_apply, sum_range]
      refine sum_congr rfl fun t _ => ?_
      rw [Matrix.mul_apply, Matrix.mul_apply, sum_range, sum_range]
      congr 1
      exact sum_congr rfl fun a _ => mul_comm _ _
    show kf (pt (n1 + i)) (pt (n1 + j)) + (if i = j then mu else 0) - _ = A22 kf mu n1 n2 pt i j - _
    rw [this]
    rfl
  obtain ⟨M, r, b, c, d, e⟩ := C67_fsai F hL hD hk (htgt ▸ hS) (nn := nn) hn ev h1 h2
  refine ⟨⟨potriSym n1 l, fun i j => kf (pt i) (pt (n1 + j)), M⟩, dense n2 M.g, ?_, htgt ▸ b, d, ?_⟩
  · obtain ⟨F0, hF0⟩ := r
    refine ⟨F0, fun fuel hfu => ?_⟩
    unfold afnBuild
    dsimp only
    rw [if_pos hinfo, hf]
    have := hF0 fuel hfu
    rw [hF] at this
    rw [this]
    rfl
  · obtain ⟨p1, p2⟩ := afn_block hA (A12 kf n1 n2 pt) d
    intro x s
    have e : ∀ (x : Nat → ℝ) (i : Fin n2), fsaiApply M x i = (((dense n2 M.g)ᵀ * dense n2 M.g) *ᵥ fun j => x j) i := e
    rw [← p2]
    generalize (dense n2 M.g)ᵀ * dense n2 M.g = H at e
    have ex : (fun t => x (bpos n1 n2 t)) = Sum.elim (fun i : Fin n1 => x i) (fun j : Fin n2 => x (n1 + j)) := by
      funext t; cases t <;> rfl
    rw [ex, Matrix.fromBlocks_mulVec]
    have t11 : (fun i : Fin n1 => ∑ j ∈ range n1, potriSym n1 l i j * x j) = (A11 kf mu n1 pt)⁻¹ *ᵥ fun i : Fin n1 => x i := by
      funext i
      rw [← hpotri, sum_range]; rfl
    have t12 : (fun i : Fin n2 => x (n1 + i) - ∑ j ∈ range n1, kf (pt j) (pt (n1 + i)) * (∑ t ∈ range n1, potriSym n1 l j t * x t)) =
        (fun j : Fin n2 => x (n1 + j)) - (A12 kf n1 n2 pt)ᵀ *ᵥ ((A11 kf mu n1 pt)⁻¹ *ᵥ fun i : Fin n1 => x i) := by
      funext i
      rw [← t11, Pi.sub_apply, sum_range]
      rfl
    generalize hy2 : fsaiApply M (fun i => x (n1 + i) - ∑ j ∈ range n1, kf (pt j) (pt (n1 + i)) * (∑ t ∈ range n1, potriSym n1 l j t * x t)) = y2
    have hy2' : (fun i : Fin n2 => y2 i) = H *ᵥ ((fun j : Fin n2 => x (n1 + j)) - (A12 kf n1 n2 pt)ᵀ *ᵥ ((A11 kf mu n1 pt)⁻¹ *ᵥ fun i : Fin n1 => x i)) := by
      funext i
      rw [← hy2, e, ← t12]
    cases s with
    | inl i =>
      rw [Sum.elim_inl]
      show (if (i : Nat) < n1 then _ else _) = _
      rw [if_pos i.2]
      dsimp only
      rw [hy2]
      have t21 : (fun i : Fin n1 => x i - ∑ j ∈ range n2, kf (pt i) (pt (n1 + j)) * y2 j) = (fun i : Fin n1 => x i) - A12 kf n1 n2 pt *ᵥ fun i : Fin n2 => y2 i := by
        funext i
        rw [Pi.sub_apply, sum_range]; rfl
      have : (∑ j ∈ range n1, potriSym n1 l i j * (x j - ∑ t ∈ range n2, kf (pt j) (pt (n1 + t)) * y2 t)) =
          ((A11 kf mu n1 pt)⁻¹ *ᵥ ((fun i : Fin n1 => x i) - A12 kf n1 n2 pt *ᵥ fun i : Fin n2 => y2 i)) i := by
        rw [← t21, ← hpotri, sum_range]; rfl
      refine this.trans ?_
      rw [hy2']
      simp only [Sum.elim_comp_inl, Sum.elim_comp_inr, Matrix.mulVec_sub, Matrix.add_mulVec, Matrix.neg_mulVec, Matrix.mulVec_mulVec, Pi.add_apply, Pi.sub_apply, Pi.neg_apply, Matrix.mul_assoc]
      ring
    | inr j =>
      rw [Sum.elim_inr]
      show (if n1 + (j : Nat) < n1 then _ else _) = _
      rw [if_neg (by omega)]
      dsimp only
      have e0 : bpos n1 n2 (Sum.inr j) - n1 = j := by
        show n1 + (j : Nat) - n1 = j
        omega
      rw [hy2, e0]
      have := congrFun hy2' j
      rw [this]
      simp only [Sum.elim_comp_inl, Sum.elim_comp_inr, Matrix.mulVec_sub, Matrix.neg_mulVec, Matrix.mulVec_mulVec, Pi.add_apply, Pi.sub_apply, Pi.neg_apply, Matrix.mul_assoc]
      ring

end

end H2Pack.AFN
