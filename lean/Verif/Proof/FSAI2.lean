import Verif.Proof.FSAI1
import Verif.Proof.ULV2
import Verif.Spec.ULVBlocks
import Mathlib.Data.List.GetD
import Mathlib.Tactic.FieldSimp
import Mathlib.Tactic.Positivity

/-! # One row of the FSAI matrix -/

namespace H2Pack.AFN
open H2Pack.ULV Finset Matrix

/-- Solving with the factor of POTRF. -/
theorem chol_solve {Lp : Lapack ℝ} (hL : Lp.Correct) {c : Nat} {T g : Nat → Nat → ℝ} (hT : ∀ i < c, ∀ j ≤ i, T i j = g i j)
    (hsym : ∀ i < c, ∀ j < c, g i j = g j i) (hinfo : (Lp.potrf c T).1 = 0) (b : Nat → ℝ) :
    ∀ p < c, ∑ q ∈ range c, g p q * bsub c (fun i j => (Lp.potrf c T).2 j i) (fsub false (Lp.potrf c T).2 b) q = b p := by
  have hd := hL.cholDiag c T hinfo
  generalize hf : (Lp.potrf c T).2 = f at hd ⊢
  have hg : mf c c g = lowM false c f * upM c (fun i j => f j i) := by
    ext i j
    have key : ∀ i < c, ∀ j ≤ i, g i j = ∑ t ∈ range c, (if t ≤ i then f i t else 0) * (if t ≤ j then f j t else 0) := by
      intro i hi j hj
      rw [← hT i hi j hj, ← hL.chol c T hinfo i hi j hj, hf, ← sum_range_add_sum_Ico _ (show j + 1 ≤ c by omega)]
      rw [sum_eq_zero (s := Ico (j + 1) c), add_zero]
      · refine sum_congr rfl fun t ht => ?_
        rw [mem_range] at ht
        rw [if_pos (by omega), if_pos (by omega)]
      · intro t ht
        rw [mem_Ico] at ht
        rw [if_neg (show ¬ t ≤ j by omega), mul_zero]
    have e : (lowM false c f * upM c (fun i j => f j i)) i j = ∑ t ∈ range c, (if t ≤ (i : Nat) then f i t else 0) * (if t ≤ (j : Nat) then f j t else 0) := by
      rw [Matrix.mul_apply, sum_range]
      refine sum_congr rfl fun t _ => ?_
      simp only [lowM, upM]
      congr 1
      rcases lt_trichotomy (t : Nat) i with h | h | h
      · rw [if_pos h, if_pos h.le]
      · have : i = t := Fin.ext h.symm
        subst this
        simp
      · rw [if_neg (by omega), if_neg (fun e => by rw [e] at h; exact lt_irrefl _ h), if_neg (by omega)]
    rw [e]
    show g i j = _
    rcases le_total (j : Nat) i with h | h
    · exact key i i.2 j h
    · rw [hsym i i.2 j j.2, key j j.2 i h]
      exact sum_congr rfl fun t _ => mul_comm _ _
  have hu : ∀ k < c, (fun i j => f j i) k k ≠ 0 := hd
  intro p hp
  have hy : (fun q : Fin c => bsub c (fun i j => f j i) (fsub false f b) q) =
      (upM c (fun i j => f j i))⁻¹ *ᵥ ((lowM false c f)⁻¹ *ᵥ fun i : Fin c => b i) := by
    funext q
    rw [bsub_inv c (fun i j => f j i) _ hu q]
    congr 1
    funext i
    exact fsub_inv false c f b (fun _ => hd) i
  have e2 : mf c c g *ᵥ ((upM c (fun i j => f j i))⁻¹ *ᵥ ((lowM false c f)⁻¹ *ᵥ fun i : Fin c => b i)) = fun i : Fin c => b i := by
    rw [hg, Matrix.mulVec_mulVec, Matrix.mulVec_mulVec, Matrix.mul_nonsing_inv_cancel_right _ _ (isUnit_upM c (fun i j => f j i) hu),
      Matrix.mul_nonsing_inv _ (isUnit_lowM false c f (fun _ => hd)), Matrix.one_mulVec]
  rw [← hy] at e2
  rw [sum_range]
  exact congrFun e2 ⟨p, hp⟩

/-- Sums over the entries of a list at given positions. -/
theorem sum_fiber {n : Nat} {L : List Nat} (hL : ∀ j ∈ L, j < n) (a f : Nat → ℝ) :
    ∑ j ∈ range n, (∑ p ∈ range L.length, if L.getD p 0 = j then a p else 0) * f j = ∑ p ∈ range L.length, a p * f (L.getD p 0) := by
  simp_rw [sum_mul]
  rw [sum_comm]
  refine sum_congr rfl fun p hp => ?_
  have hp := mem_range.1 hp
  have hlt : L.getD p 0 < n := hL _ (by rw [List.getD_eq_getElem _ _ hp]; exact List.getElem_mem hp)
  rw [sum_eq_single (L.getD p 0)]
  · rw [if_pos rfl]
  · intro j _ hj; rw [if_neg (Ne.symm hj), zero_mul]
  · intro h; exact absurd (mem_range.2 hlt) h

/-- A principal submatrix of a positive definite matrix, rows given by a list without repetition. -/
theorem posDef_sub {n : Nat} {S : Matrix (Fin n) (Fin n) ℝ} (hS : S.PosDef) {s : Nat → Nat → ℝ} (hs : ∀ i j : Fin n, S i j = s i j) {L : List Nat} (hL : ∀ j ∈ L, j < n) (hd : L.Nodup) :
    (Matrix.of fun p q : Fin L.length => s (L.getD p 0) (L.getD q 0)).PosDef := by
  have hlt : ∀ p : Fin L.length, L.getD p 0 < n := fun p => hL _ (by rw [List.getD_eq_getElem _ _ p.2]; exact List.getElem_mem p.2)
  have := hS.submatrix (e := fun p : Fin L.length => (⟨L.getD p 0, hlt p⟩ : Fin n)) (by
    intro p q h
    have h := congrArg Fin.val h
    simp only [List.getD_eq_getElem _ _ p.2, List.getD_eq_getElem _ _ q.2] at h
    exact Fin.ext ((List.Nodup.getElem_inj_iff hd).1 h))
  convert this using 1
  ext p q
  exact (hs ⟨_, hlt p⟩ ⟨_, hlt q⟩).symm

end H2Pack.AFN
