import Verif.Proof.FSAI2

/-! # The values of the FSAI matrix -/

namespace H2Pack.AFN
open H2Pack.ULV Finset Matrix

/-- The entries of the matrix `target F`. -/
noncomputable def tgt (F : FsaiIn) (i j : Nat) : ℝ :=
  F.kf (fun d => F.coord d i) (fun d => F.coord d j) + (if i = j then F.mu else 0) - ∑ t ∈ Finset.range F.n1, F.P i t * F.P j t

theorem target_eq (F : FsaiIn) (i j : Fin F.n) : target F i j = tgt F i j := by
  unfold target tgt
  by_cases h : i = j
  · rw [if_pos h, if_pos (congrArg Fin.val h)]
  · rw [if_neg h, if_neg (fun e => h (Fin.ext e))]

theorem tgt_symm (F : FsaiIn) (hk : ∀ x y, F.kf x y = F.kf y x) (i j : Nat) : tgt F i j = tgt F j i := by
  unfold tgt
  rw [hk]
  congr 1
  · congr 1
    by_cases h : i = j
    · rw [if_pos h, if_pos h.symm]
    · rw [if_neg h, if_neg (Ne.symm h)]
  · exact sum_congr rfl fun t _ => mul_comm _ _

theorem fsaiK_eq (F : FsaiIn) {L : List Nat} (hd : L.Nodup) : ∀ p < L.length, ∀ q ≤ p, fsaiK F L p q = tgt F (L.getD p 0) (L.getD q 0) := by
  intro p hp q hq
  unfold fsaiK tgt
  have e : (if p = q then F.mu else 0) = (if L.getD p 0 = L.getD q 0 then F.mu else 0) := by
    by_cases h : p = q
    · rw [if_pos h, if_pos (by rw [h])]
    · rw [if_neg h, if_neg]
      rw [List.getD_eq_getElem _ _ hp, List.getD_eq_getElem _ _ (by omega)]
      exact fun h' => h ((List.Nodup.getElem_inj_iff hd).1 h')
  dsimp only
  rw [e]
  by_cases h : 0 < F.n1
  · rw [if_pos ⟨h, hq⟩]
  · rw [if_neg (fun x => h x.1), show F.n1 = 0 by omega, range_zero, sum_empty, sub_zero]

/-- The last position. -/
theorem Lower.getD {m i : Nat} {L : List Nat} (h : Lower m i L) : 1 ≤ L.length ∧ L.getD (L.length - 1) 0 = i := by
  have h1 := h.last
  cases L with
  | nil => cases h1
  | cons a L =>
    refine ⟨by simp, ?_⟩
    rw [List.getD_eq_getElem _ _ (by simp)]
    rw [List.getLast?_eq_getElem?] at h1
    exact (List.getElem?_eq_some_iff.1 h1).2

/-- The equations for the values of one row. -/
structure RowOk (F : FsaiIn) (L : List Nat) (g : List ℝ) (z : ℝ) : Prop where
  len : g.length = L.length
  pos : 0 < z
  last : g.getD (L.length - 1) 0 = z
  eqn : ∀ q < L.length, ∑ p ∈ range L.length, g.getD p 0 * tgt F (L.getD p 0) (L.getD q 0) = if q = L.length - 1 then 1 / z else 0

theorem fsaiRow_spec (F : FsaiIn) (hL : F.lp.Correct) (hD : F.lp.Definite) (hk : ∀ x y, F.kf x y = F.kf y x) (hS : (target F).PosDef)
    {m i : Nat} {L : List Nat} (h : Lower m i L) (hi : i < F.n) : ∃ g z, fsaiRow F L = some g ∧ RowOk F L g z := by
  have hlt : ∀ j ∈ L, j < F.n := fun j hj => lt_of_le_of_lt (h.le j hj) hi
  have hpd := posDef_sub hS (target_eq F) hlt h.nodup
  obtain ⟨hc, hlast⟩ := h.getD
  have hinfo : (F.lp.potrf L.length (fsaiK F L)).1 = 0 := by
    rw [hD]
    convert hpd using 1
    ext p q
    simp only [Matrix.of_apply]
    by_cases hpq : q ≤ p
    · rw [if_pos hpq]; exact fsaiK_eq F h.nodup p p.2 q hpq
    · rw [if_neg hpq, tgt_symm F hk]; exact fsaiK_eq F h.nodup q q.2 p (le_of_lt (not_le.1 hpq))
  have hy := chol_solve hL (c := L.length) (T := fsaiK F L) (g := fun p q => tgt F (L.getD p 0) (L.getD q 0)) (fsaiK_eq F h.nodup)
    (fun p _ q _ => tgt_symm F hk _ _) hinfo (fun r => if r = L.length - 1 then 1 else 0)
  generalize hyd : bsub L.length (fun i j => (F.lp.potrf L.length (fsaiK F L)).2 j i) (fsub false (F.lp.potrf L.length (fsaiK F L)).2
    (fun r => if r = L.length - 1 then 1 else 0)) = y at hy
  have hpos : 0 < y (L.length - 1) := by
    have h1 := hpd.dotProduct_mulVec_pos (x := fun p : Fin L.length => y p) (by
      intro h0
      have h2 := hy (L.length - 1) (by omega)
      rw [if_pos rfl, sum_eq_zero] at h2
      · norm_num at h2
      · intro q hq
        have := congrFun h0 ⟨q, mem_range.1 hq⟩
        simp only [Pi.zero_apply] at this
        rw [this, mul_zero])
    have h3 : (Matrix.of fun p q : Fin L.length => tgt F (L.getD p 0) (L.getD q 0)) *ᵥ (fun p : Fin L.length => y p) =
        fun p : Fin L.length => if (p : Nat) = L.length - 1 then 1 else 0 := by
      funext p
      rw [← hy p p.2, sum_range]
      rfl
    rw [h3, dotProduct] at h1
    simp only [star_trivial] at h1
    rw [← Finset.sum_range (fun p => y p * if p = L.length - 1 then 1 else 0)] at h1
    rw [sum_eq_single (L.length - 1)] at h1
    · simpa using h1
    · intro b _ hb; rw [if_neg hb, mul_zero]
    · intro hn; exact absurd (mem_range.2 (by omega)) hn
  have hsq : 0 < √(y (L.length - 1)) := Real.sqrt_pos.2 hpos
  refine ⟨(List.range L.length).map (fun j => y j * (1 / √(y (L.length - 1)))), √(y (L.length - 1)), ?_, ?_⟩
  · unfold fsaiRow
    dsimp only
    rw [if_pos hinfo, hyd]
  · have hg : ∀ p < L.length, ((List.range L.length).map (fun j => y j * (1 / √(y (L.length - 1))))).getD p 0 = y p * (1 / √(y (L.length - 1))) := by
      intro p hp
      rw [List.getD_eq_getElem _ _ (by simpa using hp)]
      simp
    refine ⟨by simp, hsq, ?_, ?_⟩
    · rw [hg _ (by omega), mul_one_div]
      exact Real.div_sqrt
    · intro q hq
      have := hy q hq
      rw [show (if q = L.length - 1 then 1 / √(y (L.length - 1)) else 0) = (if q = L.length - 1 then 1 else 0) * (1 / √(y (L.length - 1))) by
        split <;> simp, ← this, sum_mul]
      refine sum_congr rfl fun p hp => ?_
      rw [hg p (mem_range.1 hp), tgt_symm F hk (L.getD p 0)]
      ring

/-- Entry `(i, j)` of the matrix. -/
noncomputable def gEntry (nn : Nat → List Nat) (vals : Nat → List ℝ) (i j : Nat) : ℝ :=
  ∑ p ∈ range (nn i).length, if (nn i).getD p 0 = j then (vals i).getD p 0 else 0

noncomputable def gMat (n : Nat) (nn : Nat → List Nat) (vals : Nat → List ℝ) : Matrix (Fin n) (Fin n) ℝ := fun i j => gEntry nn vals i j

theorem gMat_fsai (F : FsaiIn) {m : Nat} {nn : Nat → List Nat} (hn : ∀ i < F.n, Lower m i (nn i)) {vals : Nat → List ℝ}
    (hv : ∀ i < F.n, ∃ z, RowOk F (nn i) (vals i) z) : IsFSAI nn (target F) (gMat F.n nn vals) := by
  have hlt : ∀ i < F.n, ∀ j ∈ nn i, j < F.n := fun i hi j hj => lt_of_le_of_lt ((hn i hi).le j hj) hi
  have hpat : ∀ i < F.n, ∀ j, j ∉ nn i → gEntry nn vals i j = 0 := by
    intro i hi j hj
    refine sum_eq_zero fun p hp => if_neg fun e => hj ?_
    have hp := mem_range.1 hp
    rw [← e, List.getD_eq_getElem _ _ hp]
    exact List.getElem_mem hp
  have hat : ∀ i < F.n, ∀ p < (nn i).length, gEntry nn vals i ((nn i).getD p 0) = (vals i).getD p 0 := by
    intro i hi p hp
    unfold gEntry
    rw [sum_eq_single p]
    · rw [if_pos rfl]
    · intro q hq hqp
      have hq := mem_range.1 hq
      rw [if_neg]
      rw [List.getD_eq_getElem _ _ hp, List.getD_eq_getElem _ _ hq]
      exact fun h' => hqp ((List.Nodup.getElem_inj_iff (hn i hi).nodup).1 h')
    · intro h; exact absurd (mem_range.2 hp) h
  have hGS : ∀ i : Fin F.n, ∀ q < (nn i).length, ∀ j : Fin F.n, (nn i).getD q 0 = j → ∀ z, RowOk F (nn i) (vals i) z →
      (gMat F.n nn vals * target F) i j = if q = (nn i).length - 1 then 1 / z else 0 := by
    intro i q hq j hj z hz
    rw [← hz.eqn q hq, Matrix.mul_apply]
    rw [← sum_fiber (hlt i i.2) (fun p => (vals i).getD p 0) (fun t => tgt F t ((nn i).getD q 0)), sum_range]
    refine sum_congr rfl fun t _ => ?_
    rw [target_eq, hj]
    rfl
  refine ⟨fun i j hj => hpat i i.2 j hj, fun i => ?_, fun i => ?_, fun i j hj hji => ?_⟩
  · obtain ⟨z, hz⟩ := hv i i.2
    obtain ⟨hc, hl⟩ := (hn i i.2).getD
    have := hat i i.2 ((nn i).length - 1) (by omega)
    rw [hl, hz.last] at this
    show 0 < gEntry nn vals i i
    rw [this]; exact hz.pos
  · obtain ⟨z, hz⟩ := hv i i.2
    obtain ⟨hc, hl⟩ := (hn i i.2).getD
    have hlast := hat i i.2 ((nn i).length - 1) (by omega)
    rw [hl, hz.last] at hlast
    rw [Matrix.mul_apply, sum_eq_single i]
    · rw [hGS i ((nn i).length - 1) (by omega) i hl z hz, if_pos rfl, Matrix.transpose_apply]
      show 1 / z * gEntry nn vals i i = 1
      rw [hlast]
      have := hz.pos
      field_simp
    · intro j _ hji
      rw [Matrix.transpose_apply]
      by_cases hj : (j : Nat) ∈ nn i
      · obtain ⟨q, hq, hq'⟩ := List.mem_iff_getElem.1 hj
        have hq2 : (nn i).getD q 0 = j := by rw [List.getD_eq_getElem _ _ hq]; exact hq'
        rw [hGS i q hq j hq2 z hz, if_neg, zero_mul]
        rintro rfl
        exact hji (Fin.ext (by rw [← hq2, hl]))
      · show _ * gEntry nn vals i j = 0
        rw [hpat i i.2 j hj, mul_zero]
    · intro h; exact absurd (mem_univ i) h
  · obtain ⟨z, hz⟩ := hv i i.2
    obtain ⟨hc, hl⟩ := (hn i i.2).getD
    obtain ⟨q, hq, hq'⟩ := List.mem_iff_getElem.1 hj
    have hq2 : (nn i).getD q 0 = j := by rw [List.getD_eq_getElem _ _ hq]; exact hq'
    rw [hGS i q hq j hq2 z hz, if_neg]
    rintro rfl
    exact hji (Fin.ext (by rw [← hq2, hl]))

end H2Pack.AFN
