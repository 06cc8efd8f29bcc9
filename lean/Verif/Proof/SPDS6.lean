import Verif.Proof.SPDS5

set_option linter.unusedSectionVars false

/-! # Sampling: the samples -/

namespace H2Pack.SPD
open H2Pack.MV
open H2Pack.Part (Arr kids Desc ClusterTree)
open H2Pack.ULV (InRow loop loop_snoc comparable row_desc leaf_desc)
open Finset (range sum_congr mem_range sum_comm sum_add_distrib mul_sum sum_mul)

section
variable {R : Rep ℝ}

theorem adm_row {MB : Meta} {getB : Nat → Nat → Blk ℝ} (hT : TableB R MB getB) (W : Nat → Nat → Nat → ℝ) (x : Nat → ℝ) (r : Nat) {i : Nat} (hi : i < R.adm.length)
    (hs : (getB R.adm[i].1 R.adm[i].2).use.1 = (R.B i).nrow) :
    ∑ c ∈ range (getB R.adm[i].1 R.adm[i].2).use.1, side R W R.adm[i].1 R.adm[i].2 r c * prodB R W x getB R.adm[i].1 R.adm[i].2 c =
      ∑ q ∈ range R.size, admEntry R W i r q * x q := by
  rw [hs, sum_congr rfl (fun c hc => by rw [hT.row i hi W x c (mem_range.1 hc)])]
  unfold admEntry zSide
  rw [getD_adm hi]
  simp only [mul_sum, sum_mul]
  rw [sum_congr rfl (fun c _ => sum_comm), sum_comm]
  apply sum_congr rfl
  intro q _
  apply sum_congr rfl
  intro c _
  apply sum_congr rfl
  intro d _
  ring

theorem adm_col {MB : Meta} {getB : Nat → Nat → Blk ℝ} (hT : TableB R MB getB) (W : Nat → Nat → Nat → ℝ) (x : Nat → ℝ) (r : Nat) {i : Nat} (hi : i < R.adm.length)
    (hs : (getB R.adm[i].2 R.adm[i].1).use.1 = (R.B i).ncol) :
    ∑ c ∈ range (getB R.adm[i].2 R.adm[i].1).use.1, side R W R.adm[i].2 R.adm[i].1 r c * prodB R W x getB R.adm[i].2 R.adm[i].1 c =
      ∑ q ∈ range R.size, admEntry R W i q r * x q := by
  rw [hs, sum_congr rfl (fun c hc => by rw [hT.col i hi W x c (mem_range.1 hc)])]
  unfold admEntry zSide
  rw [getD_adm hi]
  simp only [mul_sum, sum_mul]
  rw [sum_comm, sum_congr rfl (fun c _ => sum_comm), sum_comm]
  apply sum_congr rfl
  intro q _
  apply sum_congr rfl
  intro c _
  apply sum_congr rfl
  intro d _
  ring

theorem inadm_row (h : WF R) {MD : Meta} {getD : Nat → Nat → Blk ℝ} (hT : TableD R MD getD) (x : Nat → ℝ) {r i : Nat} (hi : i < R.inadm.length)
    (hr : InRow R R.inadm[i].1 r) : prodD R x getD R.inadm[i].1 R.inadm[i].2 (r - R.rowS R.inadm[i].1) = ∑ q ∈ range R.size, inadmEntry R i r q * x q := by
  have hn := h.inadmNode _ (List.getElem_mem hi)
  have hd := h.d1 i hi
  have := hr.1; have := hr.2
  unfold inadmEntry
  rw [getD_inadm hi, ← block_row hd.1 hd.2 (le_of_lt (rowS_lt_rowE h hn.2)) (rowE_le_size h hn.2) x r, pick_sum, hd.1,
    show R.rowS R.inadm[i].1 + (R.rowE R.inadm[i].1 - R.rowS R.inadm[i].1) = R.rowE R.inadm[i].1 by omega, if_pos ⟨hr.1, hr.2⟩,
    hT.row i hi _ _ (by rw [hd.1]; omega)]

theorem inadm_col (h : WF R) {MD : Meta} {getD : Nat → Nat → Blk ℝ} (hT : TableD R MD getD) (x : Nat → ℝ) {r i : Nat} (hi : i < R.inadm.length)
    (hr : InRow R R.inadm[i].2 r) : prodD R x getD R.inadm[i].2 R.inadm[i].1 (r - R.rowS R.inadm[i].2) = ∑ q ∈ range R.size, inadmEntry R i q r * x q := by
  have hn := h.inadmNode _ (List.getElem_mem hi)
  have hd := h.d1 i hi
  have := hr.1; have := hr.2
  unfold inadmEntry
  rw [getD_inadm hi, ← block_col hd.1 hd.2 (le_of_lt (rowS_lt_rowE h hn.1)) (rowE_le_size h hn.1) x r, pick_sum, hd.2,
    show R.rowS R.inadm[i].2 + (R.rowE R.inadm[i].2 - R.rowS R.inadm[i].2) = R.rowE R.inadm[i].2 by omega, if_pos ⟨hr.1, hr.2⟩,
    hT.col i hi _ _ (by rw [hd.2]; omega)]

theorem admEntry_off (h : WF R) {W : Nat → Nat → Nat → ℝ} (hW : Nested R W) {i : Nat} (hi : i < R.adm.length) {r q : Nat}
    (hz : ¬ (InRow R R.adm[i].1 r ∧ InRow R R.adm[i].2 q)) : admEntry R W i r q = 0 := by
  have hn := h.admNode _ (List.getElem_mem hi)
  have hl := h.admLevel _ (List.getElem_mem hi)
  unfold admEntry
  rw [getD_adm hi]
  apply Finset.sum_eq_zero
  intro c hc
  apply Finset.sum_eq_zero
  intro d hd
  rw [mem_range, h.bRow i hi] at hc
  rw [mem_range, h.bCol i hi] at hd
  by_cases h0 : InRow R R.adm[i].1 r
  · rw [side_zero h hW hn.2 (by omega) hd (fun e => hz ⟨h0, e⟩), mul_zero]
  · rw [side_zero h hW hn.1 hl hc h0, zero_mul, zero_mul]

theorem inadmEntry_off {i : Nat} (hi : i < R.inadm.length) {r q : Nat}
    (hz : ¬ (InRow R R.inadm[i].1 r ∧ InRow R R.inadm[i].2 q)) : inadmEntry R i r q = 0 := by
  unfold inadmEntry blockEntry
  rw [getD_inadm hi]
  exact if_neg hz

/-- The samples with abstract tables. -/
theorem acc_core (h : WF R) {W : Nat → Nat → Nat → ℝ} (hW : Nested R W) {MB MD : Meta} {getB getD : Nat → Nat → Blk ℝ} (hT : Tables R MB MD getB getD)
    (hlow : ∀ v < R.arr.nNode, R.arr.level v < R.minAdm → (R.U v).nrow = 0) (hmin : 1 ≤ R.minAdm) {E : MMEnv ℝ} (hE : E.Valid R)
    {ord : Nat → List Nat} (hord : ∀ l, (ord l).Perm (R.levelList l)) {lf : List Nat} (hlf : lf.Perm ((List.range R.arr.nLeaf).map R.leaf))
    {nvec : Nat} (hnv : 0 < nvec) (vec : Nat → ℝ) :
    ∃ Y, accWith R MB MD getB getD E ord lf nvec vec = .ok Y ∧ Sampled R nvec Y ∧ Samples R (seenEntry R W) nvec vec Y := by
  obtain ⟨exU, e1, hex⟩ := explicitU_ok h hW hlow hmin ord hord
  obtain ⟨Y1, Y2, e2, e3, hY⟩ := totals h hW hT hE hnv vec exU hex
  have hleaf : ∀ v, v ∈ lf ↔ v < R.arr.nNode ∧ R.arr.nChild v = 0 := by
    intro v
    rw [hlf.mem_iff, List.mem_map]
    constructor
    · rintro ⟨i, hi, rfl⟩
      exact (H2Pack.Part.leaf_inj h.tree).2.1 i (List.mem_range.1 hi)
    · rintro ⟨hv, h0⟩
      obtain ⟨i, hi, rfl⟩ := H2Pack.ULV.leaf_surj h hv h0
      exact ⟨i, List.mem_range.2 hi, rfl⟩
  refine ⟨repack R nvec lf (prefixY R.size nvec R.arr.maxLevel Y2), ?_, ⟨?_, ?_⟩, ?_⟩
  · unfold accWith
    rw [e1]
    change (loop (fun Y n0 => loop (samplePairD R nvec vec getD n0) (rowCols MD n0) Y) E.ordD (fun _ => 0)).bind _ = _
    rw [e2]
    change (loop (fun Y n0 => loop (samplePairB R nvec vec exU (mmFwd R E ⟨false, nvec, nvec⟩ nvec vec) getB n0) (rowCols MB n0) Y)
        ((List.range' R.minAdm (R.arr.maxLevel + 1 - R.minAdm)).reverse.flatMap E.bwdOrd) Y1).bind _ = _
    rw [e3]
    rfl
  · intro v hv h0 l hl
    have := h.tree.levelLe v hv
    exact ⟨_, (repack_ok _ hv (by omega)).1 ((hleaf v).2 ⟨hv, h0⟩) hl⟩
  · intro v hv l hl hc
    refine ⟨_, (repack_ok _ hv hl).2 ?_⟩
    rcases hc with hc | hc
    · left; intro hm; exact hc ((hleaf v).1 hm).2
    · right; exact hc
  · intro v hv h0 l hl u hu d hlu
    have hM := h.tree.levelLe v hv
    refine ⟨_, (repack_ok _ hv (by omega)).1 ((hleaf v).2 ⟨hv, h0⟩) hl, ?_⟩
    intro i hi j hj
    have hSE := rowE_le_size h hv
    set m := R.arr.level v - 1 - l with hm
    have hadr : R.rowS v * (nvec * R.arr.maxLevel) + m * nvec + (i * (nvec * R.arr.maxLevel) + j) = cell nvec R.arr.maxLevel (R.rowS v + i) m j := by
      unfold cell; ring
    have hr : InRow R v (R.rowS v + i) := ⟨by omega, by omega⟩
    have hlm : R.arr.level u = m + 1 := by omega
    beta_reduce
    rw [hadr, prefixY_spec Y2 (by omega) (by omega) hj, sum_congr rfl (fun k hk => hY _ k (by rw [mem_range] at hk; omega) j hj)]
    generalize R.rowS v + i = r at hr ⊢
    rw [sum_add_distrib, sum_comm, sum_comm (s := range (m + 1)) (t := range R.adm.length)]
    have hD : ∀ t ∈ range R.inadm.length, (∑ k ∈ range (m + 1), (cD R nvec vec getD r k j (R.inadm.getD t (0, 0)).1 (R.inadm.getD t (0, 0)).2 +
          cD R nvec vec getD r k j (R.inadm.getD t (0, 0)).2 (R.inadm.getD t (0, 0)).1)) =
        ∑ q ∈ range R.size, if R.rowS u ≤ q ∧ q < R.rowE u then 0 else (inadmEntry R t r q + inadmEntry R t q r) * vec (q * nvec + j) := by
      intro t ht
      rw [mem_range] at ht
      have hA := hT.inadm t ht
      rw [getD_inadm ht, sum_add_distrib, cD_sum _ _ _ _ _ _ _ _ (hA.ne h), cD_sum _ _ _ _ _ _ _ _ (hA.ne h).symm]
      have q1 := dir_sum h hv h0 hu d hlm hr hA (fun q => inadmEntry R t r q) (colV nvec vec j) (fun q hq => inadmEntry_off ht hq)
      have q2 := dir_sum h hv h0 hu d hlm hr hA.symm (fun q => inadmEntry R t q r) (colV nvec vec j) (fun q hq => inadmEntry_off ht (fun hh => hq hh.symm))
      rw [show (if InRow R R.inadm[t].1 r ∧ (commonLevel R.arr R.inadm[t].1 R.inadm[t].2).toNat ≤ m then
          prodD R (colV nvec vec j) getD R.inadm[t].1 R.inadm[t].2 (r - R.rowS R.inadm[t].1) else 0) =
          if InRow R R.inadm[t].1 r ∧ (commonLevel R.arr R.inadm[t].1 R.inadm[t].2).toNat ≤ m then ∑ q ∈ range R.size, inadmEntry R t r q * colV nvec vec j q else 0 by
        split
        · next hc => exact inadm_row h hT.tD _ ht hc.1
        · rfl, q1,
        show (if InRow R R.inadm[t].2 r ∧ (commonLevel R.arr R.inadm[t].2 R.inadm[t].1).toNat ≤ m then
          prodD R (colV nvec vec j) getD R.inadm[t].2 R.inadm[t].1 (r - R.rowS R.inadm[t].2) else 0) =
          if InRow R R.inadm[t].2 r ∧ (commonLevel R.arr R.inadm[t].2 R.inadm[t].1).toNat ≤ m then ∑ q ∈ range R.size, inadmEntry R t q r * colV nvec vec j q else 0 by
        split
        · next hc => exact inadm_col h hT.tD _ ht hc.1
        · rfl, q2, ← sum_add_distrib]
      apply sum_congr rfl
      intro q _
      unfold colV
      split
      · ring
      · ring
    have hB : ∀ t ∈ range R.adm.length, (∑ k ∈ range (m + 1),
          ((if R.minAdm ≤ R.arr.level (R.adm.getD t (0, 0)).1 then cB R W nvec vec getB r k j (R.adm.getD t (0, 0)).1 (R.adm.getD t (0, 0)).2 else 0) +
           (if R.minAdm ≤ R.arr.level (R.adm.getD t (0, 0)).2 then cB R W nvec vec getB r k j (R.adm.getD t (0, 0)).2 (R.adm.getD t (0, 0)).1 else 0))) =
        ∑ q ∈ range R.size, if R.rowS u ≤ q ∧ q < R.rowE u then 0 else
          ((if R.minAdm ≤ R.arr.level (R.adm.getD t (0, 0)).1 then admEntry R W t r q else 0) +
           (if R.minAdm ≤ R.arr.level (R.adm.getD t (0, 0)).2 then admEntry R W t q r else 0)) * vec (q * nvec + j) := by
      intro t ht
      rw [mem_range] at ht
      have hA := hT.adm t ht
      obtain ⟨s1, s2⟩ := hT.sizeB t ht
      rw [getD_adm ht, sum_add_distrib]
      have q1 := dir_sum h hv h0 hu d hlm hr hA (fun q => admEntry R W t r q) (colV nvec vec j) (fun q hq => admEntry_off h hW ht hq)
      have q2 := dir_sum h hv h0 hu d hlm hr hA.symm (fun q => admEntry R W t q r) (colV nvec vec j) (fun q hq => admEntry_off h hW ht (fun hh => hq hh.symm))
      rw [← adm_row hT.tB W _ r ht s1, ← cB_sum W _ _ _ _ _ _ _ _ (hA.ne h)] at q1
      rw [← adm_col hT.tB W _ r ht s2, ← cB_sum W _ _ _ _ _ _ _ _ (hA.ne h).symm] at q2
      by_cases c1 : R.minAdm ≤ R.arr.level R.adm[t].1 <;> by_cases c2 : R.minAdm ≤ R.arr.level R.adm[t].2
      · simp only [if_pos c1, if_pos c2]
        rw [q1, q2, ← sum_add_distrib]
        apply sum_congr rfl
        intro q _
        unfold colV
        split <;> ring
      · simp only [if_pos c1, if_neg c2, Finset.sum_const_zero, add_zero]
        rw [q1]; rfl
      · simp only [if_pos c2, if_neg c1, Finset.sum_const_zero, zero_add]
        rw [q2]; rfl
      · simp only [if_neg c2, if_neg c1, Finset.sum_const_zero, add_zero, zero_mul, ite_self]
    rw [sum_congr rfl hD, sum_congr rfl hB, sum_comm, sum_comm (s := range R.adm.length), ← sum_add_distrib]
    apply sum_congr rfl
    intro q hq
    rw [mem_range] at hq
    by_cases hqu : R.rowS u ≤ q ∧ q < R.rowE u
    · simp only [if_pos hqu, Finset.sum_const_zero, add_zero]
    · simp only [if_neg hqu]
      unfold seenEntry
      have hz : (∑ i ∈ range R.arr.nLeaf, blockEntry R (R.leaf i) (R.leaf i) (R.D i) r q) = 0 := by
        apply Finset.sum_eq_zero
        intro k hk
        have hlk := (H2Pack.Part.leaf_inj h.tree).2.1 k (mem_range.1 hk)
        unfold blockEntry
        rw [if_neg]
        rintro ⟨hrk, hqk⟩
        have dv : Desc R.arr v (R.leaf k) ∨ Desc R.arr (R.leaf k) v := comparable h hv hlk.1 hr hrk
        rcases dv with dv | dv
        · have := leaf_desc dv hlk.2
          apply hqu
          exact row_desc h hu d (this ▸ hqk)
        · have := leaf_desc dv h0
          apply hqu
          exact row_desc h hu d (this ▸ hqk)
      rw [hz, add_zero, ← sum_mul, ← sum_mul, ← add_mul]
      congr 1
      rw [add_comm]

end
end H2Pack.SPD
