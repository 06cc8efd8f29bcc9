import Verif.Proof.SPDS4
import Verif.Spec.SPDSample

set_option linter.unusedSectionVars false

/-! # Sampling: the result -/

namespace H2Pack.SPD
open H2Pack.MV
open H2Pack.Part (Arr kids Desc ClusterTree)
open H2Pack.ULV (InRow loop loop_snoc comparable row_desc leaf_desc)
open Finset (range sum_congr mem_range sum_comm sum_add_distrib mul_sum sum_mul)

section
variable {R : Rep ℝ}

/-- For a leaf `v`, a row `r` of it and a node `u` above it: the rows of the second node of a pair are all outside `u` or all inside. -/
theorem pair_side (h : WF R) {v u a b r m : Nat} (hv : v < R.arr.nNode) (h0 : R.arr.nChild v = 0) (hu : u < R.arr.nNode) (d : Desc R.arr v u)
    (hl : R.arr.level u = m + 1) (hr : InRow R v r) (hA : Apart R a b) (ha : InRow R a r) :
    ((commonLevel R.arr a b).toNat ≤ m → ∀ q, InRow R b q → ¬ InRow R u q) ∧ (m < (commonLevel R.arr a b).toNat → ∀ q, InRow R b q → InRow R u q) := by
  obtain ⟨_, c2, c3, c4⟩ := commonLevel_spec h hA.fst hA.snd hA.rows
  rcases comparable h hA.fst hu ha (row_desc h hu d hr) with dau | dua
  · have hiff := c4 u hu dau
    constructor
    · intro hm q hq hqu
      rcases comparable h hA.snd hu hq hqu with e | e
      · have := hiff.1 e; omega
      · exact hA.rows r ⟨ha, row_desc h hA.snd e (row_desc h hu dau ha)⟩
    · intro hm q hq
      exact row_desc h hu (hiff.2 (by omega)) hq
  · have := (desc_level h.tree dua hA.fst).1
    constructor
    · intro _ q hq hqu
      exact hA.rows q ⟨row_desc h hA.fst dua hqu, hq⟩
    · intro hm; omega

theorem dir_sum (h : WF R) {v u a b r m : Nat} (hv : v < R.arr.nNode) (h0 : R.arr.nChild v = 0) (hu : u < R.arr.nNode) (d : Desc R.arr v u)
    (hl : R.arr.level u = m + 1) (hr : InRow R v r) (hA : Apart R a b) (F x : Nat → ℝ) (hF : ∀ q, ¬ (InRow R a r ∧ InRow R b q) → F q = 0) :
    (if InRow R a r ∧ (commonLevel R.arr a b).toNat ≤ m then ∑ q ∈ range R.size, F q * x q else 0) =
      ∑ q ∈ range R.size, if R.rowS u ≤ q ∧ q < R.rowE u then 0 else F q * x q := by
  by_cases ha : InRow R a r
  · obtain ⟨p1, p2⟩ := pair_side h hv h0 hu d hl hr hA ha
    by_cases hm : (commonLevel R.arr a b).toNat ≤ m
    · rw [if_pos ⟨ha, hm⟩]
      apply sum_congr rfl
      intro q _
      by_cases hq : InRow R b q
      · exact (if_neg (p1 hm q hq)).symm
      · rw [hF q (fun hh => hq hh.2), zero_mul]; simp
    · rw [if_neg (fun hh => hm hh.2)]
      symm
      apply Finset.sum_eq_zero
      intro q _
      by_cases hq : InRow R b q
      · exact if_pos (p2 (by omega) q hq)
      · rw [hF q (fun hh => hq hh.2), zero_mul]; simp
  · rw [if_neg (fun hh => ha hh.1)]
    symm
    apply Finset.sum_eq_zero
    intro q _
    rw [hF q (fun hh => ha hh.1), zero_mul]; simp

theorem side_zero (h : WF R) {W : Nat → Nat → Nat → ℝ} (hW : Nested R W) {v w r c : Nat} (hv : v < R.arr.nNode)
    (hl : R.minAdm ≤ max (R.arr.level v) (R.arr.level w)) (hc : c < if R.arr.level w ≤ R.arr.level v then (R.U v).ncol else R.rowE v - R.rowS v)
    (hr : ¬ InRow R v r) : side R W v w r c = 0 := by
  unfold side
  split
  · next hle =>
    rw [if_pos hle] at hc
    exact nested_zero h hW v hv (by omega) r hr c hc
  · next hle =>
    rw [if_neg hle] at hc
    rw [if_neg]
    intro e
    exact hr ⟨by omega, by omega⟩

theorem cD_sum (n0 n1 m r j nvec : Nat) (vec : Nat → ℝ) (get : Nat → Nat → Blk ℝ) (hne : n0 ≠ n1) :
    ∑ l ∈ range (m + 1), cD R nvec vec get r l j n0 n1 =
      if InRow R n0 r ∧ (commonLevel R.arr n0 n1).toNat ≤ m then prodD R (colV nvec vec j) get n0 n1 (r - R.rowS n0) else 0 := by
  unfold cD
  rw [sum_congr rfl (fun l _ => if_neg hne)]
  by_cases hc : InRow R n0 r ∧ (commonLevel R.arr n0 n1).toNat ≤ m
  · rw [if_pos hc, Finset.sum_eq_single (commonLevel R.arr n0 n1).toNat, if_pos ⟨hc.1, rfl⟩]
    · intro l _ hl; rw [if_neg (fun hh => hl hh.2.symm)]
    · intro hh; exact absurd (mem_range.2 (by omega)) hh
  · rw [if_neg hc]
    apply Finset.sum_eq_zero
    intro l hl
    rw [mem_range] at hl
    rw [if_neg (fun hh => hc ⟨hh.1, by omega⟩)]

theorem cB_sum (W : Nat → Nat → Nat → ℝ) (n0 n1 m r j nvec : Nat) (vec : Nat → ℝ) (get : Nat → Nat → Blk ℝ) (hne : n0 ≠ n1) :
    ∑ l ∈ range (m + 1), cB R W nvec vec get r l j n0 n1 =
      if InRow R n0 r ∧ (commonLevel R.arr n0 n1).toNat ≤ m then
        ∑ c ∈ range (get n0 n1).use.1, side R W n0 n1 r c * prodB R W (colV nvec vec j) get n0 n1 c else 0 := by
  unfold cB
  rw [sum_congr rfl (fun l _ => if_neg hne)]
  by_cases hc : InRow R n0 r ∧ (commonLevel R.arr n0 n1).toNat ≤ m
  · rw [if_pos hc, Finset.sum_eq_single (commonLevel R.arr n0 n1).toNat, if_pos ⟨hc.1, rfl⟩]
    · intro l _ hl; rw [if_neg (fun hh => hl hh.2.symm)]
    · intro hh; exact absurd (mem_range.2 (by omega)) hh
  · rw [if_neg hc]
    apply Finset.sum_eq_zero
    intro l hl
    rw [mem_range] at hl
    rw [if_neg (fun hh => hc ⟨hh.1, by omega⟩)]

/-- What the lookups must give. -/
structure Tables (R : Rep ℝ) (MB MD : Meta) (getB getD : Nat → Nat → Blk ℝ) : Prop where
  tB : TableB R MB getB
  tD : TableD R MD getD
  colD : ∀ r < R.arr.nNode, ∀ c ∈ rowCols MD r, (getD r c).use.2.1 = R.rowE c - R.rowS c
  sizeB : ∀ i (h : i < R.adm.length), (getB R.adm[i].1 R.adm[i].2).use.1 = (R.B i).nrow ∧ (getB R.adm[i].2 R.adm[i].1).use.1 = (R.B i).ncol
  apB : ∀ r < R.arr.nNode, ∀ c ∈ rowCols MB r, Apart R r c
  apD : ∀ r < R.arr.nNode, ∀ c ∈ rowCols MD r, r ≠ c → Apart R r c
  adm : ∀ i (h : i < R.adm.length), Apart R R.adm[i].1 R.adm[i].2
  inadm : ∀ i (h : i < R.inadm.length), Apart R R.inadm[i].1 R.inadm[i].2

theorem Apart.ne (h : WF R) {a b : Nat} (hA : Apart R a b) : a ≠ b := by
  rintro rfl
  exact hA.rows _ ⟨row_exists h hA.fst, row_exists h hA.fst⟩

/-- The sums over the rows of the tables. -/
theorem totals (h : WF R) {W : Nat → Nat → Nat → ℝ} (hW : Nested R W) {MB MD : Meta} {getB getD : Nat → Nat → Blk ℝ} (hT : Tables R MB MD getB getD)
    {E : MMEnv ℝ} (hE : E.Valid R) {nvec : Nat} (hnv : 0 < nvec) (vec : Nat → ℝ) (exU : Nat → Mat ℝ)
    (hex : ∀ v < R.arr.nNode, R.minAdm ≤ R.arr.level v → ExOk R W v (exU v)) :
    ∃ Y1 Y2, loop (fun Y n0 => loop (samplePairD R nvec vec getD n0) (rowCols MD n0) Y) E.ordD (fun _ => 0) = .ok Y1 ∧
      loop (fun Y n0 => loop (samplePairB R nvec vec exU (mmFwd R E ⟨false, nvec, nvec⟩ nvec vec) getB n0) (rowCols MB n0) Y)
        ((List.range' R.minAdm (R.arr.maxLevel + 1 - R.minAdm)).reverse.flatMap E.bwdOrd) Y1 = .ok Y2 ∧
      ∀ r, ∀ l < R.arr.maxLevel, ∀ j < nvec, Y2 (cell nvec R.arr.maxLevel r l j) =
        (∑ i ∈ range R.inadm.length, (cD R nvec vec getD r l j (R.inadm.getD i (0, 0)).1 (R.inadm.getD i (0, 0)).2 +
          cD R nvec vec getD r l j (R.inadm.getD i (0, 0)).2 (R.inadm.getD i (0, 0)).1)) +
        ∑ i ∈ range R.adm.length,
          ((if R.minAdm ≤ R.arr.level (R.adm.getD i (0, 0)).1 then cB R W nvec vec getB r l j (R.adm.getD i (0, 0)).1 (R.adm.getD i (0, 0)).2 else 0) +
           (if R.minAdm ≤ R.arr.level (R.adm.getD i (0, 0)).2 then cB R W nvec vec getB r l j (R.adm.getD i (0, 0)).2 (R.adm.getD i (0, 0)).1 else 0)) := by
  have hltD : ∀ n0 ∈ E.ordD, n0 < R.arr.nNode := fun n0 hn => List.mem_range.1 (hE.ordD.mem_iff.1 hn)
  obtain ⟨m1, m2, _⟩ := sweep_list h E.bwdOrd hE.bwd R.minAdm (R.arr.maxLevel + 1 - R.minAdm) (fun v hv => by have := h.tree.levelLe v hv; omega)
  generalize hLB : (List.range' R.minAdm (R.arr.maxLevel + 1 - R.minAdm)).reverse.flatMap E.bwdOrd = LB at m1 m2 ⊢
  have hy : ∀ v < R.arr.nNode, R.minAdm ≤ R.arr.level v → ∀ l < nvec, FwdDone R W (colV nvec vec l) (col0 nvec l (mmFwd R E ⟨false, nvec, nvec⟩ nvec vec)) v :=
    mmFwd_spec h hW E hE.fwd (V := ⟨false, nvec, nvec⟩) ⟨fun _ => ⟨rfl, le_refl _⟩, fun hh => absurd hh (by simp)⟩ vec
  obtain ⟨Y1, e1, o1⟩ := loop_obs (fun Y n0 => loop (samplePairD R nvec vec getD n0) (rowCols MD n0) Y)
    (fun (Y : Nat → ℝ) (i : Nat × Nat × Nat) => Y (cell nvec R.arr.maxLevel i.1 i.2.1 i.2.2)) (fun i => i.2.1 < R.arr.maxLevel ∧ i.2.2 < nvec)
    (fun n0 i => ((rowCols MD n0).map fun n1 => cD R nvec vec getD i.1 i.2.1 i.2.2 n0 n1).sum) E.ordD (by
      intro n0 hn0 Y
      exact loop_obs (samplePairD R nvec vec getD n0) (fun (Y : Nat → ℝ) (i : Nat × Nat × Nat) => Y (cell nvec R.arr.maxLevel i.1 i.2.1 i.2.2))
        (fun i => i.2.1 < R.arr.maxLevel ∧ i.2.2 < nvec) (fun n1 i => cD R nvec vec getD i.1 i.2.1 i.2.2 n0 n1) (rowCols MD n0)
        (fun n1 hn1 Y => samplePairD_ok h vec getD (hT.apD n0 (hltD n0 hn0) n1 hn1) (hT.tD.fits n0 (hltD n0 hn0) n1 hn1) (hT.colD n0 (hltD n0 hn0) n1 hn1) Y) Y)
    (fun _ => 0)
  obtain ⟨Y2, e2, o2⟩ := loop_obs (fun Y n0 => loop (samplePairB R nvec vec exU (mmFwd R E ⟨false, nvec, nvec⟩ nvec vec) getB n0) (rowCols MB n0) Y)
    (fun (Y : Nat → ℝ) (i : Nat × Nat × Nat) => Y (cell nvec R.arr.maxLevel i.1 i.2.1 i.2.2)) (fun i => i.2.1 < R.arr.maxLevel ∧ i.2.2 < nvec)
    (fun n0 i => ((rowCols MB n0).map fun n1 => cB R W nvec vec getB i.1 i.2.1 i.2.2 n0 n1).sum) LB (by
      intro n0 hn0 Y
      have hn := (m1 n0).1 hn0
      exact loop_obs (samplePairB R nvec vec exU (mmFwd R E ⟨false, nvec, nvec⟩ nvec vec) getB n0)
        (fun (Y : Nat → ℝ) (i : Nat × Nat × Nat) => Y (cell nvec R.arr.maxLevel i.1 i.2.1 i.2.2))
        (fun i => i.2.1 < R.arr.maxLevel ∧ i.2.2 < nvec) (fun n1 i => cB R W nvec vec getB i.1 i.2.1 i.2.2 n0 n1) (rowCols MB n0)
        (fun n1 hn1 Y => samplePairB_ok h vec exU hex _ hy hnv getB (hT.apB n0 hn.1 n1 hn1) hn.2 (hT.tB.fits n0 hn.1 n1 hn1) Y) Y) Y1
  refine ⟨Y1, Y2, e1, e2, ?_⟩
  intro r l hl j hj
  have q2 := o2 (r, l, j) ⟨hl, hj⟩
  have q1 := o1 (r, l, j) ⟨hl, hj⟩
  dsimp only at q1 q2
  rw [q2, q1, zero_add]
  congr 1
  · rw [(hE.ordD.map _).sum_eq, list_sum_range, sum_congr rfl (fun a ha => hT.tD.sum a (mem_range.1 ha) (cD R nvec vec getD r l j)), sum_add_distrib]
    have z : ∀ a ∈ range R.arr.nNode, (∑ i ∈ range R.arr.nLeaf, if R.leaf i = a then cD R nvec vec getD r l j (R.leaf i) (R.leaf i) else 0) = 0 := by
      intro a _
      apply Finset.sum_eq_zero
      intro i _
      split
      · unfold cD; rw [if_pos rfl]
      · rfl
    rw [Finset.sum_eq_zero z, zero_add, sum_comm]
    apply sum_congr rfl
    intro i hi
    rw [mem_range] at hi
    have hn := hT.inadm i hi
    rw [getD_inadm hi, sum_add_distrib, Finset.sum_ite_eq (range R.arr.nNode) R.inadm[i].1, Finset.sum_ite_eq (range R.arr.nNode) R.inadm[i].2,
      if_pos (mem_range.2 hn.fst), if_pos (mem_range.2 hn.snd)]
  · have hperm : LB.Perm ((List.range R.arr.nNode).filter fun v => decide (R.minAdm ≤ R.arr.level v)) := by
      rw [List.perm_ext_iff_of_nodup m2 (List.nodup_range.filter _)]
      intro v
      rw [m1 v, List.mem_filter, List.mem_range, decide_eq_true_eq]
    rw [(hperm.map _).sum_eq, sum_filter_map, list_sum_range]
    simp only [decide_eq_true_eq]
    rw [sum_congr rfl (fun a ha => by
      rw [hT.tB.sum a (mem_range.1 ha) (cB R W nvec vec getB r l j)])]
    have : ∀ a, (if R.minAdm ≤ R.arr.level a then ∑ i ∈ range R.adm.length,
        ((if (R.adm.getD i (0, 0)).1 = a then cB R W nvec vec getB r l j (R.adm.getD i (0, 0)).1 (R.adm.getD i (0, 0)).2 else 0) +
         (if (R.adm.getD i (0, 0)).2 = a then cB R W nvec vec getB r l j (R.adm.getD i (0, 0)).2 (R.adm.getD i (0, 0)).1 else 0)) else 0) =
        ∑ i ∈ range R.adm.length,
        ((if (R.adm.getD i (0, 0)).1 = a then (if R.minAdm ≤ R.arr.level (R.adm.getD i (0, 0)).1 then
            cB R W nvec vec getB r l j (R.adm.getD i (0, 0)).1 (R.adm.getD i (0, 0)).2 else 0) else 0) +
         (if (R.adm.getD i (0, 0)).2 = a then (if R.minAdm ≤ R.arr.level (R.adm.getD i (0, 0)).2 then
            cB R W nvec vec getB r l j (R.adm.getD i (0, 0)).2 (R.adm.getD i (0, 0)).1 else 0) else 0)) := by
      intro a
      by_cases hm : R.minAdm ≤ R.arr.level a
      · rw [if_pos hm]
        apply sum_congr rfl
        intro i _
        congr 1
        · split
          · next he => rw [he, if_pos hm]
          · rfl
        · split
          · next he => rw [he, if_pos hm]
          · rfl
      · rw [if_neg hm]
        symm
        apply Finset.sum_eq_zero
        intro i _
        rw [show (if (R.adm.getD i (0, 0)).1 = a then (if R.minAdm ≤ R.arr.level (R.adm.getD i (0, 0)).1 then
            cB R W nvec vec getB r l j (R.adm.getD i (0, 0)).1 (R.adm.getD i (0, 0)).2 else 0) else 0) = 0 by
          split
          · next he => rw [he, if_neg hm]
          · rfl, zero_add]
        split
        · next he => rw [he, if_neg hm]
        · rfl
    rw [sum_congr rfl (fun a _ => this a), sum_comm]
    apply sum_congr rfl
    intro i hi
    rw [mem_range] at hi
    have hn := hT.adm i hi
    rw [getD_adm hi, sum_add_distrib, Finset.sum_ite_eq (range R.arr.nNode) R.adm[i].1, Finset.sum_ite_eq (range R.arr.nNode) R.adm[i].2,
      if_pos (mem_range.2 hn.fst), if_pos (mem_range.2 hn.snd)]

end
end H2Pack.SPD
