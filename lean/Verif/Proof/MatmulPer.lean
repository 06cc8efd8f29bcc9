import Verif.Model.MatmulPer
import Verif.Proof.MatvecPer3
import Verif.Proof.Matmul3

/-! # Periodic matmul: one block of columns -/

set_option linter.unusedSectionVars false

namespace H2Pack.MV
open H2Pack.Part (Arr kids ClusterTree)
open Finset (range sum_congr mul_sum sum_mul sum_comm sum_add_distrib sum_range_succ mem_range)

section
variable {K : Type} [CommRing K]

namespace Per
variable {P : Per K}

theorem eval_shift {p q : (Nat → K) × Nat × Nat} {s : Nat → K} (hs : ∀ d, P.J.xdim ≤ d → s d = 0) (junk junk' : Nat → K) {c t : Nat}
    (hc : c < (P.block p q s).nrow) (ht : t < (P.block p q s).ncol) :
    opAt false (P.block p q s).ncol (evalAt P.J p (P.shifted q s junk) 0 (P.block p q s).ncol junk') c t = (P.block p q s).e c t := by
  have hq : (P.shifted q s junk).2.2 = q.2.2 := rfl
  have hcq : t / P.J.R.kdim < q.2.2 := Nat.div_lt_of_lt_mul (by rw [Nat.mul_comm]; exact ht)
  have hlt : c * (P.block p q s).ncol + t < (P.block p q s).nrow * (P.block p q s).ncol := row_lt hc ht
  have e1 : (P.J.block p (P.shifted q s junk)).nrow = (P.block p q s).nrow := rfl
  have e2 : (P.J.block p (P.shifted q s junk)).ncol = (P.block p q s).ncol := rfl
  unfold opAt
  rw [if_neg (by simp), evalAt_eq P.J p (P.shifted q s junk) 0 _ (by rw [hq]; rfl), e1, e2, if_pos ⟨Nat.zero_le _, by omega⟩, Nat.sub_zero,
    (div_mod_row ht).1, (div_mod_row ht).2]
  unfold JIT.block block kmat
  dsimp only
  rw [shifted_point q hs junk hcq]

/-- What pair `i` adds to row `r` of a column of the output. -/
def gY (P : Per K) (W : Nat → Nat → Nat → K) (px : Nat → K) (i r : Nat) : K :=
  if P.J.R.arr.level (P.J.R.adm.getD i (0, 0)).2 ≤ P.J.R.arr.level (P.J.R.adm.getD i (0, 0)).1 then 0 else
    ∑ c ∈ range (P.aot.B i).nrow, if r = P.J.R.rowS (P.J.R.adm.getD i (0, 0)).1 + c then P.admVal W px i c else 0

/-- What pair `i` adds to entry `k` of `y1[v]`. -/
def g1 (P : Per K) (W : Nat → Nat → Nat → K) (px : Nat → K) (i v k : Nat) : K :=
  if P.J.R.arr.level (P.J.R.adm.getD i (0, 0)).2 ≤ P.J.R.arr.level (P.J.R.adm.getD i (0, 0)).1 ∧ (P.J.R.adm.getD i (0, 0)).1 = v
  then P.admVal W px i k else 0

theorem mmPair_spec (h : P.Ok) {W : Nat → Nat → Nat → K} {M : Meta} {V : View} {nv : Nat} (hV : V.Good P.J.R.size nv) (x : Nat → K) (y0 : Y0 K)
    (hd : ∀ v < P.J.R.arr.nNode, ∀ l < nv, FwdDone P.J.R W (fun r => x (V.cell r l)) (col0 nv l y0) v)
    {i : Nat} (hi : i < P.J.R.adm.length) (hr : M.nrow i = (P.aot.B i).nrow) (hc : M.ncol i = (P.aot.B i).ncol) (s : MMSt K) :
    (∀ k < (P.J.R.U (P.J.R.adm.getD i (0, 0)).1).ncol, ∀ l < nv,
      (P.mmPair M V nv x y0 (P.J.R.adm.getD i (0, 0)).1 s (((P.J.R.adm.getD i (0, 0)).2 : Int), (i : Int) + 1)).y1 (P.J.R.adm.getD i (0, 0)).1 (k * nv + l) =
        s.y1 (P.J.R.adm.getD i (0, 0)).1 (k * nv + l) + P.g1 W (fun r => x (V.cell r l)) i (P.J.R.adm.getD i (0, 0)).1 k) ∧
    (∀ v, v ≠ (P.J.R.adm.getD i (0, 0)).1 →
      (P.mmPair M V nv x y0 (P.J.R.adm.getD i (0, 0)).1 s (((P.J.R.adm.getD i (0, 0)).2 : Int), (i : Int) + 1)).y1 v = s.y1 v) ∧
    ∀ r < P.J.R.size, ∀ l < nv,
      (P.mmPair M V nv x y0 (P.J.R.adm.getD i (0, 0)).1 s (((P.J.R.adm.getD i (0, 0)).2 : Int), (i : Int) + 1)).y (V.cell r l) =
        s.y (V.cell r l) + P.gY W (fun r => x (V.cell r l)) i r := by
  have hn := h.admNode _ (List.getElem_mem hi)
  have hB : P.aot.B i = P.block (P.J.sidePts (P.J.R.adm.getD i (0, 0)).1 (P.J.R.adm.getD i (0, 0)).2)
    (P.J.sidePts (P.J.R.adm.getD i (0, 0)).2 (P.J.R.adm.getD i (0, 0)).1) (P.shiftOf P.admShift i) := rfl
  have e1 : (((P.J.R.adm.getD i (0, 0)).2 : Int)).toNat = (P.J.R.adm.getD i (0, 0)).2 := by simp
  have e2 : ((i : Int) + 1 - 1).toNat = i := by omega
  unfold mmPair gY g1 admVal
  dsimp only
  rw [e1, e2, hr, hc, hB]
  rw [getD_adm hi]
  generalize P.J.R.adm[i] = pr at *
  obtain ⟨n0, n1⟩ := pr
  dsimp only at *
  have hsh := shiftOf_zero h P.admShift i
  have hz1 : ∀ l < nv, ∀ d < P.J.jn n1 * P.J.R.kdim, P.J.R.arr.level n0 ≤ P.J.R.arr.level n1 →
      zSide P.aot W (fun r => x (V.cell r l)) n1 n0 d = (y0 n1).2 (d * nv + l) := by
    intro l hl d hdd hle
    exact (zSide_basis (R := P.J.R) (hd n1 hn.2 l hl) hle (by rw [h.rankJ n1 hn.2]; exact hdd)).symm
  have hz2 : ∀ l < nv, ∀ d < P.J.npt n1 * P.J.R.kdim, P.J.R.arr.level n1 < P.J.R.arr.level n0 →
      zSide P.aot W (fun r => x (V.cell r l)) n1 n0 d = x (V.cell (P.J.R.rowS n1 + d) l) := by
    intro l hl d hdd hlt
    refine (zSide_direct (flat_wf h) (W := W) (x := fun r => x (V.cell r l)) (v := n1) (w := n0) hn.2 hlt ?_).symm
    show d < P.J.R.rowE n1 - P.J.R.rowS n1
    rw [rows_npt h hn.2]
    exact hdd
  unfold JIT.sidePts
  rcases Nat.lt_trichotomy (P.J.R.arr.level n0) (P.J.R.arr.level n1) with hl | hl | hl
  · simp only [if_neg (show ¬ P.J.R.arr.level n0 = P.J.R.arr.level n1 by omega), if_neg (show ¬ P.J.R.arr.level n0 > P.J.R.arr.level n1 by omega),
      if_neg (show ¬ P.J.R.arr.level n1 ≤ P.J.R.arr.level n0 by omega), if_pos (show P.J.R.arr.level n0 ≤ P.J.R.arr.level n1 by omega), if_pos hl]
    refine ⟨fun _ _ _ _ => by rw [if_neg (fun g => absurd g.1 (by omega)), add_zero], fun _ _ => trivial, fun r hr' l hl' => ?_⟩
    have hnr : (P.block (P.J.cPts n0) (P.J.jPts n1) (P.shiftOf P.admShift i)).nrow = P.J.npt n0 * P.J.R.kdim := rfl
    have hsz : P.J.R.rowS n0 + (P.block (P.J.cPts n0) (P.J.jPts n1) (P.shiftOf P.admShift i)).nrow ≤ P.J.R.size := by
      have h1 : P.J.R.rowS n0 < P.J.R.rowE n0 := rowS_lt_rowE (flat_wf h) hn.1
      have h2 : P.J.R.rowE n0 ≤ P.J.R.size := rowE_le_size (flat_wf h) hn.1
      have h3 := rows_npt h hn.1
      rw [hnr]; omega
    rw [rowsAdd_cell hV hsz _ _ _ _ _ _ (fun t l => (y0 n1).2 (t * nv + l)) (fun _ t _ l _ => by simp [opAt]) (fun _ t _ l _ => by simp [opAt]) _ hr' hl', pick_sum]
    congr 1
    by_cases hrow : P.J.R.rowS n0 ≤ r ∧ r < P.J.R.rowS n0 + (P.block (P.J.cPts n0) (P.J.jPts n1) (P.shiftOf P.admShift i)).nrow
    · rw [if_pos hrow, if_pos hrow]
      apply sum_congr rfl
      intro t ht
      rw [mem_range] at ht
      rw [eval_shift hsh _ _ (by omega) ht, hz1 l hl' t ht (le_of_lt hl)]
    · rw [if_neg hrow, if_neg hrow]
  · simp only [if_pos hl, if_pos (show P.J.R.arr.level n1 ≤ P.J.R.arr.level n0 by omega), if_pos (show P.J.R.arr.level n0 ≤ P.J.R.arr.level n1 by omega),
      if_neg (show ¬ P.J.R.arr.level n0 > P.J.R.arr.level n1 by omega), if_neg (show ¬ P.J.R.arr.level n0 < P.J.R.arr.level n1 by omega), add_zero]
    refine ⟨fun k hk l hl' => ?_, fun v hv => ?_, fun _ _ _ _ => trivial⟩
    · have hnr : (P.block (P.J.jPts n0) (P.J.jPts n1) (P.shiftOf P.admShift i)).nrow = P.J.jn n0 * P.J.R.kdim := rfl
      rw [h.rankJ n0 hn.1] at hk
      rw [Function.update_self, gemm_cell _ _ _ _ _ _ _ hl', if_pos (by rw [hnr]; exact hk), if_pos rfl, if_pos ⟨by omega, trivial⟩]
      congr 1
      apply sum_congr rfl
      intro t ht
      rw [mem_range] at ht
      rw [eval_shift hsh _ _ (by rw [hnr]; exact hk) ht, hz1 l hl' t ht (le_of_eq hl)]
      simp [opAt]
    · rw [Function.update_of_ne hv]
  · simp only [if_neg (show ¬ P.J.R.arr.level n0 = P.J.R.arr.level n1 by omega), if_pos (show P.J.R.arr.level n0 > P.J.R.arr.level n1 by omega),
      if_pos (show P.J.R.arr.level n1 ≤ P.J.R.arr.level n0 by omega), if_neg (show ¬ P.J.R.arr.level n0 ≤ P.J.R.arr.level n1 by omega),
      if_neg (show ¬ P.J.R.arr.level n0 < P.J.R.arr.level n1 by omega), add_zero]
    refine ⟨fun k hk l hl' => ?_, fun v hv => ?_, fun _ _ _ _ => trivial⟩
    · have hnr : (P.block (P.J.jPts n0) (P.J.cPts n1) (P.shiftOf P.admShift i)).nrow = P.J.jn n0 * P.J.R.kdim := rfl
      rw [h.rankJ n0 hn.1] at hk
      rw [Function.update_self, gemm_cell _ _ _ _ _ _ _ hl', if_pos (by rw [hnr]; exact hk), if_pos rfl, if_pos ⟨by omega, trivial⟩]
      congr 1
      apply sum_congr rfl
      intro t ht
      rw [mem_range] at ht
      rw [eval_shift hsh _ _ (by rw [hnr]; exact hk) ht, hz2 l hl' t ht hl, opAt_view hV]
    · rw [Function.update_of_ne hv]

/-- The loop over the nodes of the admissible part. -/
theorem mmIntmd_spec (h : P.Ok) {W : Nat → Nat → Nat → K} {MB MD : Meta} (hM : P.PerMeta MB MD) {E : MMEnv K} (hE : E.Valid P.J.R)
    {V : View} {nv : Nat} (hV : V.Good P.J.R.size nv) (x : Nat → K) (y0 : Y0 K)
    (hd : ∀ v < P.J.R.arr.nNode, ∀ l < nv, FwdDone P.J.R W (fun r => x (V.cell r l)) (col0 nv l y0) v) (s : MMSt K) :
    (∀ v < P.J.R.arr.nNode, P.J.R.mark v ≠ 0 → ∀ k < (P.J.R.U v).ncol, ∀ l < nv,
      (E.ordB.foldl (P.mmIntmdNode MB E V nv x y0) s).y1 v (k * nv + l) = ∑ i ∈ range P.J.R.adm.length, P.g1 W (fun r => x (V.cell r l)) i v k) ∧
    ∀ r < P.J.R.size, ∀ l < nv, (E.ordB.foldl (P.mmIntmdNode MB E V nv x y0) s).y (V.cell r l) = s.y (V.cell r l) +
      ∑ i ∈ range P.J.R.adm.length, P.gY W (fun r => x (V.cell r l)) i r := by
  have hlt : ∀ n0 ∈ E.ordB, n0 < P.J.R.arr.nNode := fun n0 hn => List.mem_range.1 (hE.ordB.mem_iff.1 hn)
  have e2 : ∀ i : Nat, ((i : Int) + 1 - 1).toNat = i := fun i => by omega
  constructor
  · intro v hv hm k hk l hl
    refine foldl_set (P.mmIntmdNode MB E V nv x y0) (fun s => s.y1 v (k * nv + l)) v _ E.ordB ?_ ?_ (hE.ordB.mem_iff.2 (List.mem_range.2 hv)) s
    · intro a ha hne s
      have step : ∀ ent ∈ csrRow MB a, ∀ s : MMSt K, (P.mmPair MB V nv x y0 a s ent).y1 v (k * nv + l) = s.y1 v (k * nv + l) + 0 := by
        intro ent he s
        obtain ⟨i, hi, e1, rfl⟩ := mem_rowB hM (hlt a ha) he
        have := (mmPair_spec h hV x y0 hd hi (hM.sizeB i hi).1 (hM.sizeB i hi).2 s).2.1 v (by rw [e1]; exact fun e => hne e.symm)
        rw [e1] at this
        rw [this, add_zero]
      unfold mmIntmdNode
      dsimp only
      rw [foldl_obs (P.mmPair MB V nv x y0 a) (fun s => s.y1 v (k * nv + l)) (fun _ => 0) _ step]
      dsimp only
      rw [Function.update_of_ne (fun e => hne e.symm)]
      simp
    · intro s
      have step : ∀ ent ∈ csrRow MB v, ∀ s : MMSt K, (P.mmPair MB V nv x y0 v s ent).y1 v (k * nv + l) =
          s.y1 v (k * nv + l) + P.g1 W (fun r => x (V.cell r l)) (ent.2 - 1).toNat v k := by
        intro ent he s
        obtain ⟨i, hi, e1, rfl⟩ := mem_rowB hM hv he
        have := (mmPair_spec h hV x y0 hd hi (hM.sizeB i hi).1 (hM.sizeB i hi).2 s).1 k (by rw [e1]; exact hk) l hl
        rw [e1] at this
        rw [this]
        dsimp only
        rw [e2]
      unfold mmIntmdNode
      dsimp only
      rw [foldl_obs (P.mmPair MB V nv x y0 v) (fun s => s.y1 v (k * nv + l)) _ _ step]
      dsimp only
      rw [Function.update_self, if_pos hm, if_pos (row_lt hk hl), zero_add, (((hM.rowB v hv).map _).sum_eq), List.map_map, filter_sum]
      unfold tripB
      rw [List.map_map, list_sum_range]
      apply sum_congr rfl
      intro i _
      simp only [Function.comp_apply, decide_eq_true_eq]
      rw [e2]
      by_cases e : (P.J.R.adm.getD i (0, 0)).1 = v
      · rw [if_pos e]
      · rw [if_neg e]; unfold g1; rw [if_neg (fun g => e g.2)]
  · intro r hr l hl
    have step : ∀ a ∈ E.ordB, ∀ s : MMSt K, (P.mmIntmdNode MB E V nv x y0 s a).y (V.cell r l) = s.y (V.cell r l) +
        ((csrRow MB a).map fun ent => P.gY W (fun r => x (V.cell r l)) (ent.2 - 1).toNat r).sum := by
      intro a ha s
      have step : ∀ ent ∈ csrRow MB a, ∀ s : MMSt K, (P.mmPair MB V nv x y0 a s ent).y (V.cell r l) =
          s.y (V.cell r l) + P.gY W (fun r => x (V.cell r l)) (ent.2 - 1).toNat r := by
        intro ent he s
        obtain ⟨i, hi, e1, rfl⟩ := mem_rowB hM (hlt a ha) he
        have := (mmPair_spec h hV x y0 hd hi (hM.sizeB i hi).1 (hM.sizeB i hi).2 s).2.2 r hr l hl
        rw [e1] at this
        rw [this]
        dsimp only
        rw [e2]
      unfold mmIntmdNode
      dsimp only
      rw [foldl_obs (P.mmPair MB V nv x y0 a) (fun s => s.y (V.cell r l)) _ _ step]
    rw [foldl_obs (P.mmIntmdNode MB E V nv x y0) (fun s => s.y (V.cell r l)) _ _ step,
      rows_sum hM.rowB (tripB_lt h hM (x := fun q => x q) (px := fun q => x (P.lay P.J.R.nPoint q)) (fun q _ => rfl))
        (fun ent => P.gY W (fun r => x (V.cell r l)) (ent.2 - 1).toNat r) hE.ordB]
    congr 1
    unfold tripB
    rw [List.map_map, list_sum_range]
    apply sum_congr rfl
    intro i _
    simp only [Function.comp_apply]
    rw [e2]

/-- The loop over the nodes of the dense part. -/
theorem mmDense_spec (h : P.Ok) {MB MD : Meta} (hM : P.PerMeta MB MD) {E : MMEnv K} (hE : E.Valid P.J.R) {V : View} {nv : Nat}
    (hV : V.Good P.J.R.size nv) (x : Nat → K) (y : Nat → K) {r l : Nat} (hr : r < P.J.R.size) (hl : l < nv) :
    (E.ordD.foldl (fun y n0 => (csrRow MD n0).foldl (P.mmDensePair MD V nv x n0) y) y) (V.cell r l) = y (V.cell r l) +
      ∑ i ∈ range (P.J.R.arr.nLeaf + P.J.R.inadm.length), P.gD (fun r => x (V.cell r l)) i (P.yLoc (P.lay P.J.R.nPoint r)) := by
  have hlt : ∀ n0 ∈ E.ordD, n0 < P.J.R.arr.nNode := fun n0 hn => List.mem_range.1 (hE.ordD.mem_iff.1 hn)
  have e2 : ∀ i : Nat, ((i : Int) + 1 - 1).toNat = i := fun i => by omega
  have step : ∀ a ∈ E.ordD, ∀ y : Nat → K, (csrRow MD a).foldl (P.mmDensePair MD V nv x a) y (V.cell r l) = y (V.cell r l) +
      ((csrRow MD a).map fun ent => P.gD (fun r => x (V.cell r l)) (ent.2 - 1).toNat (P.yLoc (P.lay P.J.R.nPoint r))).sum := by
    intro a ha y
    refine foldl_obs (P.mmDensePair MD V nv x a) (fun y => y (V.cell r l)) _ _ ?_ y
    intro ent he y
    obtain ⟨i, hi, e1, rfl⟩ := mem_rowD hM (hlt a ha) he
    have hn := dNode_lt h hi
    have hsz := hM.sizeD i hi
    have hD := D_eq P i
    have hsh : ∀ d, P.J.xdim ≤ d → P.dShift i d = 0 := by
      intro d hd
      unfold dShift
      split
      · rfl
      · exact shiftOf_zero h _ _ d hd
    subst e1
    unfold mmDensePair
    dsimp only
    rw [e2, hsz.1, hsz.2, Int.toNat_natCast]
    have e3 : (if i < P.J.R.arr.nLeaf then fun _ => 0 else P.shiftOf P.inadmShift (i - P.J.R.arr.nLeaf)) = P.dShift i := rfl
    rw [e3]
    unfold gD
    rw [hD]
    have hnr : (P.block (P.J.cPts (P.dNode i).1) (P.J.cPts (P.dNode i).2) (P.dShift i)).nrow = P.J.npt (P.dNode i).1 * P.J.R.kdim := rfl
    have hfit : P.J.R.rowS (P.dNode i).1 + (P.block (P.J.cPts (P.dNode i).1) (P.J.cPts (P.dNode i).2) (P.dShift i)).nrow ≤ P.J.R.size := by
      have h1 : P.J.R.rowS (P.dNode i).1 < P.J.R.rowE (P.dNode i).1 := rowS_lt_rowE (flat_wf h) hn.1
      have h2 : P.J.R.rowE (P.dNode i).1 ≤ P.J.R.size := rowE_le_size (flat_wf h) hn.1
      have h3 := rows_npt h hn.1
      rw [hnr]; omega
    rw [rowsAdd_cell hV hfit _ _ _ _ _ _ (fun t l => x (V.cell (P.J.R.rowS (P.dNode i).2 + t) l)) (fun ht t _ l _ => by
        have := opAt_view hV x (P.J.R.rowS (P.dNode i).2) t l
        rw [ht] at this; exact this) (fun ht t _ l _ => by
        have := opAt_view hV x (P.J.R.rowS (P.dNode i).2) t l
        rw [ht] at this
        rw [← this]; simp [opAt]) _ hr hl]
    congr 1
    refine Eq.trans (pick_sum _ _ _ (fun c => ∑ t ∈ range (P.block (P.J.cPts (P.dNode i).1) (P.J.cPts (P.dNode i).2) (P.dShift i)).ncol,
        opAt false (P.block (P.J.cPts (P.dNode i).1) (P.J.cPts (P.dNode i).2) (P.dShift i)).ncol
          (evalAt P.J (P.J.cPts (P.dNode i).1) (P.shifted (P.J.cPts (P.dNode i).2) (P.dShift i) (P.junkC (P.J.R.adm.length + i))) 0
            (P.block (P.J.cPts (P.dNode i).1) (P.J.cPts (P.dNode i).2) (P.dShift i)).ncol (P.J.junkM (P.J.R.adm.length + i))) c t *
          x (V.cell (P.J.R.rowS (P.dNode i).2 + t) l))).symm ?_
    apply sum_congr rfl
    intro c hc
    rw [mem_range] at hc
    have e : (P.yLoc (P.lay P.J.R.nPoint r) = P.yLoc (P.lay P.J.R.nPoint (P.J.R.rowS (P.dNode i).1 + c))) ↔ r = P.J.R.rowS (P.dNode i).1 + c := by
      rw [yLoc_inj, lay_inj h.kdim (ld := P.J.R.nPoint) hr (row_in_size h hn.1 (by rw [← hnr]; exact hc))]
    by_cases hrc : r = P.J.R.rowS (P.dNode i).1 + c
    · rw [if_pos hrc, if_pos (e.2 hrc)]
      apply sum_congr rfl
      intro t ht
      rw [eval_shift hsh _ _ hc (mem_range.1 ht)]
    · rw [if_neg hrc, if_neg (fun g => hrc (e.1 g))]
  rw [foldl_obs (fun y n0 => (csrRow MD n0).foldl (P.mmDensePair MD V nv x n0) y) (fun y => y (V.cell r l)) _ _ step,
    rows_sum hM.rowD (tripD_lt h hM (x := fun q => x q) (px := fun q => x (P.lay P.J.R.nPoint q)) (fun q _ => rfl))
      (fun ent => P.gD (fun r => x (V.cell r l)) (ent.2 - 1).toNat (P.yLoc (P.lay P.J.R.nPoint r))) hE.ordD]
  congr 1
  unfold tripD
  rw [List.map_map, list_sum_range]
  apply sum_congr rfl
  intro i _
  simp only [Function.comp_apply]
  rw [e2]

theorem mmBwd_flat (P : Per K) (E : MMEnv K) (V : View) (nv : Nat) (s : MMBwd K) : mmBwd P.J.R E V nv s = mmBwd P.flat E V nv s := by
  have : ∀ s v, mmBwdNode P.J.R E V nv s v = mmBwdNode P.flat E V nv s v := by
    intro s v
    have hp : ∀ tmp l i s, mmPush P.J.R E nv tmp l i s = mmPush P.flat E nv tmp l i s := by
      intro tmp l
      induction l with
      | nil => intro i s; rfl
      | cons c cs ih => intro i s; exact ih _ _
    unfold mmBwdNode
    simp only [hp]
    rfl
  unfold mmBwd
  rw [show mmBwdNode P.J.R E V nv = mmBwdNode P.flat E V nv from funext fun s => funext fun v => this s v]
  rfl

/-- One block of columns. -/
theorem mmCore_spec (h : P.Ok) {W : Nat → Nat → Nat → K} (hW : Nested P.J.R W) {MB MD : Meta} (hM : P.PerMeta MB MD) {PE : PMEnv K}
    (hE : PE.E.Valid P.J.R) {V : View} {nv : Nat} (hV : V.Good P.J.R.size nv) (px py : Nat → K) {r l : Nat} (hr : r < P.J.R.size) (hl : l < nv)
    (h0 : py (V.cell r l) = 0) :
    P.mmCore MB MD PE V nv px py (V.cell r l) = ∑ q ∈ range P.J.R.size, P.entry W r q * px (V.cell q l) := by
  have hWf : Nested P.flat W := ⟨hW.leaf, hW.inner⟩
  have hrt := root_lt h
  have hd : ∀ v < P.J.R.arr.nNode, ∀ l < nv, FwdDone P.J.R W (fun r => px (V.cell r l)) (col0 nv l (mmFwd P.J.R PE.E V nv px)) v := by
    intro v hv l hl
    exact H2Pack.MV.mmFwd_spec (flat_wf h) hWf PE.E hE.fwd hV px v hv (by show P.J.R.minAdm ≤ _; rw [h.minAdm]; exact Nat.zero_le _) l hl
  unfold mmCore
  generalize mmFwd P.J.R PE.E V nv px = y0 at *
  obtain ⟨i1, i2⟩ := mmIntmd_spec h hM hE hV px y0 hd ⟨PE.E.junk1, py⟩
  generalize PE.E.ordB.foldl (P.mmIntmdNode MB PE.E V nv px y0) ⟨PE.E.junk1, py⟩ = s at *
  have hld : ∀ v, Function.update (mmLd P.J.R nv) P.root nv v = 0 ∨ Function.update (mmLd P.J.R nv) P.root nv v = nv := by
    intro v
    by_cases e : v = P.root
    · rw [e, Function.update_self]; right; rfl
    · rw [Function.update_of_ne e]; unfold mmLd; split <;> simp
  rw [mmDense_spec h hM hE hV px _ hr hl, mmBwd_flat, H2Pack.MV.mmBwd_spec (flat_wf h) hWf PE.E hE.bwd hV hl _ hld r hr]
  have hdeep : deep P.flat P.flat.minAdm = range P.J.R.arr.nNode := by
    unfold deep
    rw [Finset.filter_true_of_mem]
    · rfl
    · intro v _; show P.J.R.minAdm ≤ _; rw [h.minAdm]; exact Nat.zero_le _
  rw [hdeep, ← pmt_total h (fun r => px (V.cell r l)) (fun v hv => hd v hv l hl) hr]
  congr 1
  congr 1
  · show (P.mmRoot PE nv y0 s).y (V.cell r l) = _
    have : (P.mmRoot PE nv y0 s).y = s.y := rfl
    rw [this, i2 r hr l hl]
    dsimp only
    rw [h0, zero_add]
    apply sum_congr rfl
    intro i hi
    rw [gB_yLoc h W _ (mem_range.1 hi) hr]
    rfl
  · apply sum_congr rfl
    intro v hv
    rw [mem_range] at hv
    dsimp only
    by_cases hvr : v = P.root
    · subst hvr
      have eu : Function.update (mmLd P.J.R nv) P.root nv P.root ≠ 0 := by rw [Function.update_self]; omega
      rw [if_pos eu, if_pos rfl]
      have z : (∑ i ∈ range P.J.R.adm.length, if P.J.R.arr.level (P.J.R.adm.getD i (0, 0)).2 ≤ P.J.R.arr.level (P.J.R.adm.getD i (0, 0)).1 ∧
        (P.J.R.adm.getD i (0, 0)).1 = P.root then ∑ c ∈ range (P.aot.B i).nrow, W (P.J.R.adm.getD i (0, 0)).1 r c * P.admVal W (fun r => px (V.cell r l)) i c else 0) = 0 := by
        apply Finset.sum_eq_zero
        intro i hi
        rw [mem_range] at hi
        rw [if_neg]
        rintro ⟨_, e⟩
        rw [getD_adm hi] at e
        exact h.root _ (List.getElem_mem hi) e
      rw [z, zero_add]
      have en : (P.flat.U P.root).ncol = P.blkSize := h.rankJ _ hrt
      rw [en]
      apply sum_congr rfl
      intro c hc
      rw [mem_range] at hc
      unfold mmRoot
      dsimp only
      rw [Function.update_self, gemm_cell _ _ _ _ _ _ _ hl, if_pos hc, if_neg (by simp), zero_add, mul_sum]
      apply sum_congr rfl
      intro d _
      simp [opAt, col0]
    · have eu : Function.update (mmLd P.J.R nv) P.root nv v = mmLd P.J.R nv v := Function.update_of_ne hvr _ _
      rw [if_neg hvr, add_zero]
      have ey : (P.mmRoot PE nv y0 s).y1 v = s.y1 v := by
        unfold mmRoot
        dsimp only
        rw [Function.update_of_ne hvr]
      by_cases hm : P.J.R.mark v = 0
      · rw [if_neg (by rw [eu]; unfold mmLd; simp [hm])]
        symm
        apply Finset.sum_eq_zero
        intro i hi
        rw [mem_range] at hi
        rw [if_neg]
        rintro ⟨_, e⟩
        rw [getD_adm hi] at e
        exact hM.mark _ (List.getElem_mem hi) (e ▸ hm)
      · rw [if_pos (by rw [eu]; unfold mmLd; rw [if_pos hm]; omega)]
        have e : ∀ c ∈ range (P.flat.U v).ncol, W v r c * (P.mmRoot PE nv y0 s).y1 v (c * nv + l) = ∑ i ∈ range P.J.R.adm.length,
            if P.J.R.arr.level (P.J.R.adm.getD i (0, 0)).2 ≤ P.J.R.arr.level (P.J.R.adm.getD i (0, 0)).1 ∧ (P.J.R.adm.getD i (0, 0)).1 = v
            then W v r c * P.admVal W (fun r => px (V.cell r l)) i c else 0 := by
          intro c hc
          rw [mem_range] at hc
          rw [ey, i1 v hv hm c hc l hl, mul_sum]
          apply sum_congr rfl
          intro i _
          unfold g1
          split
          · rfl
          · rw [mul_zero]
        rw [sum_congr rfl e, sum_comm]
        apply sum_congr rfl
        intro i hi
        by_cases hc : P.J.R.arr.level (P.J.R.adm.getD i (0, 0)).2 ≤ P.J.R.arr.level (P.J.R.adm.getD i (0, 0)).1 ∧ (P.J.R.adm.getD i (0, 0)).1 = v
        · simp only [if_pos hc]
          have hn : (P.aot.B i).nrow = (P.flat.U v).ncol := by
            show (P.J.sidePts _ _).2.2 * _ = (P.J.R.U v).ncol
            unfold JIT.sidePts
            rw [if_pos hc.1, hc.2, h.rankJ v hv]; rfl
          rw [hn, hc.2]
        · simp only [if_neg hc]
          exact Finset.sum_const_zero

end Per
end
end H2Pack.MV
