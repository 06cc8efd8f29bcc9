import Verif.Proof.Matvec2
import Verif.Props.BlockPart

/-! # Intermediate and dense multiplication, reduction, permutation -/

set_option linter.unusedSectionVars false

namespace H2Pack.MV
open H2Pack.Part (Arr kids ClusterTree)
open Finset (range sum_congr mul_sum sum_mul sum_comm sum_add_distrib sum_range_succ mem_range)

section
variable {K : Type} [CommRing K]

/-- What is multiplied on the side of node `v` of the pair `v`, `w`. -/
def zSide (R : Rep K) (W : Nat → Nat → Nat → K) (x : Nat → K) (v w d : Nat) : K := ∑ q ∈ range R.size, side R W v w q d * x q

theorem zSide_basis {R : Rep K} {W : Nat → Nat → Nat → K} {x : Nat → K} {y0 : Y0 K} {v w d : Nat} (hd : FwdDone R W x y0 v)
    (hl : R.arr.level w ≤ R.arr.level v) (h : d < (R.U v).ncol) : (y0 v).2 d = zSide R W x v w d := by
  rw [hd.2 d h]
  unfold zSide side
  apply sum_congr rfl
  intro q _
  rw [if_pos hl]

theorem zSide_direct {R : Rep K} (hR : WF R) {W : Nat → Nat → Nat → K} {x : Nat → K} {v w d : Nat} (hv : v < R.arr.nNode)
    (hl : R.arr.level v < R.arr.level w) (h : d < R.rowE v - R.rowS v) : x (R.rowS v + d) = zSide R W x v w d := by
  unfold zSide side
  rw [Finset.sum_eq_single (R.rowS v + d)]
  · rw [if_neg (by omega), if_pos rfl, one_mul]
  · intro b _ hb
    rw [if_neg (by omega), if_neg hb, zero_mul]
  · intro hh
    have := rowE_le_size hR hv
    exact absurd (mem_range.2 (by omega)) hh

theorem adm_row {R : Rep K} (W : Nat → Nat → Nat → K) (x : Nat → K) (i r : Nat) :
    ∑ c ∈ range (R.B i).nrow, side R W (R.adm.getD i (0, 0)).1 (R.adm.getD i (0, 0)).2 r c *
      (∑ d ∈ range (R.B i).ncol, (R.B i).e c d * zSide R W x (R.adm.getD i (0, 0)).2 (R.adm.getD i (0, 0)).1 d) =
    ∑ q ∈ range R.size, admEntry R W i r q * x q := by
  unfold admEntry zSide
  simp only [mul_sum, sum_mul]
  rw [sum_comm' (s := range R.size) (t := fun _ => range (R.B i).nrow) (t' := range (R.B i).nrow) (s' := fun _ => range R.size) (by simp [and_comm])]
  apply sum_congr rfl; intro c _
  rw [sum_comm]
  apply sum_congr rfl; intro q _
  apply sum_congr rfl; intro d _
  ring
where
  sum_comm' {s : Finset Nat} {t : Nat → Finset Nat} {t' : Finset Nat} {s' : Nat → Finset Nat} {f : Nat → Nat → K}
      (h : ∀ x y, x ∈ s ∧ y ∈ t x ↔ x ∈ s' y ∧ y ∈ t') : (∑ x ∈ s, ∑ y ∈ t x, f x y) = ∑ y ∈ t', ∑ x ∈ s' y, f x y := Finset.sum_comm' h

theorem adm_col {R : Rep K} (W : Nat → Nat → Nat → K) (x : Nat → K) (i r : Nat) :
    ∑ d ∈ range (R.B i).ncol, side R W (R.adm.getD i (0, 0)).2 (R.adm.getD i (0, 0)).1 r d *
      (∑ c ∈ range (R.B i).nrow, (R.B i).e c d * zSide R W x (R.adm.getD i (0, 0)).1 (R.adm.getD i (0, 0)).2 c) =
    ∑ q ∈ range R.size, admEntry R W i q r * x q := by
  unfold admEntry zSide
  simp only [mul_sum, sum_mul]
  rw [sum_comm]
  rw [sum_comm (s := range R.size)]
  apply sum_congr rfl; intro c _
  rw [sum_comm (s := range R.size)]
  apply sum_congr rfl; intro d _
  apply sum_congr rfl; intro q _
  ring

/-! ## Thread-private cells -/

theorem sum_ty (nT t m s r : Nat) (ht : t < nT) (F : Nat → K) :
    (∑ tid ∈ range nT, ∑ c ∈ range m, if Loc.ty tid r = Loc.ty t (s + c) then F c else 0) = ∑ c ∈ range m, if r = s + c then F c else 0 := by
  rw [Finset.sum_eq_single t]
  · apply sum_congr rfl; intro c _; simp
  · intro b _ hb
    apply Finset.sum_eq_zero
    intro c _
    rw [if_neg]; simp [hb]
  · intro h; exact absurd (mem_range.2 ht) h

theorem sum_y1 (nT t v n0 n n' k : Nat) (ht : t < nT) (hv : v = n0 → n = n') (hk : k < n) (F : Nat → K) :
    (∑ tid ∈ range nT, ∑ c ∈ range n', if Loc.y1 v (tid * n + k) = Loc.y1 n0 (t * n' + c) then F c else 0) = if v = n0 then F k else 0 := by
  by_cases e : v = n0
  · have hn := hv e
    subst e; subst hn
    rw [if_pos rfl, Finset.sum_eq_single t]
    · rw [Finset.sum_eq_single k]
      · simp
      · intro c _ hc; rw [if_neg]; simp only [Loc.y1.injEq, true_and]; omega
      · intro h; exact absurd (mem_range.2 hk) h
    · intro b _ hb
      apply Finset.sum_eq_zero
      intro c hc
      rw [if_neg]
      simp only [Loc.y1.injEq, true_and]
      intro h
      exact hb (mul_add_inj hk (mem_range.1 hc) h).1
    · intro h; exact absurd (mem_range.2 ht) h
  · rw [if_neg e]
    apply Finset.sum_eq_zero; intro b _
    apply Finset.sum_eq_zero; intro c _
    rw [if_neg]; simp [e]

/-! ## One admissible pair -/

/-- What pair `i` adds to the memory when executed by thread `t`. -/
def intmdD (R : Rep K) (E : Env K) (W : Nat → Nat → Nat → K) (x : Nat → K) (t i : Nat) : Loc → K :=
  let n0 := (R.adm.getD i (0, 0)).1
  let n1 := (R.adm.getD i (0, 0)).2
  biD (R.B i).nrow (R.B i).ncol (R.B i).e (zSide R W x n1 n0) (zSide R W x n0 n1)
    (fun k => if R.arr.level n1 ≤ R.arr.level n0 then .y1 n0 (t * (R.U n0).ncol + k) else .ty t (R.rowS n0 + k))
    (fun k => if R.arr.level n0 ≤ R.arr.level n1 then .y1 n1 (t * (R.U n1).ncol + k) else .ty t (R.rowS n1 + k))

theorem biD_congr {ι : Type} [DecidableEq ι] {m n : Nat} (a : Nat → Nat → K) {x0 x0' x1 x1' : Nat → K} (a0 a1 : Nat → ι)
    (h0 : ∀ j < n, x0 j = x0' j) (h1 : ∀ i < m, x1 i = x1' i) (l : ι) :
    biD m n a x0 x1 a0 a1 l = biD m n a x0' x1' a0 a1 l := by
  unfold biD
  congr 1
  · apply sum_congr rfl; intro i _
    split
    · apply sum_congr rfl; intro j hj; rw [h0 j (mem_range.1 hj)]
    · rfl
  · apply sum_congr rfl; intro j _
    split
    · apply sum_congr rfl; intro i hi; rw [h1 i (mem_range.1 hi)]
    · rfl

theorem getD_adm {R : Rep K} {i : Nat} (hi : i < R.adm.length) : R.adm.getD i (0, 0) = R.adm[i] := by simp [List.getD, hi]
theorem getD_inadm {R : Rep K} {i : Nat} (hi : i < R.inadm.length) : R.inadm.getD i (0, 0) = R.inadm[i] := by simp [List.getD, hi]

theorem y1ncol_marked {R : Rep K} {E : Env K} {v : Nat} (h : R.mark v ≠ 0) : y1ncol R E v = (R.U v).ncol := by
  unfold y1ncol; rw [if_pos h]

theorem intmdPair_adds {R : Rep K} (h : WF R) {W : Nat → Nat → Nat → K} (E : Env K) (x : Nat → K) (y0 : Y0 K)
    (hy : ∀ v < R.arr.nNode, R.minAdm ≤ R.arr.level v → FwdDone R W x y0 v) (t : Nat) {i : Nat} (hi : i < R.adm.length) (mem : Loc → K) (l : Loc) :
    intmdPair R E x y0 t mem i l = mem l + intmdD R E W x t i l := by
  have hmem := List.getElem_mem hi
  have hn := h.admNode _ hmem
  have hm := h.marked _ hmem
  have hlv := h.admLevel _ hmem
  have hbr := h.bRow i hi
  have hbc := h.bCol i hi
  unfold intmdPair intmdD
  rw [getD_adm hi]
  generalize R.adm[i] = p at *
  obtain ⟨n0, n1⟩ := p
  simp only at *
  rcases Nat.lt_trichotomy (R.arr.level n0) (R.arr.level n1) with hl | hl | hl
  · rw [if_neg (by omega), if_neg (by omega), biGemv_adds]
    rw [if_neg (by omega)] at hbr
    rw [if_pos (by omega)] at hbc
    rw [y1ncol_marked (hm.2 (by omega))]
    congr 1
    simp only [if_neg (show ¬ R.arr.level n1 ≤ R.arr.level n0 by omega), if_pos (show R.arr.level n0 ≤ R.arr.level n1 by omega)]
    apply biD_congr
    · intro j hj; exact zSide_basis (hy n1 hn.2 (by omega)) (by omega) (by omega)
    · intro j hj; exact zSide_direct h hn.1 hl (by omega)
  · rw [if_pos hl, biGemv_adds]
    rw [if_pos (by omega)] at hbr hbc
    rw [y1ncol_marked (hm.2 (by omega)), y1ncol_marked (hm.1 (by omega))]
    congr 1
    simp only [if_pos (show R.arr.level n1 ≤ R.arr.level n0 by omega), if_pos (show R.arr.level n0 ≤ R.arr.level n1 by omega)]
    apply biD_congr
    · intro j hj; exact zSide_basis (hy n1 hn.2 (by omega)) (by omega) (by omega)
    · intro j hj; exact zSide_basis (hy n0 hn.1 (by omega)) (by omega) (by omega)
  · rw [if_neg (by omega), if_pos hl, biGemv_adds]
    rw [if_pos (by omega)] at hbr
    rw [if_neg (by omega)] at hbc
    rw [y1ncol_marked (hm.1 (by omega))]
    congr 1
    simp only [if_pos (show R.arr.level n1 ≤ R.arr.level n0 by omega), if_neg (show ¬ R.arr.level n0 ≤ R.arr.level n1 by omega)]
    apply biD_congr
    · intro j hj; exact zSide_direct h hn.2 hl (by omega)
    · intro j hj; exact zSide_basis (hy n0 hn.1 (by omega)) (by omega) (by omega)

/-- The part of the product with pair `i` that goes directly to row `r` of the output. -/
def tyPart (R : Rep K) (W : Nat → Nat → Nat → K) (x : Nat → K) (r i : Nat) : K :=
  let n0 := (R.adm.getD i (0, 0)).1
  let n1 := (R.adm.getD i (0, 0)).2
  (if R.arr.level n1 ≤ R.arr.level n0 then 0 else
    ∑ c ∈ range (R.B i).nrow, if r = R.rowS n0 + c then ∑ d ∈ range (R.B i).ncol, (R.B i).e c d * zSide R W x n1 n0 d else 0) +
  (if R.arr.level n0 ≤ R.arr.level n1 then 0 else
    ∑ d ∈ range (R.B i).ncol, if r = R.rowS n1 + d then ∑ c ∈ range (R.B i).nrow, (R.B i).e c d * zSide R W x n0 n1 c else 0)

/-- The part of the product with pair `i` that goes to entry `k` of `y1[v]`. -/
def y1Part (R : Rep K) (W : Nat → Nat → Nat → K) (x : Nat → K) (v k i : Nat) : K :=
  let n0 := (R.adm.getD i (0, 0)).1
  let n1 := (R.adm.getD i (0, 0)).2
  (if R.arr.level n1 ≤ R.arr.level n0 then
    if v = n0 then ∑ d ∈ range (R.B i).ncol, (R.B i).e k d * zSide R W x n1 n0 d else 0 else 0) +
  (if R.arr.level n0 ≤ R.arr.level n1 then
    if v = n1 then ∑ c ∈ range (R.B i).nrow, (R.B i).e c k * zSide R W x n0 n1 c else 0 else 0)

theorem intmdD_ty {R : Rep K} (E : Env K) (W : Nat → Nat → Nat → K) (x : Nat → K) {nT t : Nat} (ht : t < nT) (i r : Nat) :
    ∑ tid ∈ range nT, intmdD R E W x t i (.ty tid r) = tyPart R W x r i := by
  unfold intmdD tyPart biD
  simp only
  rw [sum_add_distrib]
  congr 1
  · split
    · simp
    · exact sum_ty _ _ _ _ _ ht _
  · split
    · simp
    · exact sum_ty _ _ _ _ _ ht _

theorem intmdD_y1 {R : Rep K} (h : WF R) (E : Env K) (W : Nat → Nat → Nat → K) (x : Nat → K) {nT t : Nat} (ht : t < nT) {i : Nat}
    (hi : i < R.adm.length) (v k : Nat) (hk : k < (R.U v).ncol) :
    ∑ tid ∈ range nT, intmdD R E W x t i (.y1 v (tid * (R.U v).ncol + k)) = y1Part R W x v k i := by
  have hbr := h.bRow i hi
  have hbc := h.bCol i hi
  unfold intmdD y1Part biD
  rw [getD_adm hi]
  generalize R.adm[i] = p at *
  obtain ⟨n0, n1⟩ := p
  simp only at *
  rw [sum_add_distrib]
  congr 1
  · split
    · next hl =>
      rw [if_pos hl] at hbr
      rw [hbr]
      exact sum_y1 nT t v n0 _ _ k ht (by rintro rfl; rfl) hk (fun c => ∑ d ∈ range (R.B i).ncol, (R.B i).e c d * zSide R W x n1 n0 d)
    · simp
  · split
    · next hl =>
      rw [if_pos hl] at hbc
      rw [hbc]
      exact sum_y1 nT t v n1 _ _ k ht (by rintro rfl; rfl) hk (fun d => ∑ c ∈ range (R.B i).nrow, (R.B i).e c d * zSide R W x n0 n1 c)
    · simp

theorem intmdD_y {R : Rep K} (E : Env K) (W : Nat → Nat → Nat → K) (x : Nat → K) (t i r : Nat) : intmdD R E W x t i (.y r) = 0 := by
  unfold intmdD biD
  simp only
  have : ∀ (c : Prop) [Decidable c] (a b d : Nat), (Loc.y r = if c then Loc.y1 a b else Loc.ty t d) ↔ False := by
    intro c _ a b d; split <;> simp
  simp only [this, if_false]
  simp

/-! ## Both sweeps together -/

theorem y1Part_unmarked {R : Rep K} (h : WF R) (W : Nat → Nat → Nat → K) (x : Nat → K) {v : Nat} (hv : R.mark v = 0) (k : Nat) {i : Nat}
    (hi : i < R.adm.length) : y1Part R W x v k i = 0 := by
  have hm := h.marked _ (List.getElem_mem hi)
  unfold y1Part
  rw [getD_adm hi]
  generalize R.adm[i] = p at *
  obtain ⟨n0, n1⟩ := p
  simp only at *
  have e0 : R.arr.level n1 ≤ R.arr.level n0 → v ≠ n0 := by rintro hl rfl; exact hm.1 hl hv
  have e1 : R.arr.level n0 ≤ R.arr.level n1 → v ≠ n1 := by rintro hl rfl; exact hm.2 hl hv
  by_cases c0 : R.arr.level n1 ≤ R.arr.level n0 <;> by_cases c1 : R.arr.level n0 ≤ R.arr.level n1 <;> simp [c0, c1, e0, e1]

theorem pair_total {R : Rep K} (h : WF R) (W : Nat → Nat → Nat → K) (x : Nat → K) (r : Nat) {i : Nat} (hi : i < R.adm.length) :
    (∑ v ∈ deep R R.minAdm, ∑ c ∈ range (R.U v).ncol, W v r c * y1Part R W x v c i) + tyPart R W x r i =
    ∑ q ∈ range R.size, (admEntry R W i r q + admEntry R W i q r) * x q := by
  have e : ∀ q, (admEntry R W i r q + admEntry R W i q r) * x q = admEntry R W i r q * x q + admEntry R W i q r * x q := fun q => by ring
  simp only [e]
  rw [sum_add_distrib, ← adm_row, ← adm_col]
  have hmem := List.getElem_mem hi
  have hn := h.admNode _ hmem
  have hlv := h.admLevel _ hmem
  have hbr := h.bRow i hi
  have hbc := h.bCol i hi
  unfold y1Part tyPart
  rw [getD_adm hi]
  generalize R.adm[i] = p at *
  obtain ⟨n0, n1⟩ := p
  simp only at *
  have pick : ∀ (u : Nat) (F : Nat → K), u < R.arr.nNode → R.minAdm ≤ R.arr.level u →
      (∑ v ∈ deep R R.minAdm, ∑ c ∈ range (R.U v).ncol, W v r c * (if v = u then F c else 0)) = ∑ c ∈ range (R.U u).ncol, W u r c * F c := by
    intro u F hu hlu
    rw [Finset.sum_eq_single u]
    · apply sum_congr rfl; intro c _; rw [if_pos rfl]
    · intro b _ hb
      apply Finset.sum_eq_zero; intro c _; rw [if_neg hb, mul_zero]
    · intro hh
      exact absurd (by unfold deep; rw [Finset.mem_filter, mem_range]; exact ⟨hu, hlu⟩) hh
  simp only [mul_add, sum_add_distrib]
  have g0 : (∑ v ∈ deep R R.minAdm, ∑ c ∈ range (R.U v).ncol, W v r c * (if R.arr.level n1 ≤ R.arr.level n0 then
        if v = n0 then ∑ d ∈ range (R.B i).ncol, (R.B i).e c d * zSide R W x n1 n0 d else 0 else 0)) +
      (if R.arr.level n1 ≤ R.arr.level n0 then 0 else
        ∑ c ∈ range (R.B i).nrow, if r = R.rowS n0 + c then ∑ d ∈ range (R.B i).ncol, (R.B i).e c d * zSide R W x n1 n0 d else 0) =
      ∑ c ∈ range (R.B i).nrow, side R W n0 n1 r c * ∑ d ∈ range (R.B i).ncol, (R.B i).e c d * zSide R W x n1 n0 d := by
    by_cases c0 : R.arr.level n1 ≤ R.arr.level n0
    · simp only [if_pos c0]
      rw [if_pos c0] at hbr
      rw [pick n0 (fun c => ∑ d ∈ range (R.B i).ncol, (R.B i).e c d * zSide R W x n1 n0 d) hn.1 (by omega), hbr, add_zero]
      apply sum_congr rfl; intro c _
      unfold side; rw [if_pos c0]
    · simp only [if_neg c0, mul_zero, Finset.sum_const_zero, zero_add]
      apply sum_congr rfl; intro c _
      unfold side; rw [if_neg c0]
      split <;> simp
  have g1 : (∑ v ∈ deep R R.minAdm, ∑ c ∈ range (R.U v).ncol, W v r c * (if R.arr.level n0 ≤ R.arr.level n1 then
        if v = n1 then ∑ d ∈ range (R.B i).nrow, (R.B i).e d c * zSide R W x n0 n1 d else 0 else 0)) +
      (if R.arr.level n0 ≤ R.arr.level n1 then 0 else
        ∑ d ∈ range (R.B i).ncol, if r = R.rowS n1 + d then ∑ c ∈ range (R.B i).nrow, (R.B i).e c d * zSide R W x n0 n1 c else 0) =
      ∑ d ∈ range (R.B i).ncol, side R W n1 n0 r d * ∑ c ∈ range (R.B i).nrow, (R.B i).e c d * zSide R W x n0 n1 c := by
    by_cases c1 : R.arr.level n0 ≤ R.arr.level n1
    · simp only [if_pos c1]
      rw [if_pos c1] at hbc
      rw [pick n1 (fun d => ∑ c ∈ range (R.B i).nrow, (R.B i).e c d * zSide R W x n0 n1 c) hn.2 (by omega), hbc, add_zero]
      apply sum_congr rfl; intro c _
      unfold side; rw [if_pos c1]
    · simp only [if_neg c1, mul_zero, Finset.sum_const_zero, zero_add]
      apply sum_congr rfl; intro c _
      unfold side; rw [if_neg c1]
      split <;> simp
  rw [← g0, ← g1]
  abel

/-! ## Dense blocks -/

theorem block_row {R : Rep K} {v w : Nat} {M : Mat K} (h1 : M.nrow = R.rowE v - R.rowS v) (h2 : M.ncol = R.rowE w - R.rowS w)
    (hw : R.rowS w ≤ R.rowE w) (hs : R.rowE w ≤ R.size) (x : Nat → K) (r : Nat) :
    (∑ c ∈ range M.nrow, if r = R.rowS v + c then ∑ d ∈ range M.ncol, M.e c d * x (R.rowS w + d) else 0) =
    ∑ q ∈ range R.size, blockEntry R v w M r q * x q := by
  by_cases hr : R.rowS v ≤ r ∧ r < R.rowE v
  · rw [Finset.sum_eq_single (r - R.rowS v)]
    · rw [if_pos (by omega), h2, ← sum_shift R.size _ _ hw hs (fun d => M.e (r - R.rowS v) d * x (R.rowS w + d))]
      apply sum_congr rfl; intro q _
      unfold blockEntry
      by_cases hq : R.rowS w ≤ q ∧ q < R.rowE w
      · rw [if_pos hq, if_pos ⟨hr, hq⟩, show R.rowS w + (q - R.rowS w) = q by omega]
      · rw [if_neg hq, if_neg (by tauto), zero_mul]
    · intro b _ hb; rw [if_neg (by omega)]
    · intro hh; exact absurd (mem_range.2 (by omega)) hh
  · rw [Finset.sum_eq_zero, Finset.sum_eq_zero]
    · intro q _; unfold blockEntry; rw [if_neg (by tauto), zero_mul]
    · intro c hc; rw [mem_range] at hc; rw [if_neg (by omega)]

theorem block_col {R : Rep K} {v w : Nat} {M : Mat K} (h1 : M.nrow = R.rowE v - R.rowS v) (h2 : M.ncol = R.rowE w - R.rowS w)
    (hv : R.rowS v ≤ R.rowE v) (hs : R.rowE v ≤ R.size) (x : Nat → K) (r : Nat) :
    (∑ d ∈ range M.ncol, if r = R.rowS w + d then ∑ c ∈ range M.nrow, M.e c d * x (R.rowS v + c) else 0) =
    ∑ q ∈ range R.size, blockEntry R v w M q r * x q := by
  rw [block_row (M := ⟨M.ncol, M.nrow, fun i j => M.e j i⟩) h2 h1 hv hs x r]
  apply sum_congr rfl; intro q _
  unfold blockEntry
  congr 1
  by_cases hr : R.rowS w ≤ r ∧ r < R.rowE w <;> by_cases hq : R.rowS v ≤ q ∧ q < R.rowE v <;> simp [hr, hq]

theorem dense0_adds (R : Rep K) (x : Nat → K) (t i : Nat) (mem : Loc → K) (l : Loc) :
    dense0 R x t mem i l = mem l + ∑ r ∈ range (R.D i).nrow, if l = .ty t (R.rowS (R.leaf i) + r) then
      ∑ j ∈ range (R.D i).ncol, (R.D i).e r j * x (R.rowS (R.leaf i) + j) else 0 := by
  unfold dense0
  split
  · next h =>
    rcases h with h | h
    · rw [h]; simp
    · rw [h]; simp
  · rw [foldl_addAt_range]

theorem mem_leaf {R : Rep K} (h : WF R) {i : Nat} (hi : i < R.arr.nLeaf) : R.leaf i < R.arr.nNode ∧ R.arr.nChild (R.leaf i) = 0 := by
  have hh := h.tree.heightList 0
  have hlen := congrArg List.length hh
  rw [List.length_map, List.length_range] at hlen
  have hz : ∀ v < R.arr.nNode, R.arr.height v = 0 ↔ R.arr.nChild v = 0 := by
    intro v hv
    constructor
    · intro h0
      by_contra hne
      obtain ⟨c, _, hc⟩ := (h.tree.nodeHeight v hv hne).2
      omega
    · exact h.tree.leafHeight v hv
  have hcount : ((List.range R.arr.nNode).filter (fun v => R.arr.height v = 0)) = (List.range R.arr.nNode).filter (fun v => R.arr.nChild v = 0) := by
    apply List.filter_congr
    intro v hv
    simp only [decide_eq_decide]
    exact hz v (List.mem_range.1 hv)
  rw [hcount] at hh hlen
  rw [← h.tree.nLeaf] at hlen
  have hm : R.leaf i ∈ (List.range (R.arr.heightN 0)).map (fun r => R.arr.heightNodes (0 * R.arr.nLeaf + r)) := by
    refine List.mem_map.2 ⟨i, List.mem_range.2 (by omega), ?_⟩
    rw [Nat.zero_mul, Nat.zero_add]; rfl
  rw [hh, List.mem_filter, List.mem_range] at hm
  exact ⟨hm.1, by simpa using hm.2⟩

theorem dense0_total {R : Rep K} (h : WF R) (x : Nat → K) {nT t i : Nat} (ht : t < nT) (hi : i < R.arr.nLeaf) (r : Nat) :
    (∑ tid ∈ range nT, ∑ c ∈ range (R.D i).nrow, if Loc.ty tid r = .ty t (R.rowS (R.leaf i) + c) then
      ∑ j ∈ range (R.D i).ncol, (R.D i).e c j * x (R.rowS (R.leaf i) + j) else 0) =
    ∑ q ∈ range R.size, blockEntry R (R.leaf i) (R.leaf i) (R.D i) r q * x q := by
  rw [sum_ty nT t _ _ r ht (fun c => ∑ j ∈ range (R.D i).ncol, (R.D i).e c j * x (R.rowS (R.leaf i) + j))]
  have hl := mem_leaf h hi
  have hd := h.d0 i hi
  exact block_row hd.1 hd.2 (le_of_lt (rowS_lt_rowE h hl.1)) (rowE_le_size h hl.1) x r

/-- What inadmissible pair `i` adds when executed by thread `t`. -/
def dense1D (R : Rep K) (x : Nat → K) (t i : Nat) : Loc → K :=
  let n0 := (R.inadm.getD i (0, 0)).1
  let n1 := (R.inadm.getD i (0, 0)).2
  let Di := R.D (R.arr.nLeaf + i)
  biD Di.nrow Di.ncol Di.e (fun k => x (R.rowS n1 + k)) (fun k => x (R.rowS n0 + k))
    (fun k => Loc.ty t (R.rowS n0 + k)) (fun k => Loc.ty t (R.rowS n1 + k))

theorem dense1_adds (R : Rep K) (x : Nat → K) (t i : Nat) (mem : Loc → K) (l : Loc) :
    dense1 R x t mem i l = mem l + dense1D R x t i l := biGemv_adds _ _ _ _ _ _ _ _ _

theorem dense1_total {R : Rep K} (h : WF R) (x : Nat → K) {nT t i : Nat} (ht : t < nT) (hi : i < R.inadm.length) (r : Nat) :
    ∑ tid ∈ range nT, dense1D R x t i (.ty tid r) = ∑ q ∈ range R.size, (inadmEntry R i r q + inadmEntry R i q r) * x q := by
  unfold dense1D biD
  simp only
  rw [sum_add_distrib, sum_ty nT t _ _ r ht, sum_ty nT t _ _ r ht]
  have hn := h.inadmNode _ (List.getElem_mem hi)
  have hd := h.d1 i hi
  unfold inadmEntry
  rw [getD_inadm hi]
  simp only [add_mul]
  rw [sum_add_distrib]
  congr 1
  · exact block_row hd.1 hd.2 (le_of_lt (rowS_lt_rowE h hn.2)) (rowE_le_size h hn.2) x r
  · exact block_col hd.1 hd.2 (le_of_lt (rowS_lt_rowE h hn.1)) (rowE_le_size h hn.1) x r

/-! ## Reduction -/

theorem reduceBlk_eq (size nT : Nat) (mem : Loc → K) (me : Nat) :
    (∀ t k, reduceBlk size nT mem me (.ty t k) = mem (.ty t k)) ∧
    ∀ b, calcBlockSposLen size nT me = some b → ∀ k, reduceBlk size nT mem me (.y k) = mem (.y k) +
      if b.spos.toNat ≤ k ∧ k < b.spos.toNat + b.len.toNat then ∑ t ∈ range nT, mem (.ty t k) else 0 := by
  have inner : ∀ (s len tid : Nat) (mem : Loc → K) (m : Nat), m ≤ len →
      (∀ t k, ((List.range m).foldl (fun mem t => addAt mem (.y (s + t)) (mem (.ty tid (s + t)))) mem) (.ty t k) = mem (.ty t k)) ∧
      ∀ k, ((List.range m).foldl (fun mem t => addAt mem (.y (s + t)) (mem (.ty tid (s + t)))) mem) (.y k) = mem (.y k) +
        if s ≤ k ∧ k < s + m then mem (.ty tid k) else 0 := by
    intro s len tid mem m
    induction m with
    | zero =>
      intro _
      refine ⟨fun t k => rfl, fun k => ?_⟩
      rw [if_neg (by omega)]; simp
    | succ m ih =>
      intro hm
      obtain ⟨i1, i2⟩ := ih (by omega)
      simp only [List.range_succ, List.foldl_append, List.foldl_cons, List.foldl_nil]
      refine ⟨fun t k => ?_, fun k => ?_⟩
      · rw [addAt_apply, i1]; simp
      · rw [addAt_apply, i1, i2]
        by_cases hk : k = s + m
        · subst hk
          rw [if_neg (by omega), if_pos rfl, if_pos (by omega), add_zero]
        · rw [if_neg (show ¬ Loc.y k = Loc.y (s + m) by simp [hk]), add_zero]
          by_cases h2 : s ≤ k ∧ k < s + m
          · rw [if_pos h2, if_pos (by omega)]
          · rw [if_neg h2, if_neg (by omega)]
  have outer : ∀ (s len : Nat) (mem : Loc → K) (n : Nat),
      (∀ t k, ((List.range n).foldl (fun mem tid => (List.range len).foldl (fun mem t => addAt mem (.y (s + t)) (mem (.ty tid (s + t)))) mem) mem) (.ty t k) = mem (.ty t k)) ∧
      ∀ k, ((List.range n).foldl (fun mem tid => (List.range len).foldl (fun mem t => addAt mem (.y (s + t)) (mem (.ty tid (s + t)))) mem) mem) (.y k) = mem (.y k) +
        if s ≤ k ∧ k < s + len then ∑ t ∈ range n, mem (.ty t k) else 0 := by
    intro s len mem n
    induction n with
    | zero => simp
    | succ n ih =>
      simp only [List.range_succ, List.foldl_append, List.foldl_cons, List.foldl_nil]
      refine ⟨fun t k => ?_, fun k => ?_⟩
      · rw [(inner s len n _ len (le_refl _)).1, ih.1]
      · rw [(inner s len n _ len (le_refl _)).2, ih.1, ih.2, sum_range_succ]
        split <;> ring
  unfold reduceBlk
  constructor
  · intro t k
    cases calcBlockSposLen size nT me with
    | none => rfl
    | some b => exact (outer _ _ _ _).1 t k
  · intro b hb k
    rw [hb]
    exact (outer _ _ _ _).2 k

theorem reduce_spec {size nT : Nat} (hT : 0 < nT) {ord : List Nat} (hord : ord.Perm (List.range nT)) (mem : Loc → K) (k : Nat) (hk : k < size) :
    (ord.foldl (reduceBlk size nT) mem) (.y k) = mem (.y k) + ∑ t ∈ range nT, mem (.ty t k) := by
  obtain ⟨r, hr, _⟩ := C01_blocks_contiguous size nT (by omega) (by omega)
  have hin := C01_block_in_range size nT
  have hkmem : ∀ i < nT, ((r i).spos.toNat ≤ k ∧ k < (r i).spos.toNat + (r i).len.toNat ↔ (r i).Mem k) := by
    intro i hi
    have := hin i (by omega) (by omega) ⟨by omega, by omega⟩ (r i) (hr i (by omega) (by omega))
    unfold BlkRange.Mem
    omega
  obtain ⟨j, ⟨j1, j2, rj, j3, j4⟩, j5⟩ := (C01_blocks_tile size nT (by omega) (by omega) k).1 ⟨by omega, by omega⟩
  dsimp only at j5
  have key : ∀ (L : List Nat) (mem : Loc → K), (∀ i ∈ L, i < nT) →
      (∀ t k, (L.foldl (reduceBlk size nT) mem) (.ty t k) = mem (.ty t k)) ∧
      (L.foldl (reduceBlk size nT) mem) (.y k) = mem (.y k) + (L.map fun i => if i = j.toNat then ∑ t ∈ range nT, mem (.ty t k) else 0).sum := by
    intro L
    induction L with
    | nil => intro mem _; simp
    | cons a L ih =>
      intro mem hL
      have ha := hL a List.mem_cons_self
      obtain ⟨i1, i2⟩ := ih (reduceBlk size nT mem a) (fun i hi => hL i (List.mem_cons_of_mem _ hi))
      obtain ⟨b1, b2⟩ := reduceBlk_eq size nT mem a
      rw [List.foldl_cons, i2]
      refine ⟨fun t k => by rw [i1, b1], ?_⟩
      rw [b2 (r a) (hr a (by omega) (by omega)) k]
      simp only [b1]
      rw [List.map_cons, List.sum_cons, add_assoc]
      congr 2
      by_cases e : a = j.toNat
      · rw [if_pos e, if_pos]
        rw [hkmem a ha]
        have hj : j = (a : Int) := by omega
        rw [hj, hr a (by omega) (by omega)] at j3
        cases j3; exact j4
      · rw [if_neg e, if_neg]
        rw [hkmem a ha]
        intro hm
        have := j5 a ⟨by omega, by omega, r a, hr a (by omega) (by omega), hm⟩
        omega
  rw [(key ord mem (fun i hi => List.mem_range.1 (hord.mem_iff.1 hi))).2]
  congr 1
  rw [(hord.map _).sum_eq, list_sum_range, Finset.sum_eq_single j.toNat]
  · rw [if_pos rfl]
  · intro b _ hb; rw [if_neg hb]
  · intro hh; exact absurd (mem_range.2 (by omega)) hh

/-! ## The product in the permuted order -/

theorem matvecPmt_spec {R : Rep K} (h : WF R) {W : Nat → Nat → Nat → K} (hW : Nested R W) (E : Env K) (hE : E.Valid R) (x : Nat → K)
    (r : Nat) (hr : r < R.size) : matvecPmt R E x r = ∑ q ∈ range R.size, entry R W r q * x q := by
  unfold matvecPmt
  rw [reduce_spec hE.threads hE.red _ r hr]
  have hy := fwd_spec h hW E hE x
  generalize fwdTransform R E x = y0 at *
  unfold denseAOT
  -- dense part, output cells
  rw [sched_same hE.cutD1 hE.schedD1 (fun t mem i => dense1 R x t mem i) (dense1D R x) (fun t _ i _ => dense1_adds R x t i) (.y r)
    (by intro t _ i _; simp [dense1D, biD])]
  rw [sched_same hE.cutD0 hE.schedD0 (fun t mem i => dense0 R x t mem i) _ (fun t _ i _ => dense0_adds R x t i) (.y r)
    (by intro t _ i _; simp)]
  rw [bwd_spec h hW E hE.bwd]
  -- dense part, thread cells
  rw [sched_total hE.cutD1 hE.schedD1 (fun t mem i => dense1 R x t mem i) (dense1D R x) (fun t _ i _ => dense1_adds R x t i)
    (range E.nThread) (fun tid => .ty tid r) _ (fun t ht i hi => dense1_total h x ht hi r)]
  rw [sched_total hE.cutD0 hE.schedD0 (fun t mem i => dense0 R x t mem i) _ (fun t _ i _ => dense0_adds R x t i)
    (range E.nThread) (fun tid => .ty tid r) _ (fun t ht i hi => dense0_total h x ht hi r)]
  simp only [bwd_ty]
  -- intermediate part
  have hadd : ∀ t < E.nThread, ∀ i < R.adm.length, ∀ mem l, intmdPair R E x y0 t mem i l = mem l + intmdD R E W x t i l :=
    fun t _ i hi mem l => intmdPair_adds h E x y0 hy t hi mem l
  have hty : ∑ t ∈ range E.nThread, sumY1 R E (intmdAOT R E x y0 (initMem R E)) (.ty t r) = ∑ i ∈ range R.adm.length, tyPart R W x r i := by
    unfold intmdAOT
    simp only [sumY1]
    rw [sched_total hE.cutB hE.schedB (fun t mem i => intmdPair R E x y0 t mem i) (intmdD R E W x) hadd
      (range E.nThread) (fun tid => .ty tid r) _ (fun t ht i hi => intmdD_ty E W x ht i r)]
    simp [initMem]
  have hyr : sumY1 R E (intmdAOT R E x y0 (initMem R E)) (.y r) = 0 := by
    unfold intmdAOT
    simp only [sumY1]
    rw [sched_same hE.cutB hE.schedB (fun t mem i => intmdPair R E x y0 t mem i) (intmdD R E W x) hadd (.y r)
      (fun t _ i _ => intmdD_y E W x t i r)]
    rfl
  have hterm : ∀ v ∈ deep R R.minAdm, term R W r ⟨y1ld R, sumY1 R E (intmdAOT R E x y0 (initMem R E))⟩ v =
      ∑ i ∈ range R.adm.length, ∑ c ∈ range (R.U v).ncol, W v r c * y1Part R W x v c i := by
    intro v hv
    unfold deep at hv
    rw [Finset.mem_filter, mem_range] at hv
    have hrk := h.rank v hv.1 hv.2
    rw [sum_comm]
    unfold term
    dsimp only
    by_cases hm : R.mark v = 0
    · rw [if_neg (by unfold y1ld; simp [hm])]
      symm
      apply Finset.sum_eq_zero; intro c _
      apply Finset.sum_eq_zero; intro i hi
      rw [y1Part_unmarked h W x hm c (mem_range.1 hi), mul_zero]
    · have hld : y1ld R v ≠ 0 := by unfold y1ld; rw [if_pos hm]; omega
      rw [if_pos hld]
      apply sum_congr rfl
      intro c hc
      rw [mem_range] at hc
      rw [← mul_sum]
      congr 1
      simp only [sumY1]
      rw [if_pos ⟨hv.1, hld⟩, y1ncol_marked hm, sumRows_eq _ _ hE.threads _ _ hc]
      unfold intmdAOT
      rw [sched_total hE.cutB hE.schedB (fun t mem i => intmdPair R E x y0 t mem i) (intmdD R E W x) hadd
        (range E.nThread) (fun tid => .y1 v (tid * (R.U v).ncol + c)) _ (fun t ht i hi => intmdD_y1 h E W x ht hi v c hc)]
      rw [Finset.sum_eq_zero, zero_add]
      intro t ht
      rw [mem_range] at ht
      simp only [initMem]
      rw [if_pos]
      refine ⟨hld, ?_⟩
      rw [y1ncol_marked hm, hE.team]
      calc t * (R.U v).ncol + c < t * (R.U v).ncol + (R.U v).ncol := by omega
        _ = (t + 1) * (R.U v).ncol := by ring
        _ ≤ E.nThread * (R.U v).ncol := Nat.mul_le_mul_right _ ht
  rw [hty, hyr, sum_congr rfl hterm, zero_add, sum_comm]
  have hadm : (∑ i ∈ range R.adm.length, ∑ v ∈ deep R R.minAdm, ∑ c ∈ range (R.U v).ncol, W v r c * y1Part R W x v c i) +
      ∑ i ∈ range R.adm.length, tyPart R W x r i =
      ∑ i ∈ range R.adm.length, ∑ q ∈ range R.size, (admEntry R W i r q + admEntry R W i q r) * x q := by
    rw [← sum_add_distrib]
    apply sum_congr rfl
    intro i hi
    exact pair_total h W x r (mem_range.1 hi)
  unfold entry
  simp only [add_mul, sum_mul, sum_add_distrib] at hadm ⊢
  rw [← add_assoc, ← add_assoc, ← add_assoc, hadm]
  rw [sum_comm (s := range R.size) (t := range R.adm.length), sum_comm (s := range R.size) (t := range R.adm.length),
    sum_comm (s := range R.size) (t := range R.arr.nLeaf), sum_comm (s := range R.size) (t := range R.inadm.length),
    sum_comm (s := range R.size) (t := range R.inadm.length)]
  ring

end
end H2Pack.MV
