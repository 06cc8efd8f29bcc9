import Verif.Proof.SPD2

set_option linter.unusedSectionVars false

/-! # SPDHSS: the entries of the source matrix -/

namespace H2Pack.SPD
open H2Pack.Part (Arr kids ClusterTree Pairs blocks Holds leaves)
open H2Pack.MV
open Finset

section
variable {K : Type} [CommRing K]

theorem sum_count_zero {α : Type} (L : List α) (P : α → Bool) (f : Nat → K) (hf : ∀ i (h : i < L.length), P L[i] = false → f i = 0)
    (h : L.countP P = 0) : ∑ i ∈ range L.length, f i = 0 := by
  apply sum_eq_zero
  intro i hi
  rw [mem_range] at hi
  apply hf i hi
  have := (List.countP_eq_zero.1 h) L[i] (List.getElem_mem hi)
  simpa using this

theorem sum_count_one {α : Type} (L : List α) (P : α → Bool) (f : Nat → K) (hf : ∀ i (h : i < L.length), P L[i] = false → f i = 0)
    (h : L.countP P ≤ 1) {k : Nat} (hk : k < L.length) (hp : P L[k] = true) : ∑ i ∈ range L.length, f i = f k := by
  rw [sum_eq_single k]
  · intro i hi hne
    rw [mem_range] at hi
    apply hf i hi
    by_contra hc
    have hc : P L[i] = true := by simpa using hc
    rcases Nat.lt_or_gt_of_ne hne with hlt | hgt
    · have := H2Pack.Part.two_le_countP L P hlt hk hc hp; omega
    · have := H2Pack.Part.two_le_countP L P hgt hi hp hc; omega
  · intro hn; exact absurd (mem_range.2 hk) hn

variable {R : Rep K} {W : Nat → Nat → Nat → K} {pv : Pairs}

/-- Number of point and component of a row. -/
theorem row_split (h : 0 < R.kdim) (r : Nat) : r = r / R.kdim * R.kdim + r % R.kdim ∧ r % R.kdim < R.kdim :=
  ⟨(Nat.div_add_mod' _ _).symm, Nat.mod_lt _ h⟩

theorem row_node (h : 0 < R.kdim) (v r : Nat) : (R.rowS v ≤ r ∧ r < R.rowE v) ↔ R.arr.ptS v ≤ r / R.kdim ∧ r / R.kdim ≤ R.arr.ptE v := by
  have h1 := row_split (R := R) h r
  have := row_in (R := R) (v := v) (p := r / R.kdim) h1.2
  rw [← h1.1] at this
  exact this

theorem blockEntry_zero (h : 0 < R.kdim) {v w r q : Nat} {M : Mat K} (hno : ¬ Holds R.arr (r / R.kdim) (q / R.kdim) (v, w)) : blockEntry R v w M r q = 0 := by
  unfold blockEntry
  rw [if_neg]
  rintro ⟨h1, h2⟩
  exact hno ⟨(row_node h v r).1 h1, (row_node h w q).1 h2⟩

theorem holds_rows (h : 0 < R.kdim) {v w r q : Nat} (h1 : R.rowS v ≤ r ∧ r < R.rowE v) (h2 : R.rowS w ≤ q ∧ q < R.rowE w) :
    Holds R.arr (r / R.kdim) (q / R.kdim) (v, w) := ⟨(row_node h v r).1 h1, (row_node h w q).1 h2⟩

/-- The three sums of an entry. -/
theorem entry_sums (hwf : WF R) (hW : Nested R W) (hA : R.adm = pv.adm) (hI : R.inadm = pv.inadm)
    (hcov : ∀ p < R.nPoint, ∀ q < R.nPoint, (blocks R.arr pv).countP (fun x => Holds R.arr p q x) = 1) {r q : Nat} (hr : r < R.size) (hq : q < R.size) :
    ∃ c1 c2 c3 c4 c5 : Nat, c1 + c2 + c3 + c4 + c5 = 1 ∧
      (((leaves R.arr).map (fun v => (v, v))).countP (fun x => Holds R.arr (r / R.kdim) (q / R.kdim) x) = c1) ∧
      (R.inadm.countP (fun x => Holds R.arr (r / R.kdim) (q / R.kdim) x) = c2) ∧ (R.inadm.countP (fun x => Holds R.arr (q / R.kdim) (r / R.kdim) x) = c3) ∧
      (R.adm.countP (fun x => Holds R.arr (r / R.kdim) (q / R.kdim) x) = c4) ∧ (R.adm.countP (fun x => Holds R.arr (q / R.kdim) (r / R.kdim) x) = c5) := by
  have hs : ∀ r, r < R.size → r / R.kdim < R.nPoint := fun r h => (Nat.div_lt_iff_lt_mul hwf.kdim).2 h
  have := hcov _ (hs r hr) _ (hs q hq)
  unfold blocks at this
  rw [List.countP_append, List.countP_append, List.countP_append, List.countP_append, H2Pack.Part.countP_swap, H2Pack.Part.countP_swap, ← hA, ← hI] at this
  exact ⟨_, _, _, _, _, by omega, rfl, rfl, rfl, rfl, rfl⟩

theorem adm_zero (hwf : WF R) (hW : Nested R W) {i r q : Nat} (hi : i < R.adm.length) (h : ¬ Holds R.arr (r / R.kdim) (q / R.kdim) R.adm[i]) :
    admEntry R W i r q = 0 := by
  have h1 := row_split (R := R) hwf.kdim r
  have h2 := row_split (R := R) hwf.kdim q
  have := admEntry_zero hwf hW hi h1.2 h2.2 h
  rw [← h1.1, ← h2.1] at this
  exact this

theorem inadm_zero (hwf : WF R) {i r q : Nat} (hi : i < R.inadm.length) (h : ¬ Holds R.arr (r / R.kdim) (q / R.kdim) R.inadm[i]) :
    inadmEntry R i r q = 0 := by
  unfold inadmEntry
  have e : R.inadm.getD i (0, 0) = R.inadm[i] := by simp [List.getD, hi]
  rw [e]
  exact blockEntry_zero hwf.kdim h

/-- Entry of a matrix whose blocks cover every entry once: the entry of the block that holds it. -/
theorem entry_eq (hwf : WF R) (hW : Nested R W) (hA : R.adm = pv.adm) (hI : R.inadm = pv.inadm)
    (hcov : ∀ p < R.nPoint, ∀ q < R.nPoint, (blocks R.arr pv).countP (fun x => Holds R.arr p q x) = 1) {r q : Nat} (hr : r < R.size) (hq : q < R.size) :
    (∀ i (_ : i < R.arr.nLeaf), (R.rowS (R.leaf i) ≤ r ∧ r < R.rowE (R.leaf i)) → (R.rowS (R.leaf i) ≤ q ∧ q < R.rowE (R.leaf i)) →
      entry R W r q = (R.D i).e (r - R.rowS (R.leaf i)) (q - R.rowS (R.leaf i))) ∧
    (∀ i (h : i < R.inadm.length), (R.rowS R.inadm[i].1 ≤ r ∧ r < R.rowE R.inadm[i].1) → (R.rowS R.inadm[i].2 ≤ q ∧ q < R.rowE R.inadm[i].2) →
      entry R W r q = (R.D (R.arr.nLeaf + i)).e (r - R.rowS R.inadm[i].1) (q - R.rowS R.inadm[i].2)) ∧
    (∀ i (h : i < R.adm.length), (R.rowS R.adm[i].1 ≤ r ∧ r < R.rowE R.adm[i].1) → (R.rowS R.adm[i].2 ≤ q ∧ q < R.rowE R.adm[i].2) →
      entry R W r q = admEntry R W i r q) := by
  obtain ⟨c1, c2, c3, c4, c5, hc, e1, e2, e3, e4, e5⟩ := entry_sums hwf hW hA hI hcov hr hq
  have hll : (List.range R.arr.nLeaf).map R.arr.heightNodes = leaves R.arr := leaf_list hwf.tree
  have hlen : ((leaves R.arr).map (fun v => (v, v))).length = R.arr.nLeaf := by rw [List.length_map, ← hll]; simp
  have hget : ∀ i (h : i < ((leaves R.arr).map (fun v => (v, v))).length), ((leaves R.arr).map (fun v => (v, v)))[i] = (R.leaf i, R.leaf i) := by
    intro i h
    simp only [← hll, List.getElem_map, List.getElem_range]
    rfl
  have f1 : ∀ i (h : i < ((leaves R.arr).map (fun v => (v, v))).length), decide (Holds R.arr (r / R.kdim) (q / R.kdim) ((leaves R.arr).map (fun v => (v, v)))[i]) = false →
      blockEntry R (R.leaf i) (R.leaf i) (R.D i) r q = 0 := by
    intro i h hh
    rw [hget i h, decide_eq_false_iff_not] at hh
    exact blockEntry_zero hwf.kdim hh
  have f2 : ∀ i (h : i < R.inadm.length), decide (Holds R.arr (r / R.kdim) (q / R.kdim) R.inadm[i]) = false → inadmEntry R i r q = 0 :=
    fun i h hh => inadm_zero hwf h (decide_eq_false_iff_not.1 hh)
  have f3 : ∀ i (h : i < R.inadm.length), decide (Holds R.arr (q / R.kdim) (r / R.kdim) R.inadm[i]) = false → inadmEntry R i q r = 0 :=
    fun i h hh => inadm_zero hwf h (decide_eq_false_iff_not.1 hh)
  have f4 : ∀ i (h : i < R.adm.length), decide (Holds R.arr (r / R.kdim) (q / R.kdim) R.adm[i]) = false → admEntry R W i r q = 0 :=
    fun i h hh => adm_zero hwf hW h (decide_eq_false_iff_not.1 hh)
  have f5 : ∀ i (h : i < R.adm.length), decide (Holds R.arr (q / R.kdim) (r / R.kdim) R.adm[i]) = false → admEntry R W i q r = 0 :=
    fun i h hh => adm_zero hwf hW h (decide_eq_false_iff_not.1 hh)
  have z1 : c1 = 0 → ∑ i ∈ range R.arr.nLeaf, blockEntry R (R.leaf i) (R.leaf i) (R.D i) r q = 0 := by
    intro h
    rw [← hlen]
    exact sum_count_zero _ _ _ f1 (by rw [e1, h])
  have z2 : c2 = 0 → ∑ i ∈ range R.inadm.length, inadmEntry R i r q = 0 := fun h => sum_count_zero _ _ _ f2 (by rw [e2, h])
  have z3 : c3 = 0 → ∑ i ∈ range R.inadm.length, inadmEntry R i q r = 0 := fun h => sum_count_zero _ _ _ f3 (by rw [e3, h])
  have z4 : c4 = 0 → ∑ i ∈ range R.adm.length, admEntry R W i r q = 0 := fun h => sum_count_zero _ _ _ f4 (by rw [e4, h])
  have z5 : c5 = 0 → ∑ i ∈ range R.adm.length, admEntry R W i q r = 0 := fun h => sum_count_zero _ _ _ f5 (by rw [e5, h])
  have hent : entry R W r q = (∑ i ∈ range R.adm.length, admEntry R W i r q + ∑ i ∈ range R.adm.length, admEntry R W i q r) +
      (∑ i ∈ range R.arr.nLeaf, blockEntry R (R.leaf i) (R.leaf i) (R.D i) r q) +
      (∑ i ∈ range R.inadm.length, inadmEntry R i r q + ∑ i ∈ range R.inadm.length, inadmEntry R i q r) := by
    unfold entry
    rw [sum_add_distrib, sum_add_distrib]
  refine ⟨?_, ?_, ?_⟩
  · intro i hi h1 h2
    have hi' : i < ((leaves R.arr).map (fun v => (v, v))).length := by rw [hlen]; exact hi
    have hH : decide (Holds R.arr (r / R.kdim) (q / R.kdim) ((leaves R.arr).map (fun v => (v, v)))[i]) = true := by
      rw [hget i hi']; exact decide_eq_true (holds_rows hwf.kdim h1 h2)
    have hpos : 0 < c1 := by rw [← e1]; exact List.countP_pos_iff.2 ⟨_, List.getElem_mem hi', hH⟩
    have hone := sum_count_one _ _ _ f1 (by rw [e1]; omega) hi' hH
    rw [hlen] at hone
    rw [hent, z2 (by omega), z3 (by omega), z4 (by omega), z5 (by omega), hone]
    unfold blockEntry
    rw [if_pos ⟨h1, h2⟩]
    ring
  · intro i hi h1 h2
    have hH : decide (Holds R.arr (r / R.kdim) (q / R.kdim) R.inadm[i]) = true := decide_eq_true (holds_rows hwf.kdim h1 h2)
    have hpos : 0 < c2 := by rw [← e2]; exact List.countP_pos_iff.2 ⟨_, List.getElem_mem hi, hH⟩
    rw [hent, z1 (by omega), z3 (by omega), z4 (by omega), z5 (by omega), sum_count_one _ _ _ f2 (by rw [e2]; omega) hi hH]
    unfold inadmEntry blockEntry
    have e : R.inadm.getD i (0, 0) = R.inadm[i] := by simp [List.getD, hi]
    rw [e, if_pos ⟨h1, h2⟩]
    ring
  · intro i hi h1 h2
    have hH : decide (Holds R.arr (r / R.kdim) (q / R.kdim) R.adm[i]) = true := decide_eq_true (holds_rows hwf.kdim h1 h2)
    have hpos : 0 < c4 := by rw [← e4]; exact List.countP_pos_iff.2 ⟨_, List.getElem_mem hi, hH⟩
    rw [hent, z1 (by omega), z2 (by omega), z3 (by omega), z5 (by omega), sum_count_one _ _ _ f4 (by rw [e4]; omega) hi hH]
    ring

end

end H2Pack.SPD
