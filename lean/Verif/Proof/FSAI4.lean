import Verif.Proof.FSAI3
import Verif.Props.CSR

/-! # Packing the FSAI matrix and the products with it -/

namespace H2Pack.AFN
open H2Pack.ULV H2Pack.CSR Finset Matrix

theorem sum_map_range (f : Nat → ℝ) (n : Nat) : ((List.range n).map f).sum = ∑ k ∈ range n, f k := by
  induction n with
  | zero => simp
  | succ n ih => rw [List.range_succ, List.map_append, List.sum_append, ih, sum_range_succ]; simp

theorem dense_rows (n : Nat) (M : CSR.Mat ℝ) (i j : Fin n) :
    dense n M i j = ((M.rowEntries i).map (fun e => if e.1 = ((j : Nat) : Int) then e.2 else 0)).sum := by
  unfold dense Mat.rowEntries
  rw [List.map_map]
  rcases Nat.le_total (M.rp i) (M.rp (i + 1)) with h | h
  · rw [List.range'_eq_map_range, List.map_map, sum_map_range, ← sum_range_add_sum_Ico _ h, sum_eq_zero, zero_add, sum_Ico_eq_sum_range]
    · refine sum_congr rfl fun k _ => ?_
      simp
    · intro k hk
      have := mem_range.1 hk
      rw [if_neg (by omega)]
  · rw [Nat.sub_eq_zero_of_le h, sum_eq_zero]
    · simp
    · intro k hk
      have := mem_range.1 hk
      rw [if_neg (by omega)]

theorem spmv_rows (M : CSR.Mat ℝ) (x : Nat → ℝ) (i : Nat) : spmv M x i = ((M.rowEntries i).map (fun e => e.2 * x e.1.toNat)).sum := by
  unfold spmv Mat.rowEntries
  rw [List.map_map]
  have : ∀ (l : List Nat) (a : ℝ), l.foldl (fun s j => s + M.val j * x (M.col j).toNat) a = a + (l.map fun j => M.val j * x (M.col j).toNat).sum := by
    intro l
    induction l with
    | nil => simp
    | cons b l ih => intro a; rw [List.foldl_cons, ih]; simp [add_assoc]
  rw [this, zero_add]
  rfl

theorem coo_rows (A : COO ℝ) (r : Nat) (f : Int × ℝ → ℝ) :
    ((A.rowEntries r).map f).sum = ∑ k ∈ range A.nnz, if A.row k = r then f (A.col k, A.val k) else 0 := by
  unfold COO.rowEntries
  rw [List.map_map]
  have : ∀ l : List Nat, ((l.filter (fun k => A.row k = r)).map (f ∘ fun k => (A.col k, A.val k))).sum =
      (l.map (fun k => if A.row k = r then f (A.col k, A.val k) else 0)).sum := by
    intro l
    induction l with
    | nil => rfl
    | cons a l ih =>
      rw [List.filter_cons]
      by_cases h : A.row a = r
      · simp [h, ih]
      · simp [h, ih]
  rw [this, sum_map_range]

/-- A CSR matrix with the entries of a COO matrix whose column indices are in range. -/
theorem csr_of_coo {n : Nat} {A : COO ℝ} {M : CSR.Mat ℝ} (hM : ∀ r < n, (M.rowEntries r).Perm (A.rowEntries r))
    (hc : ∀ k < A.nnz, 0 ≤ A.col k ∧ A.col k < n) :
    (∀ i j : Fin n, dense n M i j = ∑ k ∈ range A.nnz, if A.row k = i ∧ A.col k = ((j : Nat) : Int) then A.val k else 0) ∧
    ∀ (x : Nat → ℝ) (i : Fin n), spmv M x i = (dense n M *ᵥ fun j => x j) i := by
  have hd : ∀ i j : Fin n, dense n M i j = ∑ k ∈ range A.nnz, if A.row k = i ∧ A.col k = ((j : Nat) : Int) then A.val k else 0 := by
    intro i j
    rw [dense_rows, ((hM i i.2).map _).sum_eq, coo_rows]
    refine sum_congr rfl fun k _ => ?_
    by_cases h : A.row k = i <;> simp [h]
  refine ⟨hd, fun x i => ?_⟩
  rw [spmv_rows, ((hM i i.2).map _).sum_eq, coo_rows, Matrix.mulVec, dotProduct]
  simp_rw [hd, sum_mul]
  rw [sum_comm]
  refine sum_congr rfl fun k hk => ?_
  obtain ⟨h1, h2⟩ := hc k (mem_range.1 hk)
  rw [sum_eq_single (⟨(A.col k).toNat, by omega⟩ : Fin n)]
  · by_cases h : A.row k = i
    · rw [if_pos h, if_pos ⟨h, by simp only; omega⟩]
    · rw [if_neg h, if_neg (fun x => h x.1), zero_mul]
  · intro j _ hj
    rw [if_neg, zero_mul]
    intro h
    exact hj (Fin.ext (by have := h.2; simp only; omega))
  · intro h; exact absurd (mem_univ _) h

theorem sum_getD {α : Type} (E : List α) (d : α) (f : α → ℝ) : ∑ k ∈ range E.length, f (E.getD k d) = (E.map f).sum := by
  rw [← sum_map_range]
  congr 1
  apply List.ext_getElem (by simp)
  intro k h1 h2
  simp only [List.getElem_map, List.getElem_range]
  rw [List.getD_eq_getElem _ _ (by simpa using h1)]

theorem sum_entries (n : Nat) (nn : Nat → List Nat) (vals : Nat → List ℝ) (hl : ∀ i < n, (vals i).length = (nn i).length) (f : Nat × Nat × ℝ → ℝ) :
    ((fsaiEntries n nn vals).map f).sum = ∑ i ∈ range n, ∑ p ∈ range (nn i).length, f (i, (nn i).getD p 0, (vals i).getD p 0) := by
  unfold fsaiEntries
  induction n with
  | zero => simp
  | succ n ih =>
    rw [List.range_succ, List.flatMap_append, List.map_append, List.sum_append, ih (fun i hi => hl i (by omega)), sum_range_succ]
    congr 1
    rw [List.flatMap_singleton, List.map_map, ← sum_map_range]
    have hz := hl n (by omega)
    congr 1
    apply List.ext_getElem
    · simp [hz]
    · intro k h1 h2
      simp at h2
      simp [List.getElem?_eq_getElem h2, List.getElem?_eq_getElem (show k < (vals n).length by omega)]

theorem entries_mem {n : Nat} {nn : Nat → List Nat} {vals : Nat → List ℝ} {e : Nat × Nat × ℝ} (h : e ∈ fsaiEntries n nn vals) : e.1 < n ∧ e.2.1 ∈ nn e.1 := by
  unfold fsaiEntries at h
  obtain ⟨i, hi, he⟩ := List.mem_flatMap.1 h
  obtain ⟨cv, hcv, rfl⟩ := List.mem_map.1 he
  exact ⟨List.mem_range.1 hi, (List.of_mem_zip hcv).1⟩

/-- The conversion, also for the empty matrix. -/
theorem coo2csr (A : COO ℝ) (hrow : ∀ k < A.nnz, A.row k < A.nrow) (h0 : A.nnz = 0 → A.nrow = 0) (col0 : Nat → Int) (val0 : Nat → ℝ) (order : List Nat)
    (ho : order.Perm (List.range A.nrow)) :
    ∃ M, Returns (cooToCSR A col0 val0 order) M ∧ ∀ r < A.nrow, (M.rowEntries r).Perm (A.rowEntries r) := by
  by_cases hz : A.nnz = 0
  · have hn0 := h0 hz
    have e0 : order = [] := by rw [hn0] at ho; simpa using ho
    have hM : ∀ fuel, cooToCSR A col0 val0 order fuel = cooToCSR A col0 val0 order 0 := by
      intro fuel
      unfold cooToCSR
      rw [if_pos (by simp [hz]), if_pos (by simp [hz]), e0]
      rfl
    obtain ⟨M, hM0⟩ : ∃ M, cooToCSR A col0 val0 order 0 = .ok M := by
      unfold cooToCSR
      rw [if_pos (by simp [hz]), e0]
      exact ⟨_, rfl⟩
    rw [hM0] at hM
    exact ⟨M, ⟨0, fun fuel _ => hM fuel⟩, fun r hr => by omega⟩
  · obtain ⟨M, hM, _, _, _, hr⟩ := C04_coo_to_csr A hrow (by omega) col0 val0 order ho
    exact ⟨M, hM, fun r h => (hr r h).1⟩

theorem fsaiBuild_spec (F : FsaiIn) (hL : F.lp.Correct) (hD : F.lp.Definite) (hk : ∀ x y, F.kf x y = F.kf y x) (hS : (target F).PosDef)
    {m : Nat} {nn : Nat → List Nat} (hn : ∀ i < F.n, Lower m i (nn i)) (ev : CsrEnv) (h1 : ev.ordG.Perm (List.range F.n)) (h2 : ev.ordGT.Perm (List.range F.n)) :
    ∃ M, Returns (fsaiBuild F nn ev) (some M) ∧ IsFSAI nn (target F) (dense F.n M.g) ∧ dense F.n M.gt = (dense F.n M.g)ᵀ ∧
      ∀ (x : Nat → ℝ) (i : Fin F.n), fsaiApply M x i = (((dense F.n M.g)ᵀ * dense F.n M.g) *ᵥ fun j => x j) i := by
  have hrow : ∀ i < F.n, ∃ g z, fsaiRow F (nn i) = some g ∧ RowOk F (nn i) g z := fun i hi => fsaiRow_spec F hL hD hk hS (hn i hi) hi
  have hne : ¬ ∃ i < F.n, nn i = [] := by
    rintro ⟨i, hi, e⟩
    have := (hn i hi).last
    rw [e] at this; cases this
  have hall : ∀ i < F.n, (fsaiRow F (nn i)).isSome = true := by
    intro i hi
    obtain ⟨g, z, e, _⟩ := hrow i hi
    rw [e]; rfl
  generalize hvd : (fun i => (fsaiRow F (nn i)).getD []) = vals
  have hv : ∀ i < F.n, ∃ z, RowOk F (nn i) (vals i) z := by
    intro i hi
    obtain ⟨g, z, e, h⟩ := hrow i hi
    refine ⟨z, ?_⟩
    rw [← hvd]
    show RowOk F (nn i) ((fsaiRow F (nn i)).getD []) z
    rw [e]; exact h
  have hvals : fsaiVals F nn = .ok (some vals) := by
    unfold fsaiVals
    rw [if_neg hne, if_pos hall, hvd]
  have hlen : ∀ i < F.n, (vals i).length = (nn i).length := fun i hi => (hv i hi).choose_spec.len
  generalize hE : fsaiEntries F.n nn vals = E
  have hmem : ∀ e ∈ E, e.1 < F.n ∧ e.2.1 < F.n := by
    intro e he
    rw [← hE] at he
    obtain ⟨a, b⟩ := entries_mem he
    exact ⟨a, lt_of_le_of_lt ((hn _ a).le _ b) a⟩
  have hget : ∀ k < E.length, (E.getD k (0, 0, 0)).1 < F.n ∧ (E.getD k (0, 0, 0)).2.1 < F.n := by
    intro k hk
    refine hmem _ ?_
    rw [List.getD_eq_getElem _ _ hk]
    exact List.getElem_mem hk
  have hzero : E.length = 0 → F.n = 0 := by
    intro hz
    by_contra hn0
    have := sum_entries F.n nn vals hlen (fun _ => 1)
    rw [hE, List.length_eq_zero_iff.1 hz] at this
    simp only [List.map_nil, List.sum_nil, sum_const, card_range, nsmul_eq_mul, mul_one] at this
    have h0 := (hn 0 (by omega)).getD.1
    have : (1 : ℝ) ≤ 0 := by
      rw [this]
      refine le_trans (b := ((nn 0).length : ℝ)) (by exact_mod_cast h0) (single_le_sum (f := fun i => ((nn i).length : ℝ)) (fun i _ => by positivity) (mem_range.2 (by omega)))
    norm_num at this
  have hg := coo2csr (cooG F.n E) (fun k hk => (hget k hk).1) hzero ev.col0 ev.val0 ev.ordG h1
  have hgt := coo2csr (cooGT F.n E) (fun k hk => (hget k hk).2) hzero ev.col0 ev.val0 ev.ordGT h2
  obtain ⟨g, ⟨F1, hF1⟩, pg⟩ := hg
  obtain ⟨gt, ⟨F2, hF2⟩, pgt⟩ := hgt
  obtain ⟨d1, s1⟩ := csr_of_coo (n := F.n) pg (fun k hk => ⟨by simp [cooG], by have := (hget k hk).2; simp only [cooG]; omega⟩)
  obtain ⟨d2, s2⟩ := csr_of_coo (n := F.n) pgt (fun k hk => ⟨by simp [cooGT], by have := (hget k hk).1; simp only [cooGT]; omega⟩)
  have hT : dense F.n gt = (dense F.n g)ᵀ := by
    ext i j
    rw [Matrix.transpose_apply, d1, d2]
    refine sum_congr rfl fun k _ => ?_
    simp only [cooG, cooGT]
    have : ((E.getD k (0, 0, 0)).2.1 = (i : Nat) ∧ ((E.getD k (0, 0, 0)).1 : Int) = ((j : Nat) : Int)) ↔
        ((E.getD k (0, 0, 0)).1 = (j : Nat) ∧ ((E.getD k (0, 0, 0)).2.1 : Int) = ((i : Nat) : Int)) := by
      constructor <;> intro h <;> constructor <;> omega
    by_cases h : (E.getD k (0, 0, 0)).2.1 = (i : Nat) ∧ ((E.getD k (0, 0, 0)).1 : Int) = ((j : Nat) : Int)
    · exact (if_pos h).trans (if_pos (this.1 h)).symm
    · exact (if_neg h).trans (if_neg (fun x => h (this.2 x))).symm
  have hG : dense F.n g = gMat F.n nn vals := by
    ext i j
    rw [d1]
    have e := sum_getD E (0, 0, 0) (fun e => if e.1 = (i : Nat) ∧ (e.2.1 : Int) = ((j : Nat) : Int) then e.2.2 else 0)
    rw [← hE, sum_entries F.n nn vals hlen, hE] at e
    refine e.trans ?_
    rw [sum_eq_single (i : Nat)]
    · refine sum_congr rfl fun p _ => ?_
      by_cases h : (nn i).getD p 0 = (j : Nat)
      · rw [if_pos h, if_pos ⟨rfl, by exact_mod_cast h⟩]
      · rw [if_neg h, if_neg (fun x => h (by exact_mod_cast x.2))]
    · intro r _ hr
      exact sum_eq_zero fun p _ => if_neg fun x => hr x.1
    · intro h; exact absurd (mem_range.2 i.2) h
  refine ⟨⟨g, gt⟩, ⟨F1 + F2, fun fuel hf => ?_⟩, ?_, hT, fun x i => ?_⟩
  · have e1 := hF1 fuel (by omega)
    have e2 := hF2 fuel (by omega)
    unfold fsaiBuild
    rw [hvals]
    simp only [Res.bind_ok]
    rw [hE, e1]
    simp only [Res.bind_ok]
    rw [e2]
    rfl
  · rw [hG]; exact gMat_fsai F hn hv
  · show spmv gt (spmv g x) i = _
    rw [s2, hT, ← Matrix.mulVec_mulVec]
    congr 1
    congr 1
    funext j
    exact s1 x j

end H2Pack.AFN
