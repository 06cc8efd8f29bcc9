import Verif.Proof.CSR
import Mathlib.Tactic.IntervalCases

/-!
# Properties of the COO to CSR conversion (C04) and of the pair lookup (C05)
-/

namespace H2Pack.CSR

variable {ν : Type}

/-- Specification: the `(column, value)` entries given for row `r`, in input order. -/
def COO.rowEntries {ν : Type} (A : COO ν) (r : Nat) : List (Int × ν) :=
  ((List.range A.nnz).filter (fun k => A.row k = r)).map (fun k => (A.col k, A.val k))

/-- Specification: the `(column, value)` entries stored in row `r` of a CSR matrix. -/
def Mat.rowEntries {ν : Type} (M : Mat ν) (r : Nat) : List (Int × ν) :=
  (List.range' (M.rp r) (M.rp (r+1) - M.rp r)).map (fun k => (M.col k, M.val k))

/-- **C04**.  For every matrix with at least one entry and row indices in range, whatever the previous
contents of the output buffers and in whatever order the rows are sorted by the threads, the conversion
terminates without undefined behaviour; the row pointers start at 0, are non-decreasing and end at
`nnz`; each row holds exactly its entries (as a multiset), with non-decreasing columns. -/
theorem C04_coo_to_csr (A : COO ν) (hrow : ∀ k < A.nnz, A.row k < A.nrow) (hn : 1 ≤ A.nnz)
    (col0 : Nat → Int) (val0 : Nat → ν) (order : List Nat) (hord : order.Perm (List.range A.nrow)) :
    ∃ M, Returns (cooToCSR A col0 val0 order) M ∧
      M.rp 0 = 0 ∧ M.rp A.nrow = A.nnz ∧ (∀ i j, i ≤ j → j ≤ A.nrow → M.rp i ≤ M.rp j) ∧
      ∀ r < A.nrow, (M.rowEntries r).Perm (A.rowEntries r) ∧
        (M.rowEntries r).Pairwise (fun a b => a.1 ≤ b.1) := by
  have hb := bucket_inv A hrow (prefixRows A.nrow (countRows A)) (prefix_count A) col0 val0 A.nnz (le_refl _)
  dsimp only at hb
  generalize hbdef : (List.range A.nnz).foldl (bucketStep A) ⟨prefixRows A.nrow (countRows A), col0, val0⟩ = b at hb
  obtain ⟨hb1, hb2⟩ := hb
  obtain ⟨sh0, sh1⟩ := shiftRows_eq A.nrow b.rp
  have hrp : ∀ i ≤ A.nrow, shiftRows A.nrow b.rp i = startOf A i := by
    intro i hi
    by_cases h0 : i = 0
    · subst h0; rw [sh0]; simp [startOf]
    · rw [sh1 i (by omega) hi, hb1 (i-1) (by omega), ← startOf_succ]
      congr 1; omega
  have hmono : ∀ i j, i ≤ j → j ≤ A.nrow → shiftRows A.nrow b.rp i ≤ shiftRows A.nrow b.rp j := by
    intro i j h1 h2
    rw [hrp i (by omega), hrp j h2]; exact startOf_mono A h1
  have hend := startOf_nrow A hrow
  obtain ⟨kv', ⟨F, hF⟩, q1, q2, q3⟩ := sortRows_spec A.nnz hn (shiftRows A.nrow b.rp) A.nrow hmono
    (by rw [hrp _ (le_refl _), hend]) order ⟨toInt b.col, toInt b.val⟩
    (hord.nodup_iff.2 List.nodup_range) (fun i hi => List.mem_range.1 (hord.mem_iff.1 hi))
  refine ⟨⟨shiftRows A.nrow b.rp, fun k => kv'.key k, fun k => kv'.val k⟩, ⟨F, fun fuel hf => ?_⟩,
    sh0, (hrp _ (le_refl _)).trans hend, hmono, fun r hr => ?_⟩
  · unfold cooToCSR
    rw [if_pos (by rw [List.all_eq_true]; intro k hk; simpa using hrow k (List.mem_range.1 hk))]
    dsimp only
    rw [hbdef]
    have e : sortRows A.nnz (shiftRows A.nrow b.rp) fuel order ⟨toInt b.col, toInt b.val⟩ = .ok kv' := hF fuel hf
    rw [e]; rfl
  · have hpairs : kvPairs ⟨toInt b.col, toInt b.val⟩ (shiftRows A.nrow b.rp r)
        (shiftRows A.nrow b.rp (r+1) - shiftRows A.nrow b.rp r) = A.rowEntries r := by
      rw [hrp r (by omega), hrp (r+1) (by omega), startOf_succ, Nat.add_sub_cancel_left]
      rw [show A.rowEntries r = List.map (fun k => (A.col k, A.val k)) (rowIdx A r A.nnz) from rfl, ← hb2 r hr]
      unfold kvPairs slicePairs toInt
      apply List.map_congr_left
      intro p _
      simp
    refine ⟨?_, q3 r (hord.mem_iff.2 (List.mem_range.2 hr))⟩
    rw [← hpairs]
    exact q1 r hr

/-- With no entry at all the sort of the first row reads `key[0]` of an empty array: undefined
behaviour, so the hypothesis `1 ≤ nnz` of C04 is needed. -/
theorem C04_empty_is_ub (A : COO ν) (h0 : A.nnz = 0) (col0 : Nat → Int) (val0 : Nat → ν) (i : Nat) (order : List Nat)
    (hi : i < A.nrow) (fuel : Nat) : cooToCSR A col0 val0 (i :: order) (fuel + 1) = .ub := by
  unfold cooToCSR
  rw [h0, if_pos (by simp)]
  have key : ∀ (kv : KV Int ν) (l r : Int), qsort (0 : Int) (fuel+1) kv l r = .ub := by
    intro kv l r
    simp only [qsort]
    rw [if_pos (by omega)]
  have : ∀ (rp : Nat → Nat) (order : List Nat),
      order.foldl (fun (r : Res (KV Int ν)) i => do
        let kv ← r
        qsort (0:Int) (fuel+1) kv (rp i : Int) ((rp (i+1) : Int) - 1)) .ub = .ub := by
    intro rp order
    induction order with
    | nil => rfl
    | cons x xs ih => simp only [List.foldl_cons]; exact ih
  unfold sortRows
  simp only [List.foldl_cons, Res.bind_ok, Nat.cast_zero]
  rw [key, this]
  rfl

/-- An entry with a row index out of range makes the conversion write outside `row_ptr`. -/
theorem C04_bad_row_is_ub (A : COO ν) (k : Nat) (hk : k < A.nnz) (hr : A.nrow ≤ A.row k)
    (col0 : Nat → Int) (val0 : Nat → ν) (order : List Nat) (fuel : Nat) : cooToCSR A col0 val0 order fuel = .ub := by
  unfold cooToCSR
  rw [if_neg]
  intro h
  have := List.all_eq_true.1 h k (List.mem_range.2 hk)
  simp at this; omega

/-! ## Lookup -/

theorem find_range' (M : Mat) (r : Nat) (c : Int) :
    ((List.range' (M.rp r) (M.rp (r+1) - M.rp r)).find? (fun k => M.col k = c) = none ∧
      ∀ v, (c, v) ∉ M.rowEntries r) ∨
    ∃ k, (List.range' (M.rp r) (M.rp (r+1) - M.rp r)).find? (fun k => M.col k = c) = some k ∧
      M.rp r ≤ k ∧ k < M.rp (r+1) ∧ M.col k = c ∧ (c, M.val k) ∈ M.rowEntries r := by
  cases hf : (List.range' (M.rp r) (M.rp (r+1) - M.rp r)).find? (fun k => M.col k = c) with
  | none =>
    left
    refine ⟨rfl, fun v hv => ?_⟩
    rw [List.find?_eq_none] at hf
    unfold Mat.rowEntries at hv
    rw [List.mem_map] at hv
    obtain ⟨k, hk, he⟩ := hv
    have := hf k hk
    simp only [Prod.mk.injEq] at he
    simp [he.1] at this
  | some k =>
    right
    have h1 := List.mem_of_find?_eq_some hf
    have h2 := List.find?_some hf
    simp only [decide_eq_true_eq] at h2
    have h3 := List.mem_range'_1.1 h1
    refine ⟨k, rfl, h3.1, by omega, h2, ?_⟩
    unfold Mat.rowEntries
    rw [List.mem_map]
    exact ⟨k, h1, by rw [h2]⟩

/-- **C05** (found).  If `(col, v)` is the only entry of the row with that column, the lookup returns `v`. -/
theorem C05_get_found (M : Mat) (r : Nat) (c v : Int) (h : (c, v) ∈ M.rowEntries r)
    (huniq : ∀ w, (c, w) ∈ M.rowEntries r → w = v) : getElem M r c = v := by
  unfold getElem
  rcases find_range' M r c with ⟨_, h2⟩ | ⟨k, h1, _, _, _, h5⟩
  · exact absurd h (h2 v)
  · rw [h1]; exact huniq _ h5

/-- **C05** (not found).  If the row has no entry with that column, the lookup returns 0. -/
theorem C05_get_missing (M : Mat) (r : Nat) (c : Int) (h : ∀ v, (c, v) ∉ M.rowEntries r) :
    getElem M r c = 0 := by
  unfold getElem
  rcases find_range' M r c with ⟨h1, _⟩ | ⟨k, _, _, _, _, h5⟩
  · rw [h1]; rfl
  · exact absurd h5 (h _)

/-- **C05** (update).  For a matrix with non-decreasing row pointers: setting an element reports whether
the element exists; if it exists the new value is returned by the lookup of that element, and the lookup
of every other (row, column) position is unchanged; if it does not exist nothing changes. -/
theorem C05_set (M : Mat) (nrow : Nat) (hmono : ∀ i j, i ≤ j → j ≤ nrow → M.rp i ≤ M.rp j)
    (r : Nat) (hr : r < nrow) (c v : Int) :
    ((setElem M r c v).2 = true ↔ ∃ w, (c, w) ∈ M.rowEntries r) ∧
    ((setElem M r c v).2 = false → (setElem M r c v).1 = M) ∧
    ((setElem M r c v).2 = true →
      getElem (setElem M r c v).1 r c = v ∧
      ∀ r' < nrow, ∀ c', (r', c') ≠ (r, c) → getElem (setElem M r c v).1 r' c' = getElem M r' c') := by
  unfold setElem
  rcases find_range' M r c with ⟨h1, h2⟩ | ⟨k, h1, hk1, hk2, h4, h5⟩
  · rw [h1]
    refine ⟨⟨fun h => by simp at h, fun h => absurd h.choose_spec (h2 _)⟩, fun _ => rfl, fun h => by simp at h⟩
  · rw [h1]
    refine ⟨⟨fun _ => ⟨_, h5⟩, fun _ => rfl⟩, fun h => by simp at h, fun _ => ⟨?_, ?_⟩⟩
    · unfold getElem
      dsimp only
      rw [h1]; simp
    · intro r' hr' c' hne
      unfold getElem
      dsimp only
      rcases find_range' M r' c' with ⟨g1, _⟩ | ⟨k', g1, gk1, gk2, g4, _⟩
      · rw [g1]; rfl
      · rw [g1]
        simp only [Option.elim]
        rw [Function.update_of_ne]
        rintro rfl
        -- the same position in two rows forces equal rows and columns
        have hrr : r' = r := by
          rcases Nat.lt_trichotomy r' r with h | h | h
          · have := hmono (r'+1) r (by omega) (by omega); omega
          · exact h
          · have := hmono (r+1) r' (by omega) (by omega); omega
        subst hrr
        exact hne (by rw [← g4, ← h4])

/-- **C05** (end to end).  Looking up `(row, col)` in the converted matrix returns the value of the unique
input entry at that position, and 0 if there is none. -/
theorem C05_lookup_of_coo (A : COO) (hrow : ∀ k < A.nnz, A.row k < A.nrow)
    (huniq : ∀ k k', k < A.nnz → k' < A.nnz → A.row k = A.row k' → A.col k = A.col k' → k = k')
    (col0 val0 : Nat → Int) (order : List Nat) (hord : order.Perm (List.range A.nrow)) (M : Mat)
    (hM : Returns (cooToCSR A col0 val0 order) M) :
    (∀ k < A.nnz, getElem M (A.row k) (A.col k) = A.val k) ∧
    (∀ r < A.nrow, ∀ c, (∀ k < A.nnz, ¬ (A.row k = r ∧ A.col k = c)) → 1 ≤ A.nnz → getElem M r c = 0) := by
  have same : 1 ≤ A.nnz → ∀ r < A.nrow, (M.rowEntries r).Perm (A.rowEntries r) := by
    intro hn r hr
    obtain ⟨M', hM', _, _, _, h⟩ := C04_coo_to_csr A hrow hn col0 val0 order hord
    obtain ⟨F, hF⟩ := hM
    obtain ⟨F', hF'⟩ := hM'
    have e := (hF (F + F') (by omega)).symm.trans (hF' (F + F') (by omega))
    rw [Res.ok.injEq] at e
    rw [e]; exact (h r hr).1
  have mem : ∀ r c v, (c, v) ∈ A.rowEntries r ↔ ∃ k < A.nnz, A.row k = r ∧ A.col k = c ∧ A.val k = v := by
    intro r c v
    unfold COO.rowEntries
    simp only [List.mem_map, List.mem_filter, List.mem_range, decide_eq_true_eq, Prod.mk.injEq]
    constructor
    · rintro ⟨k, ⟨h1, h2⟩, h3, h4⟩; exact ⟨k, h1, h2, h3, h4⟩
    · rintro ⟨k, h1, h2, h3, h4⟩; exact ⟨k, ⟨h1, h2⟩, h3, h4⟩
  refine ⟨fun k hk => ?_, fun r hr c hno hn => ?_⟩
  · have p := same (by omega) (A.row k) (hrow k hk)
    apply C05_get_found
    · rw [p.mem_iff, mem]; exact ⟨k, hk, rfl, rfl, rfl⟩
    · intro w hw
      rw [p.mem_iff, mem] at hw
      obtain ⟨k', h1, h2, h3, h4⟩ := hw
      rw [huniq k' k h1 hk h2 h3] at h4
      exact h4.symm
  · apply C05_get_missing
    intro v hv
    rw [(same hn r hr).mem_iff, mem] at hv
    obtain ⟨k, h1, h2, h3, _⟩ := hv
    exact hno k h1 ⟨h2, h3⟩

/-! ## Non-vacuity -/

/-- A concrete 3x3 matrix with an empty row and an unsorted row. -/
def exCOO : COO := ⟨3, 4, fun k => [2, 0, 2, 2].getD k 0, fun k => [2, 1, 0, 1].getD k 0, fun k => [10, 11, 12, -13].getD k 0⟩

example : ∃ M, Returns (cooToCSR exCOO (fun _ => 0) (fun _ => 0) [1, 2, 0]) M ∧
    getElem M 2 1 = -13 ∧ getElem M 2 2 = 10 ∧ getElem M 1 1 = 0 := by
  have hrow : ∀ k < exCOO.nnz, exCOO.row k < exCOO.nrow := by decide
  have hord : [1, 2, 0].Perm (List.range exCOO.nrow) := by decide
  obtain ⟨M, hM, _⟩ := C04_coo_to_csr exCOO hrow (by decide) (fun _ => 0) (fun _ => 0) [1, 2, 0] hord
  obtain ⟨h1, h2⟩ := C05_lookup_of_coo exCOO hrow (by
    intro k k' h1 h2
    have h1 : k < 4 := h1
    have h2 : k' < 4 := h2
    interval_cases k <;> interval_cases k' <;> decide) _ _ _ hord M hM
  exact ⟨M, hM, h1 3 (by decide), h1 0 (by decide), h2 1 (by decide) 1 (by decide) (by decide)⟩

end H2Pack.CSR
