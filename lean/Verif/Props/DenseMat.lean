import Verif.Proof.DenseMat
import Verif.Props.IntVec

/-! # Dense matrix operations (C35, C36, C37) -/

namespace H2Pack.Dense
variable {α : Type}

/-! ## Specification -/

/-- Block-diagonal matrix of a list of blocks. -/
def specBlkdiag [Zero α] : List (Mat α) → Nat → Nat → α
  | [], _, _ => 0
  | m :: ms, i, j =>
    if i < m.nrow then (if j < m.ncol then m.entry i j else 0)
    else if j < m.ncol then 0 else specBlkdiag ms (i - m.nrow) (j - m.ncol)

/-- Blocks stacked vertically. -/
def specVert (dflt : α) : List (Mat α) → Nat → Nat → α
  | [], _, _ => dflt
  | m :: ms, i, j => if i < m.nrow then m.entry i j else specVert dflt ms (i - m.nrow) j

/-- Blocks side by side. -/
def specHorz (dflt : α) : List (Mat α) → Nat → Nat → α
  | [], _, _ => dflt
  | m :: ms, i, j => if j < m.ncol then m.entry i j else specHorz dflt ms i (j - m.ncol)

/-! ## C35 -/

/-- **C35** (rows).  With a strictly increasing list of row indices the in-place selection succeeds
(in particular no `memcpy` overlaps) and gives exactly the selected rows. -/
theorem C35_select_rows (m : Mat α) (hwf : m.WF) (idx : List Nat) (hinc : idx.Pairwise (· < ·))
    (hlt : ∀ r ∈ idx, r < m.nrow) :
    ∃ m', selectRows m idx = .ok m' ∧ m'.WF ∧ m'.nrow = idx.length ∧ m'.ncol = m.ncol ∧
      ∀ t j (ht : t < idx.length), j < m.ncol → m'.entry t j = m.entry idx[t] j := by
  obtain ⟨d, e, h1, _⟩ := selRowsLoop_spec m hwf idx 0 m.data
    (fun t ht => by have := IntVec.strictMono_ge idx hinc t ht; omega) hlt
  have hlen : idx.length ≤ m.nrow := by
    by_contra hcon
    have h2 := IntVec.strictMono_ge idx hinc m.nrow (by omega)
    have h3 := hlt _ (List.getElem_mem (show m.nrow < idx.length by omega))
    omega
  refine ⟨⟨idx.length, m.ncol, m.ld, m.size, d⟩, by rw [selectRows, e]; rfl, ⟨hwf.1, ?_⟩, rfl, rfl, ?_⟩
  · have := row_mono m.ld hlen
    have := hwf.2
    dsimp only; omega
  · intro t j ht hj
    have := h1 t j ht hj
    rw [Nat.zero_add] at this
    exact this

/-- **C35** (columns). -/
theorem C35_select_columns (m : Mat α) (hwf : m.WF) (idx : List Nat) (hinc : idx.Pairwise (· < ·))
    (hlt : ∀ c ∈ idx, c < m.ncol) :
    ∃ m', selectColumns m idx = .ok m' ∧ m'.WF ∧ m'.nrow = m.nrow ∧ m'.ncol = idx.length ∧
      ∀ i t (ht : t < idx.length), i < m.nrow → m'.entry i t = m.entry i idx[t] := by
  have hlen : idx.length ≤ m.ncol := by
    by_contra hcon
    have h2 := IntVec.strictMono_ge idx hinc m.ncol (by omega)
    have h3 := hlt _ (List.getElem_mem (show m.ncol < idx.length by omega))
    omega
  have hl : idx.length ≤ m.ld := le_trans hlen hwf.1
  obtain ⟨d1, e1, a1, _⟩ := selColsRows_spec m.size m.ld idx hl m.nrow 0 m.data
    (fun t ht => ⟨IntVec.strictMono_ge idx hinc t ht, lt_of_lt_of_le (hlt _ (List.getElem_mem ht)) hwf.1⟩)
    (by rw [Nat.zero_add]; exact hwf.2)
  have hn : (1 + (m.nrow - 1)) * m.ld ≤ m.size ∨ m.nrow = 0 := by
    rcases Nat.eq_zero_or_pos m.nrow with h | h
    · exact Or.inr h
    · left; rw [show 1 + (m.nrow - 1) = m.nrow by omega]; exact hwf.2
  have step2 : ∃ d2, compactRows m.size m.ld idx.length 1 (m.nrow - 1) d1 = .ok d2 ∧
      ∀ i j, i < m.nrow → j < idx.length → d2 (i * idx.length + j) = d1 (i * m.ld + j) := by
    rcases hn with hn | hn
    · obtain ⟨d2, e2, b1, b2⟩ := compactRows_spec m.size m.ld idx.length hl (m.nrow - 1) 1 d1 hn
      refine ⟨d2, e2, ?_⟩
      intro i j hi hj
      rcases Nat.eq_zero_or_pos i with h | h
      · subst h
        rw [Nat.zero_mul, Nat.zero_mul, b2 _ (by omega)]
      · exact b1 i j h (by omega) hj
    · refine ⟨d1, by rw [hn]; rfl, fun i j hi => by omega⟩
  obtain ⟨d2, e2, b1⟩ := step2
  refine ⟨⟨m.nrow, idx.length, idx.length, m.size, d2⟩, by rw [selectColumns, e1]; simp only [Res.bind_ok]; rw [e2]; rfl,
    ⟨le_refl _, ?_⟩, rfl, rfl, ?_⟩
  · have : m.nrow * idx.length ≤ m.nrow * m.ld := Nat.mul_le_mul_left _ hl
    have := hwf.2
    dsimp only; omega
  · intro i t ht hi
    have h1 := b1 i t hi ht
    rw [a1 i t ht (by omega) (by omega)] at h1
    exact h1

/-- The order matters: selecting columns `[1, 0]` of the 1x2 matrix `(5 7)` gives `(7 7)`. -/
theorem C35_needs_increasing :
    ∃ (m m' : Mat Int) (idx : List Nat), m.WF ∧ idx.Nodup ∧ (∀ c ∈ idx, c < m.ncol) ∧ selectColumns m idx = .ok m' ∧
      m'.entry 0 1 = 7 ∧ m.entry 0 0 = 5 :=
  ⟨⟨1, 2, 2, 2, fun k => [5, 7].getD k 0⟩, _, [1, 0], ⟨by decide, by decide⟩, by decide, by decide, rfl, by decide, by decide⟩

/-! ## C36 -/

/-- **C36**.  Row permutation (any list of `nrow` in-range row numbers). -/
theorem C36_permute_rows (m : Mat α) (hwf : m.WF) (p : List Nat) (hl : p.length = m.nrow) (hp : ∀ r ∈ p, r < m.nrow)
    (g : Nat → α) :
    ∃ m', permuteRows m p g = .ok m' ∧ m'.WF ∧ m'.nrow = m.nrow ∧ m'.ncol = m.ncol ∧
      ∀ i j (hi : i < p.length), j < m.ncol → m'.entry i j = m.entry p[i] j := by
  obtain ⟨d, e, h1, _⟩ := permRowsLoop_spec m hwf (m.nrow * m.ncol) p 0 g hp (by rw [hl, Nat.zero_add])
  refine ⟨⟨m.nrow, m.ncol, m.ncol, m.nrow * m.ncol, d⟩, by rw [permuteRows, e]; rfl, ⟨le_refl _, le_refl _⟩, rfl, rfl, ?_⟩
  intro i j hi hj
  have := h1 i j hi hj
  rw [Nat.zero_add] at this
  exact this

/-! ## C37 -/

theorem resize_spec (m : Mat α) (r c : Nat) (g : Nat → α) :
    (resize m r c g).nrow = r ∧ (resize m r c g).ncol = c ∧ (resize m r c g).ld = c ∧ r * c ≤ (resize m r c g).size := by
  unfold resize; split
  · exact ⟨rfl, rfl, rfl, le_refl _⟩
  · exact ⟨rfl, rfl, rfl, by dsimp only; omega⟩

theorem block_copy (s : Mat α) (hs : s.WF) (dsize ldd ro co : Nat) (hc : co + s.ncol ≤ ldd)
    (hr : (ro + s.nrow) * ldd ≤ dsize) (data : Nat → α) :
    ∃ data', copyMatrix s.ncol s dsize ldd (ro * ldd + co) 0 s.nrow data = .ok data' ∧
      ∀ i j, j < ldd → data' (i * ldd + j) =
        if ro ≤ i ∧ i < ro + s.nrow ∧ co ≤ j ∧ j < co + s.ncol then s.entry (i - ro) (j - co) else data (i * ldd + j) := by
  obtain ⟨d, e, h1, h2⟩ := copyMatrix_spec s.ncol s dsize ldd (ro * ldd + co) (by omega) s.nrow 0 data (by
    intro i _ hi
    constructor
    · have := row_le (ld := ldd) (show ro + i < ro + s.nrow by omega) hc
      rw [Nat.add_mul] at this; omega
    · have := row_le (ld := s.ld) (show i < s.nrow by omega) hs.1
      have := hs.2
      omega)
  refine ⟨d, e, ?_⟩
  intro i j hj
  split
  · rename_i hb
    obtain ⟨b1, b2, b3, b4⟩ := hb
    have := h1 (i - ro) (j - co) (by omega) (by omega) (by omega)
    rw [show ro * ldd + co + (i - ro) * ldd + (j - co) = i * ldd + j by
      have h3 : ro * ldd + (i - ro) * ldd = i * ldd := by rw [← Nat.add_mul]; congr 1; omega
      omega] at this
    exact this
  · rename_i hb
    apply h2
    intro i' _ hi' hcon
    apply hb
    have e1 : ro * ldd + i' * ldd = (ro + i') * ldd := by rw [Nat.add_mul]
    have hii : i = ro + i' := by
      rcases Nat.lt_trichotomy i (ro + i') with h | h | h
      · have := row_lt h hj; omega
      · exact h
      · have := row_le (ld := ldd) h hc; omega
    subst hii
    omega

theorem blkdiagLoop_spec [Zero α] (dsize ldd : Nat) : ∀ (ms : List (Mat α)) (ro co : Nat) (data : Nat → α),
    (∀ m ∈ ms, m.WF) → co + (ms.map Mat.ncol).sum ≤ ldd → (ro + (ms.map Mat.nrow).sum) * ldd ≤ dsize →
    (∀ i j, ro ≤ i → i < ro + (ms.map Mat.nrow).sum → j < ldd → data (i * ldd + j) = 0) →
    ∃ data', blkdiagLoop dsize ldd ro co ms data = .ok data' ∧
      (∀ i j, i < ro → j < ldd → data' (i * ldd + j) = data (i * ldd + j)) ∧
      (∀ i j, i < (ms.map Mat.nrow).sum → co + j < ldd → data' ((ro + i) * ldd + (co + j)) = specBlkdiag ms i j) ∧
      (∀ i j, i < (ms.map Mat.nrow).sum → j < co → data' ((ro + i) * ldd + j) = 0) := by
  intro ms
  induction ms with
  | nil =>
    intro ro co data _ _ _ _
    exact ⟨data, rfl, fun _ _ _ _ => rfl, fun i j hi => by simp at hi, fun i j hi => by simp at hi⟩
  | cons m ms ih =>
    intro ro co data hwf hc hr hz
    simp only [List.map_cons, List.sum_cons] at hc hr hz ⊢
    have hr' : (ro + m.nrow) * ldd ≤ dsize := le_trans (row_mono ldd (by omega)) hr
    obtain ⟨d1, e1, q1⟩ := block_copy m (hwf m (by simp)) dsize ldd ro co (by omega) hr' data
    obtain ⟨d2, e2, p1, p2, p3⟩ := ih (ro + m.nrow) (co + m.ncol) d1 (fun x hx => hwf x (List.mem_cons_of_mem _ hx))
      (by omega) (by rw [show ro + m.nrow + (ms.map Mat.nrow).sum = ro + (m.nrow + (ms.map Mat.nrow).sum) by omega]; exact hr)
      (by
        intro i j h1 h2 h3
        rw [q1 i j h3, if_neg (by omega)]
        exact hz i j (by omega) (by omega) h3)
    refine ⟨d2, by rw [blkdiagLoop, e1]; exact e2, ?_, ?_, ?_⟩
    · intro i j hi hj
      rw [p1 i j (by omega) hj, q1 i j hj, if_neg (by omega)]
    · intro i j hi hj
      rw [specBlkdiag]
      by_cases h1 : i < m.nrow
      · rw [if_pos h1, p1 _ _ (by omega) hj, q1 _ _ hj]
        by_cases h2 : j < m.ncol
        · rw [if_pos (by omega), if_pos h2]; congr 1 <;> omega
        · rw [if_neg (by omega), if_neg h2]
          exact hz _ _ (by omega) (by omega) hj
      · rw [if_neg h1]
        by_cases h2 : j < m.ncol
        · rw [if_pos h2]
          have := p3 (i - m.nrow) (co + j) (by omega) (by omega)
          rw [show ro + m.nrow + (i - m.nrow) = ro + i by omega] at this
          exact this
        · rw [if_neg h2]
          have := p2 (i - m.nrow) (j - m.ncol) (by omega) (by omega)
          rw [show ro + m.nrow + (i - m.nrow) = ro + i by omega, show co + m.ncol + (j - m.ncol) = co + j by omega] at this
          exact this
    · intro i j hi hj
      by_cases h1 : i < m.nrow
      · rw [p1 _ _ (by omega) (by omega), q1 _ _ (by omega), if_neg (by omega)]
        exact hz _ _ (by omega) (by omega) (by omega)
      · have := p3 (i - m.nrow) j (by omega) (by omega)
        rw [show ro + m.nrow + (i - m.nrow) = ro + i by omega] at this
        exact this

/-- **C37** (block diagonal).  Every list of well-formed blocks, any destination matrix with any content. -/
theorem C37_blkdiag [Zero α] (ms : List (Mat α)) (hwf : ∀ m ∈ ms, m.WF) (new : Mat α) (g : Nat → α) :
    ∃ m', blkdiag ms new g = .ok m' ∧ m'.WF ∧ m'.nrow = (ms.map Mat.nrow).sum ∧ m'.ncol = (ms.map Mat.ncol).sum ∧
      ∀ i j, i < m'.nrow → j < m'.ncol → m'.entry i j = specBlkdiag ms i j := by
  obtain ⟨r1, r2, r3, r4⟩ := resize_spec new (ms.map Mat.nrow).sum (ms.map Mat.ncol).sum g
  unfold blkdiag
  dsimp only
  generalize resize new (ms.map Mat.nrow).sum (ms.map Mat.ncol).sum g = d at *
  rw [memsetZero, if_pos r4]
  simp only [Res.bind_ok]
  obtain ⟨d2, e2, _, p2, _⟩ := blkdiagLoop_spec d.size d.ld ms 0 0
    (fun k => if k < (ms.map Mat.nrow).sum * (ms.map Mat.ncol).sum then 0 else d.data k) hwf (by omega)
    (by rw [Nat.zero_add, r3]; exact r4)
    (by
      intro i j _ hi hj
      have := row_lt (ld := d.ld) hi hj
      rw [Nat.zero_add, r3] at this
      rw [if_pos (by rw [r3]; exact this)])
  rw [e2]
  refine ⟨_, rfl, ⟨by dsimp only; omega, by dsimp only; rw [r1, r3]; exact r4⟩, r1, r2, ?_⟩
  intro i j hi hj
  dsimp only at hi hj
  have := p2 i j (by omega) (by omega)
  simp only [Nat.zero_add] at this
  exact this

theorem vertcatLoop_spec (dflt : α) (dsize ldd : Nat) : ∀ (ms : List (Mat α)) (ro : Nat) (data : Nat → α),
    (∀ m ∈ ms, m.WF ∧ m.ncol = ldd) → (ro + (ms.map Mat.nrow).sum) * ldd ≤ dsize →
    ∃ data', vertcatLoop dsize ldd ro ms data = .ok data' ∧
      (∀ i j, i < ro → j < ldd → data' (i * ldd + j) = data (i * ldd + j)) ∧
      (∀ i j, i < (ms.map Mat.nrow).sum → j < ldd → data' ((ro + i) * ldd + j) = specVert dflt ms i j) := by
  intro ms
  induction ms with
  | nil => intro ro data _ _; exact ⟨data, rfl, fun _ _ _ _ => rfl, fun i j hi => by simp at hi⟩
  | cons m ms ih =>
    intro ro data hwf hr
    simp only [List.map_cons, List.sum_cons] at hr ⊢
    have hr' : (ro + m.nrow) * ldd ≤ dsize := le_trans (row_mono ldd (by omega)) hr
    have hm := hwf m (by simp)
    obtain ⟨d1, e1, q1⟩ := block_copy m hm.1 dsize ldd ro 0 (by omega) hr' data
    rw [Nat.add_zero] at e1
    obtain ⟨d2, e2, p1, p2⟩ := ih (ro + m.nrow) d1 (fun x hx => hwf x (List.mem_cons_of_mem _ hx))
      (by rw [show ro + m.nrow + (ms.map Mat.nrow).sum = ro + (m.nrow + (ms.map Mat.nrow).sum) by omega]; exact hr)
    refine ⟨d2, by rw [vertcatLoop, e1]; exact e2, ?_, ?_⟩
    · intro i j hi hj
      rw [p1 i j (by omega) hj, q1 i j hj, if_neg (by omega)]
    · intro i j hi hj
      rw [specVert]
      by_cases h1 : i < m.nrow
      · rw [if_pos h1, p1 _ _ (by omega) hj, q1 _ _ hj, if_pos (by omega)]; congr 1; omega
      · rw [if_neg h1]
        have := p2 (i - m.nrow) j (by omega) hj
        rw [show ro + m.nrow + (i - m.nrow) = ro + i by omega] at this
        exact this

/-- **C37** (vertical concatenation) of a non-empty list of blocks with equal column counts. -/
theorem C37_vertcat (m0 : Mat α) (ms : List (Mat α)) (hwf : ∀ m ∈ m0 :: ms, m.WF)
    (hc : ∀ m ∈ ms, m.ncol = m0.ncol) (new : Mat α) (g : Nat → α) (dflt : α) :
    ∃ m', vertcat (m0 :: ms) new g = .ok (some m') ∧ m'.WF ∧ m'.nrow = ((m0 :: ms).map Mat.nrow).sum ∧ m'.ncol = m0.ncol ∧
      ∀ i j, i < m'.nrow → j < m'.ncol → m'.entry i j = specVert dflt (m0 :: ms) i j := by
  have hall : ∀ m ∈ m0 :: ms, m.ncol = m0.ncol := by
    intro m hm
    rcases List.mem_cons.1 hm with h | h
    · rw [h]
    · exact hc m h
  unfold vertcat; dsimp only
  rw [if_pos (by rw [List.all_eq_true]; intro m hm; simp [hall m hm])]
  obtain ⟨r1, r2, r3, r4⟩ := resize_spec new ((m0 :: ms).map Mat.nrow).sum m0.ncol g
  generalize resize new ((m0 :: ms).map Mat.nrow).sum m0.ncol g = d at *
  obtain ⟨d2, e2, _, p2⟩ := vertcatLoop_spec dflt d.size d.ld (m0 :: ms) 0 d.data
    (fun m hm => ⟨hwf m hm, by rw [r3]; exact hall m hm⟩) (by rw [Nat.zero_add, r3]; exact r4)
  rw [e2]
  refine ⟨_, rfl, ⟨by dsimp only; omega, by dsimp only; rw [r1, r3]; exact r4⟩, r1, r2, ?_⟩
  intro i j hi hj
  dsimp only at hi hj
  have := p2 i j (by omega) (by omega)
  simp only [Nat.zero_add] at this
  exact this

theorem horzcatLoop_spec (dflt : α) (dsize ldd nrow : Nat) : ∀ (ms : List (Mat α)) (co : Nat) (data : Nat → α),
    (∀ m ∈ ms, m.WF ∧ m.nrow = nrow) → co + (ms.map Mat.ncol).sum ≤ ldd → nrow * ldd ≤ dsize →
    ∃ data', horzcatLoop dsize ldd co ms data = .ok data' ∧
      (∀ i j, i < nrow → j < co → data' (i * ldd + j) = data (i * ldd + j)) ∧
      (∀ i j, i < nrow → j < (ms.map Mat.ncol).sum → data' (i * ldd + (co + j)) = specHorz dflt ms i j) := by
  intro ms
  induction ms with
  | nil => intro co data _ _ _; exact ⟨data, rfl, fun _ _ _ _ => rfl, fun i j _ hj => by simp at hj⟩
  | cons m ms ih =>
    intro co data hwf hc hr
    simp only [List.map_cons, List.sum_cons] at hc ⊢
    have hm := hwf m (by simp)
    obtain ⟨d1, e1, q1⟩ := block_copy m hm.1 dsize ldd 0 co (by omega) (by rw [Nat.zero_add, hm.2]; exact hr) data
    rw [Nat.zero_mul, Nat.zero_add] at e1
    obtain ⟨d2, e2, p1, p2⟩ := ih (co + m.ncol) d1 (fun x hx => hwf x (List.mem_cons_of_mem _ hx)) (by omega) hr
    refine ⟨d2, by rw [horzcatLoop, e1]; exact e2, ?_, ?_⟩
    · intro i j hi hj
      rw [p1 i j hi (by omega), q1 i j (by omega), if_neg (by omega)]
    · intro i j hi hj
      rw [specHorz]
      by_cases h1 : j < m.ncol
      · have hm2 := hm.2
        rw [if_pos h1, p1 _ _ hi (by omega), q1 _ _ (by omega), if_pos (by omega)]; congr 1; omega
      · rw [if_neg h1]
        have := p2 i (j - m.ncol) hi (by omega)
        rw [show co + m.ncol + (j - m.ncol) = co + j by omega] at this
        exact this

/-- **C37** (horizontal concatenation) of a non-empty list of blocks with equal row counts. -/
theorem C37_horzcat [Zero α] (m0 : Mat α) (ms : List (Mat α)) (hwf : ∀ m ∈ m0 :: ms, m.WF)
    (hc : ∀ m ∈ ms, m.nrow = m0.nrow) (new : Mat α) (g : Nat → α) (dflt : α) :
    ∃ m', horzcat (m0 :: ms) new g = .ok (some m') ∧ m'.WF ∧ m'.nrow = m0.nrow ∧ m'.ncol = ((m0 :: ms).map Mat.ncol).sum ∧
      ∀ i j, i < m'.nrow → j < m'.ncol → m'.entry i j = specHorz dflt (m0 :: ms) i j := by
  have hall : ∀ m ∈ m0 :: ms, m.nrow = m0.nrow := by
    intro m hm
    rcases List.mem_cons.1 hm with h | h
    · rw [h]
    · exact hc m h
  unfold horzcat; dsimp only
  rw [if_pos (by rw [List.all_eq_true]; intro m hm; simp [hall m hm])]
  obtain ⟨r1, r2, r3, r4⟩ := resize_spec new m0.nrow ((m0 :: ms).map Mat.ncol).sum g
  generalize resize new m0.nrow ((m0 :: ms).map Mat.ncol).sum g = d at *
  rw [memsetZero, if_pos r4]
  simp only [Res.bind_ok]
  obtain ⟨d2, e2, _, p2⟩ := horzcatLoop_spec dflt d.size d.ld m0.nrow (m0 :: ms) 0
    (fun k => if k < m0.nrow * ((m0 :: ms).map Mat.ncol).sum then 0 else d.data k)
    (fun m hm => ⟨hwf m hm, hall m hm⟩) (by omega) (by rw [r3]; exact r4)
  rw [e2]
  refine ⟨_, rfl, ⟨by dsimp only; omega, by dsimp only; rw [r1, r3]; exact r4⟩, r1, r2, ?_⟩
  intro i j hi hj
  dsimp only at hi hj
  have := p2 i j (by omega) (by omega)
  simp only [Nat.zero_add] at this
  exact this

/-- Mismatching blocks are reported and leave nothing assembled; an empty list is undefined behaviour. -/
theorem C37_mismatch (m0 : Mat α) (ms : List (Mat α)) (hc : ∃ m ∈ ms, m.ncol ≠ m0.ncol) (new : Mat α) (g : Nat → α) :
    vertcat (m0 :: ms) new g = .ok none ∧ vertcat ([] : List (Mat α)) new g = .ub := by
  refine ⟨?_, rfl⟩
  unfold vertcat; dsimp only
  rw [if_neg]
  rw [List.all_eq_true]
  intro h
  obtain ⟨m, hm, hne⟩ := hc
  have := h m (List.mem_cons_of_mem _ hm)
  simp at this
  exact hne this

/-- Copying a matrix (`H2P_dense_mat_copy`) reproduces all entries, whatever the destination held. -/
theorem C37_copy (s d : Mat α) (hs : s.WF) (g : Nat → α) :
    ∃ m', copy s d g = .ok m' ∧ m'.WF ∧ m'.nrow = s.nrow ∧ m'.ncol = s.ncol ∧
      ∀ i j, i < s.nrow → j < s.ncol → m'.entry i j = s.entry i j := by
  obtain ⟨r1, r2, r3, r4⟩ := resize_spec d s.nrow s.ncol g
  unfold copy
  dsimp only
  generalize resize d s.nrow s.ncol g = d at *
  obtain ⟨d1, e1, q1⟩ := block_copy s hs d.size d.ld 0 0 (by omega) (by rw [Nat.zero_add, r3]; exact r4) d.data
  rw [Nat.zero_mul, Nat.zero_add] at e1
  rw [e1]
  refine ⟨_, rfl, ⟨by dsimp only; omega, by dsimp only; rw [r1, r3]; exact r4⟩, r1, r2, ?_⟩
  intro i j hi hj
  have := q1 i j (by omega)
  rw [if_pos (by omega)] at this
  simpa [Mat.entry] using this

/-! ## Non-vacuity -/

/-- A 3x4 matrix stored with leading dimension 5. -/
def exMat : Mat Int := ⟨3, 4, 5, 15, fun k => k⟩

theorem exMat_wf : exMat.WF := ⟨by decide, by decide⟩

example : ∃ m', selectColumns exMat [1, 3] = .ok m' ∧ m'.entry 2 0 = 11 ∧ m'.entry 2 1 = 13 := by
  obtain ⟨m', e, _, _, _, h⟩ := C35_select_columns exMat exMat_wf [1, 3] (by decide) (by decide)
  exact ⟨m', e, h 2 0 (by decide) (by decide), h 2 1 (by decide) (by decide)⟩

example : ∃ m', selectRows exMat [0, 2] = .ok m' ∧ m'.entry 1 3 = 13 := by
  obtain ⟨m', e, _, _, _, h⟩ := C35_select_rows exMat exMat_wf [0, 2] (by decide) (by decide)
  exact ⟨m', e, h 1 3 (by decide) (by decide)⟩

example : ∃ m', permuteRows exMat [2, 0, 1] (fun _ => 0) = .ok m' ∧ m'.entry 0 3 = 13 := by
  obtain ⟨m', e, _, _, _, h⟩ := C36_permute_rows exMat exMat_wf [2, 0, 1] (by decide) (by decide) (fun _ => 0)
  exact ⟨m', e, h 0 3 (by decide) (by decide)⟩

example : ∃ m', blkdiag [exMat, exMat] exMat (fun _ => 7) = .ok m' ∧ m'.entry 3 4 = 0 ∧ m'.entry 0 4 = 0 := by
  obtain ⟨m', e, _, h1, h2, h⟩ := C37_blkdiag [exMat, exMat] (by intro m hm; simp at hm; subst hm; exact exMat_wf) exMat (fun _ => 7)
  refine ⟨m', e, ?_, ?_⟩
  · rw [h 3 4 (by rw [h1]; decide) (by rw [h2]; decide)]; decide
  · rw [h 0 4 (by rw [h1]; decide) (by rw [h2]; decide)]; decide

example : ∃ m', vertcat [exMat, exMat] exMat (fun _ => 7) = .ok (some m') ∧ m'.entry 4 2 = 7 := by
  obtain ⟨m', e, _, h1, h2, h⟩ := C37_vertcat exMat [exMat] (by intro m hm; simp at hm; subst hm; exact exMat_wf)
    (by simp) exMat (fun _ => 7) 0
  refine ⟨m', e, ?_⟩
  rw [h 4 2 (by rw [h1]; decide) (by rw [h2]; decide)]; decide

example : ∃ m', horzcat [exMat, exMat] exMat (fun _ => 7) = .ok (some m') ∧ m'.entry 1 6 = 7 := by
  obtain ⟨m', e, _, h1, h2, h⟩ := C37_horzcat exMat [exMat] (by intro m hm; simp at hm; subst hm; exact exMat_wf)
    (by simp) exMat (fun _ => 7) 0
  refine ⟨m', e, ?_⟩
  rw [h 1 6 (by rw [h1]; decide) (by rw [h2]; decide)]; decide

end H2Pack.Dense
