import Verif.Model.DenseMat
import Mathlib.Tactic.Linarith
import Mathlib.Tactic.Ring
import Mathlib.Algebra.BigOperators.Group.List.Basic

/-! # Dense matrix helper lemmas -/

namespace H2Pack.Dense
variable {α : Type}

theorem row_lt {i i0 j ld : Nat} (h : i < i0) (hj : j < ld) : i * ld + j < i0 * ld := by
  have : (i+1) * ld ≤ i0 * ld := Nat.mul_le_mul_right _ h
  rw [Nat.add_mul] at this; omega

theorem row_le {i i0 j ld : Nat} (h : i < i0) (hj : j ≤ ld) : i * ld + j ≤ i0 * ld := by
  have : (i+1) * ld ≤ i0 * ld := Nat.mul_le_mul_right _ h
  rw [Nat.add_mul] at this; omega

theorem row_mono {i i0 : Nat} (ld : Nat) (h : i ≤ i0) : i * ld ≤ i0 * ld := Nat.mul_le_mul_right _ h

/-- Representation invariant of a dense matrix. -/
def Mat.WF (m : Mat α) : Prop := m.ncol ≤ m.ld ∧ m.nrow * m.ld ≤ m.size

theorem copyMatrix_spec (ncol : Nat) (s : Mat α) (dsize ldd off : Nat) (hc : ncol ≤ ldd) :
    ∀ (n irow : Nat) (data : Nat → α),
    (∀ i, irow ≤ i → i < irow + n → off + i * ldd + ncol ≤ dsize ∧ i * s.ld + ncol ≤ s.size) →
    ∃ data', copyMatrix ncol s dsize ldd off irow n data = .ok data' ∧
      (∀ i j, irow ≤ i → i < irow + n → j < ncol → data' (off + i * ldd + j) = s.data (i * s.ld + j)) ∧
      (∀ k, (∀ i, irow ≤ i → i < irow + n → ¬ (off + i * ldd ≤ k ∧ k < off + i * ldd + ncol)) → data' k = data k) := by
  intro n
  induction n with
  | zero => intro irow data _; exact ⟨data, rfl, fun i j h1 h2 => by omega, fun k _ => rfl⟩
  | succ n ih =>
    intro irow data hb
    have hb0 := hb irow (by omega) (by omega)
    obtain ⟨d', e, q1, q2⟩ := ih (irow+1)
      (fun k => if off + irow * ldd ≤ k ∧ k < off + irow * ldd + ncol then s.data (irow * s.ld + (k - (off + irow * ldd))) else data k)
      (fun i h1 h2 => hb i (by omega) (by omega))
    refine ⟨d', ?_, ?_, ?_⟩
    · rw [copyMatrix, memcpyFrom, if_pos ⟨by omega, by omega⟩]; exact e
    · intro i j h1 h2 hj
      by_cases hi : i = irow
      · subst hi
        rw [q2]
        · rw [if_pos ⟨by omega, by omega⟩]; congr 2; omega
        · intro i' h3 h4 h5
          have := row_le (ld := ldd) (show i < i' by omega) hc
          omega
      · exact q1 i j (by omega) (by omega) hj
    · intro k hk
      rw [q2 k (fun i h1 h2 => hk i (by omega) (by omega))]
      rw [if_neg (hk irow (by omega) (by omega))]

/-! ## Row selection -/

theorem selRowsLoop_spec (m : Mat α) (hwf : m.WF) : ∀ (rs : List Nat) (irow : Nat) (data : Nat → α),
    (∀ t (ht : t < rs.length), irow + t ≤ rs[t]) → (∀ r ∈ rs, r < m.nrow) →
    ∃ data', selRowsLoop m.ld m.ncol m.size irow rs data = .ok data' ∧
      (∀ t j (ht : t < rs.length), j < m.ncol → data' ((irow + t) * m.ld + j) = data (rs[t] * m.ld + j)) ∧
      (∀ k, k < irow * m.ld → data' k = data k) := by
  intro rs
  induction rs with
  | nil => intro irow data _ _; exact ⟨data, rfl, fun t j ht => by simp at ht, fun k _ => rfl⟩
  | cons r rs ih =>
    intro irow data hge hlt
    have hr0 : irow ≤ r := by
      have := hge 0 (by simp)
      simp only [Nat.add_zero, List.getElem_cons_zero] at this; exact this
    have hrn := hlt r (by simp)
    obtain ⟨hw1, hw2⟩ := hwf
    have hrb := row_le (ld := m.ld) hrn hw1
    -- the first copy
    have step : ∃ d1, copyRowIf m.ld m.ncol m.size irow r data = Res.ok d1 ∧
        (∀ j < m.ncol, d1 (irow * m.ld + j) = data (r * m.ld + j)) ∧
        (∀ k, ¬ (irow * m.ld ≤ k ∧ k < irow * m.ld + m.ncol) → d1 k = data k) := by
      unfold copyRowIf
      by_cases heq : r * m.ld = irow * m.ld
      · rw [if_neg (by simp [heq])]
        exact ⟨data, rfl, fun j _ => by rw [heq], fun k _ => rfl⟩
      · rw [if_pos heq]
        have hlt' : irow < r := by
          rcases Nat.lt_or_ge irow r with h | h
          · exact h
          · have : irow = r := by omega
            subst this; exact absurd rfl heq
        have h1 := row_le (ld := m.ld) hlt' hw1
        unfold memcpy memmove
        rw [if_pos (by omega), if_pos ⟨by omega, by omega⟩]
        refine ⟨_, rfl, ?_, ?_⟩
        · intro j hj; unfold copyRange; rw [if_pos ⟨by omega, by omega⟩]; congr 1; omega
        · intro k hk; unfold copyRange; rw [if_neg hk]
    obtain ⟨d1, e1, a1, a2⟩ := step
    obtain ⟨d', e2, b1, b2⟩ := ih (irow+1) d1 (fun t ht => by
        have := hge (t+1) (by simpa using ht)
        simp only [List.getElem_cons_succ] at this; omega)
      (fun x hx => hlt x (List.mem_cons_of_mem _ hx))
    refine ⟨d', ?_, ?_, ?_⟩
    · rw [selRowsLoop, e1]; exact e2
    · intro t j ht hj
      cases t with
      | zero =>
        simp only [Nat.add_zero, List.getElem_cons_zero]
        rw [b2 _ (row_lt (by omega) (by omega)), a1 j hj]
      | succ t =>
        simp only [List.getElem_cons_succ]
        have ht' : t < rs.length := by simpa using ht
        have := b1 t j ht' hj
        rw [show irow + (t+1) = irow + 1 + t by omega, this]
        apply a2
        have hge' := hge (t+1) (by simpa using ht)
        simp only [List.getElem_cons_succ] at hge'
        have := row_le (ld := m.ld) (show irow < rs[t] by omega) hw1
        omega
    · intro k hk
      have : irow * m.ld ≤ (irow+1) * m.ld := row_mono _ (by omega)
      rw [b2 k (by omega), a2 k (by omega)]

/-! ## Column selection -/

theorem selColsRow_spec (size base : Nat) : ∀ (cs : List Nat) (icol : Nat) (data : Nat → α),
    (∀ t (ht : t < cs.length), icol + t ≤ cs[t] ∧ base + cs[t] < size) →
    ∃ data', selColsRow size base icol cs data = .ok data' ∧
      (∀ t (ht : t < cs.length), data' (base + (icol + t)) = data (base + cs[t])) ∧
      (∀ k, ¬ (base + icol ≤ k ∧ k < base + icol + cs.length) → data' k = data k) := by
  intro cs
  induction cs with
  | nil => intro icol data _; exact ⟨data, rfl, fun t ht => by simp at ht, fun k _ => rfl⟩
  | cons c cs ih =>
    intro icol data h
    have h0 := h 0 (by simp)
    simp only [Nat.add_zero, List.getElem_cons_zero] at h0
    obtain ⟨d', e, b1, b2⟩ := ih (icol+1) (Function.update data (base + icol) (data (base + c))) (fun t ht => by
      have := h (t+1) (by simpa using ht)
      simp only [List.getElem_cons_succ] at this; omega)
    refine ⟨d', ?_, ?_, ?_⟩
    · rw [selColsRow, if_pos ⟨h0.2, by omega⟩]; exact e
    · intro t ht
      cases t with
      | zero =>
        simp only [Nat.add_zero, List.getElem_cons_zero]
        rw [b2 _ (by omega), Function.update_self]
      | succ t =>
        simp only [List.getElem_cons_succ]
        have ht' : t < cs.length := by simpa using ht
        have h1 := h (t+1) ht
        simp only [List.getElem_cons_succ] at h1
        rw [show icol + (t+1) = icol + 1 + t by omega, b1 t ht', Function.update_of_ne (by omega)]
    · intro k hk
      simp only [List.length_cons] at hk
      rw [b2 k (by omega), Function.update_of_ne (by omega)]

theorem selColsRows_spec (size ld : Nat) (idx : List Nat) (hlen : idx.length ≤ ld) : ∀ (n irow : Nat) (data : Nat → α),
    (∀ t (ht : t < idx.length), t ≤ idx[t] ∧ idx[t] < ld) → ((irow + n) * ld ≤ size) →
    ∃ data', selColsRows size ld idx irow n data = .ok data' ∧
      (∀ i t (ht : t < idx.length), irow ≤ i → i < irow + n → data' (i * ld + t) = data (i * ld + idx[t])) ∧
      (∀ k, k < irow * ld → data' k = data k) := by
  intro n
  induction n with
  | zero => intro irow data _ _; exact ⟨data, rfl, fun i t ht h1 h2 => by omega, fun k _ => rfl⟩
  | succ n ih =>
    intro irow data h hs
    obtain ⟨d1, e1, a1, a2⟩ := selColsRow_spec size (irow * ld) idx 0 data (fun t ht => by
      have h1 := h t ht
      have := row_lt (ld := ld) (show irow < irow + (n+1) by omega) h1.2
      omega)
    obtain ⟨d', e2, b1, b2⟩ := ih (irow+1) d1 h (by rw [show irow + 1 + n = irow + (n+1) by omega]; exact hs)
    refine ⟨d', by rw [selColsRows, e1]; exact e2, ?_, ?_⟩
    · intro i t ht h1 h2
      by_cases hi : i = irow
      · subst hi
        have h3 := row_lt (ld := ld) (show i < i + 1 by omega) (show t < ld by omega)
        rw [b2 _ h3]
        simpa using a1 t ht
      · rw [b1 i t ht (by omega) (by omega), a2]
        have := row_mono ld (show irow + 1 ≤ i by omega)
        rw [Nat.add_mul] at this
        omega
    · intro k hk
      have := row_mono ld (show irow ≤ irow + 1 by omega)
      rw [b2 k (by omega), a2 k (by omega)]

theorem compactRows_spec (size ld ncol : Nat) (hc : ncol ≤ ld) : ∀ (n irow : Nat) (data : Nat → α),
    (irow + n) * ld ≤ size →
    ∃ data', compactRows size ld ncol irow n data = .ok data' ∧
      (∀ i j, irow ≤ i → i < irow + n → j < ncol → data' (i * ncol + j) = data (i * ld + j)) ∧
      (∀ k, k < irow * ncol → data' k = data k) := by
  intro n
  induction n with
  | zero => intro irow data _; exact ⟨data, rfl, fun i t h1 h2 => by omega, fun k _ => rfl⟩
  | succ n ih =>
    intro irow data hs
    have hsrc := row_le (ld := ld) (show irow < irow + (n+1) by omega) hc
    have hdst : irow * ncol ≤ irow * ld := Nat.mul_le_mul_left _ hc
    obtain ⟨d', e2, b1, b2⟩ := ih (irow+1) (copyRange data (irow * ncol) (irow * ld) ncol)
      (by rw [show irow + 1 + n = irow + (n+1) by omega]; exact hs)
    refine ⟨d', ?_, ?_, ?_⟩
    · rw [compactRows, memmove, if_pos ⟨by omega, by omega⟩]; exact e2
    · intro i j h1 h2 hj
      by_cases hi : i = irow
      · subst hi
        rw [b2 _ (row_lt (by omega) hj)]
        unfold copyRange; rw [if_pos ⟨by omega, by omega⟩]; congr 1; omega
      · rw [b1 i j (by omega) (by omega) hj]
        unfold copyRange
        have h3 : irow * ncol + ncol ≤ i * ld := by
          have h4 := row_mono ncol (show irow + 1 ≤ i by omega)
          have h5 : i * ncol ≤ i * ld := Nat.mul_le_mul_left _ hc
          rw [Nat.add_mul] at h4; omega
        rw [if_neg (by omega)]
    · intro k hk
      have := row_mono ncol (show irow ≤ irow + 1 by omega)
      rw [b2 k (by omega)]
      unfold copyRange; rw [if_neg (by omega)]

/-! ## Row permutation -/

theorem permRowsLoop_spec (m : Mat α) (hwf : m.WF) (nsize : Nat) : ∀ (rs : List Nat) (irow : Nat) (data : Nat → α),
    (∀ r ∈ rs, r < m.nrow) → (irow + rs.length) * m.ncol ≤ nsize →
    ∃ data', permRowsLoop m nsize irow rs data = .ok data' ∧
      (∀ t j (ht : t < rs.length), j < m.ncol → data' ((irow + t) * m.ncol + j) = m.data (rs[t] * m.ld + j)) ∧
      (∀ k, k < irow * m.ncol → data' k = data k) := by
  intro rs
  induction rs with
  | nil => intro irow data _ _; exact ⟨data, rfl, fun t j ht => by simp at ht, fun k _ => rfl⟩
  | cons r rs ih =>
    intro irow data hlt hs
    obtain ⟨hw1, hw2⟩ := hwf
    have hrb := row_le (ld := m.ld) (hlt r (by simp)) hw1
    have hd := row_le (ld := m.ncol) (show irow < irow + (r :: rs).length by simp) (le_refl _)
    obtain ⟨d', e, b1, b2⟩ := ih (irow+1)
      (fun k => if irow * m.ncol ≤ k ∧ k < irow * m.ncol + m.ncol then m.data (r * m.ld + (k - irow * m.ncol)) else data k)
      (fun x hx => hlt x (List.mem_cons_of_mem _ hx))
      (by rw [List.length_cons] at hs; rw [show irow + 1 + rs.length = irow + (rs.length + 1) by omega]; exact hs)
    refine ⟨d', ?_, ?_, ?_⟩
    · rw [permRowsLoop, memcpyFrom, if_pos ⟨by omega, by omega⟩]; exact e
    · intro t j ht hj
      cases t with
      | zero =>
        simp only [Nat.add_zero, List.getElem_cons_zero]
        rw [b2 _ (row_lt (by omega) hj), if_pos ⟨by omega, by omega⟩]
        congr 2; omega
      | succ t =>
        simp only [List.getElem_cons_succ]
        rw [show irow + (t+1) = irow + 1 + t by omega]
        exact b1 t j (by simpa using ht) hj
    · intro k hk
      have := row_mono m.ncol (show irow ≤ irow + 1 by omega)
      rw [b2 k (by omega), if_neg (by omega)]

end H2Pack.Dense
