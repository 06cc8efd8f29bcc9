import Verif.Model.CSRPlus
import Mathlib.Algebra.BigOperators.Intervals
import Mathlib.Algebra.BigOperators.Group.Finset.Basic
import Mathlib.Tactic.Ring
import Mathlib.Tactic.Linarith

/-! # The partition of the nonzeros -/

namespace H2Pack.CSRP
open Finset

theorem collect_ok {α : Type} {f : Nat → Res α} {g : Nat → α} : ∀ l : List Nat, (∀ i ∈ l, f i = .ok (g i)) → collect f l = .ok (l.map g)
  | [], _ => rfl
  | i :: l, h => by
    unfold collect
    rw [h i (by simp), collect_ok l fun j hj => h j (by simp [hj])]
    rfl

theorem chain (c : Nat) : ∀ (k a : Nat) (d : Nat → Nat),
    (∀ i ≤ a, (List.range' a k).foldl (fun d i => Function.update d (i + 1) (d i + c)) d i = d i) ∧
    ∀ j ≤ k, (List.range' a k).foldl (fun d i => Function.update d (i + 1) (d i + c)) d (a + j) = d a + j * c := by
  intro k
  induction k with
  | zero =>
    intro a d
    refine ⟨fun i _ => rfl, fun j hj => ?_⟩
    obtain rfl : j = 0 := by omega
    simp
  | succ k ih =>
    intro a d
    rw [List.range'_succ, List.foldl_cons]
    obtain ⟨h1, h2⟩ := ih (a + 1) (Function.update d (a + 1) (d a + c))
    refine ⟨fun i hi => ?_, fun j hj => ?_⟩
    · rw [h1 i (by omega), Function.update_of_ne (by omega)]
    · rcases j with _ | j
      · simp only [Nat.add_zero, Nat.zero_mul]
        rw [h1 a (by omega), Function.update_of_ne (by omega)]
      · rw [show a + (j + 1) = a + 1 + j by omega, h2 j (by omega), Function.update_self]; ring

/-- Positions of the first nonzeros. -/
theorem partEqual_spec (len nblk : Nat) (h : 0 < nblk) (d0 : Nat → Nat) : ∀ i ≤ nblk, partEqual len nblk d0 i = i * (len / nblk) + min i (len % nblk) := by
  intro i hi
  have hr : len % nblk < nblk := Nat.mod_lt _ h
  unfold partEqual
  generalize len / nblk = b0
  generalize hrem : len % nblk = rem at *
  generalize hb : (if rem > 0 then b0 + 1 else b0) = b1
  obtain ⟨p1, p2⟩ := chain b1 rem 0 (Function.update d0 0 0)
  generalize (List.range' 0 rem).foldl (fun d i => Function.update d (i + 1) (d i + b1)) (Function.update d0 0 0) = d at *
  obtain ⟨q1, q2⟩ := chain b0 (nblk - rem) rem d
  have e : ∀ j ≤ rem, d j = j * b1 := by
    intro j hj
    have := p2 j hj
    rw [Nat.zero_add, Function.update_self, Nat.zero_add] at this
    exact this
  have e1 : ∀ j ≤ rem, j * b1 = j * b0 + j := by
    intro j hj
    rw [← hb]
    by_cases h0 : rem > 0
    · rw [if_pos h0]; ring
    · obtain rfl : j = 0 := by omega
      simp
  by_cases hir : i ≤ rem
  · rw [q1 i hir, e i hir, e1 i hir, Nat.min_eq_left hir]
  · have := q2 (i - rem) (by omega)
    rw [show rem + (i - rem) = i by omega] at this
    rw [this, e rem (le_refl _), e1 rem (le_refl _), Nat.min_eq_right (by omega)]
    have : rem * b0 + (i - rem) * b0 = i * b0 := by rw [← Nat.add_mul]; congr 1; omega
    omega

theorem lowerBound_spec {a : Nat → Nat} {x : Int} {n : Nat} (hmono : ∀ i j, i ≤ j → j < n → a i ≤ a j) : ∀ (m l h : Nat), h - l ≤ m → l ≤ h → h ≤ n →
    (∀ j < l, (a j : Int) < x) → (∀ j, h ≤ j → j < n → x ≤ a j) →
    lowerBound a x l h ≤ h ∧ (∀ j < lowerBound a x l h, (a j : Int) < x) ∧ ∀ j, lowerBound a x l h ≤ j → j < n → x ≤ a j := by
  intro m
  induction m with
  | zero =>
    intro l h hm hlh hn h1 h2
    obtain rfl : l = h := by omega
    unfold lowerBound
    rw [dif_neg (lt_irrefl _)]
    exact ⟨le_refl _, h1, h2⟩
  | succ m ih =>
    intro l h hm hlh hn h1 h2
    unfold lowerBound
    by_cases hl : l < h
    · rw [dif_pos hl]
      dsimp only
      by_cases hx : x ≤ a (l + (h - l) / 2)
      · rw [if_pos hx]
        obtain ⟨p1, p2, p3⟩ := ih l (l + (h - l) / 2) (by omega) (by omega) (by omega) h1 (by
          intro j hj hjn
          have := hmono _ j hj hjn
          omega)
        exact ⟨by omega, p2, p3⟩
      · rw [if_neg hx]
        refine ih (l + (h - l) / 2 + 1) h (by omega) (by omega) hn ?_ h2
        intro j hj
        have := hmono j (l + (h - l) / 2) (by omega) (by omega)
        omega
    · rw [dif_neg hl]
      obtain rfl : l = h := by omega
      exact ⟨le_refl _, h1, h2⟩

/-- The row pointers. -/
structure Rows (nrow : Nat) (rp : Nat → Nat) : Prop where
  zero : rp 0 = 0
  mono : ∀ i j, i ≤ j → j ≤ nrow → rp i ≤ rp j

variable {nrow : Nat} {rp : Nat → Nat}

theorem startRow (R : Rows nrow rp) {s : Nat} (hs : s < rp nrow) : ∃ F, stepBack nrow rp s (lowerBound rp s 0 (nrow + 1)) = .ok F ∧ F < nrow ∧ rp F ≤ s ∧
    (∀ j < F, rp j < s) ∧ (rp F = s ∨ s < rp (F + 1)) := by
  obtain ⟨-, p2, p3⟩ := lowerBound_spec (a := rp) (x := s) (n := nrow + 1) (fun i j h1 h2 => R.mono i j h1 (by omega)) (nrow + 1) 0 (nrow + 1) (by omega) (by omega)
    (le_refl _) (by intro j hj; omega) (by intro j h1 h2; omega)
  generalize lowerBound rp s 0 (nrow + 1) = p at *
  have hp : p ≤ nrow := by
    by_contra hc
    have := p2 nrow (by omega)
    omega
  have hge := p3 p (le_refl _) (by omega)
  unfold stepBack
  rw [if_neg (by omega)]
  by_cases hgt : (rp p : Int) > s
  · rw [if_pos hgt]
    have h0 : p ≠ 0 := by
      intro e; rw [e, R.zero] at hgt; omega
    rw [if_neg h0]
    have := p2 (p - 1) (by omega)
    refine ⟨p - 1, rfl, by omega, by omega, fun j hj => ?_, Or.inr ?_⟩
    · have := p2 j (by omega); omega
    · rw [show p - 1 + 1 = p by omega]; omega
  · rw [if_neg hgt]
    refine ⟨p, rfl, ?_, by omega, fun j hj => ?_, Or.inl (by omega)⟩
    · by_contra hc
      obtain rfl : p = nrow := by omega
      omega
    · have := p2 j hj; omega

theorem skip_spec (R : Rows nrow rp) {e : Nat} (he : e < rp nrow) : ∀ (m er : Nat), nrow - er ≤ m → er ≤ nrow → rp er ≤ e → (rp er = e ∨ e < rp (er + 1)) →
    ∃ L, L < nrow ∧ rp L ≤ e ∧ e < rp (L + 1) ∧ ∀ fuel, m ≤ fuel → skipEmpty nrow rp fuel er = .ok L := by
  intro m
  induction m with
  | zero =>
    intro er hm h1 h2
    obtain rfl : er = nrow := by omega
    omega
  | succ m ih =>
    intro er hm h1 h2 h3
    have hlt : er < nrow := by
      by_contra hc
      obtain rfl : er = nrow := by omega
      omega
    have hstep : ∀ f, skipEmpty nrow rp (f + 1) er = if rp er = rp (er + 1) then skipEmpty nrow rp f (er + 1) else .ok er := by
      intro f
      show (if nrow < er + 1 then Res.ub else _) = _
      rw [if_neg (by omega)]
    by_cases hq : rp er = rp (er + 1)
    · obtain ⟨L, a, b, c, d⟩ := ih (er + 1) (by omega) (by omega) (by omega) (by left; omega)
      refine ⟨L, a, b, c, fun fuel hf => ?_⟩
      obtain ⟨f, rfl⟩ : ∃ f, fuel = f + 1 := ⟨fuel - 1, by omega⟩
      rw [hstep, if_pos hq, d f (by omega)]
    · have := R.mono er (er + 1) (by omega) (by omega)
      refine ⟨er, hlt, h2, by omega, fun fuel hf => ?_⟩
      obtain ⟨f, rfl⟩ : ∃ f, fuel = f + 1 := ⟨fuel - 1, by omega⟩
      rw [hstep, if_neg hq]

/-- The description of a block: first and last row of the nonzeros `s, ..., t - 1`. -/
structure Range (nrow : Nat) (rp : Nat → Nat) (s t F L : Nat) : Prop where
  le : F ≤ L
  lt : L < nrow
  first : rp F ≤ s
  before : ∀ j < F, rp j < s
  start : rp F = s ∨ s < rp (F + 1)
  last : rp L < t
  stop : t ≤ rp (L + 1)

theorem partBlock_spec (R : Rows nrow rp) {s t : Nat} (hst : s < t) (ht : t ≤ rp nrow) : ∃ F L, Range nrow rp s t F L ∧
    ∀ fuel, nrow ≤ fuel → partBlock nrow rp s ((t : Int) - 1) fuel =
      .ok ⟨s, (t : Int) - 1, F, L, if F < L ∧ s = rp F then 1 else 0, if F < L then (if t = rp (L + 1) then 1 else 0) else -1⟩ := by
  obtain ⟨F, f1, f2, f3, f4, f5⟩ := startRow R (s := s) (by omega)
  obtain ⟨E, e1, e2, e3, e4, e5⟩ := startRow R (s := t - 1) (by omega)
  obtain ⟨L, l1, l2, l3, l4⟩ := skip_spec R (e := t - 1) (by omega) nrow E (by omega) (by omega) e3 e5
  have hle : F ≤ L := by
    by_contra hc
    have := R.mono (L + 1) F (by omega) (by omega)
    omega
  refine ⟨F, L, ⟨hle, l1, f3, f4, f5, by omega, by omega⟩, fun fuel hf => ?_⟩
  have ec : ((t - 1 : Nat) : Int) = (t : Int) - 1 := by omega
  rw [ec] at e1
  unfold partBlock
  rw [f1]
  simp only [Res.bind_ok]
  rw [e1]
  simp only [Res.bind_ok]
  rw [l4 fuel hf]
  simp only [Res.bind_ok]
  by_cases hFL : F < L
  · rw [if_pos (by omega), if_pos hFL]
    have a1 : (((s : Nat) : Int) = rp F) ↔ (F < L ∧ s = rp F) := by omega
    have a2 : ((t : Int) - 1 = (rp (L + 1) : Int) - 1) ↔ t = rp (L + 1) := by omega
    simp only [a1, a2]
  · rw [if_neg (by omega), if_neg hFL, if_neg (by omega)]

end H2Pack.CSRP
