import Verif.Proof.CSRPlus1
import Mathlib.Algebra.Order.Group.Nat

/-! # The results of the blocks -/

namespace H2Pack.CSRP
open Finset
open H2Pack.CSR (Mat)

variable {K : Type} [Field K]

/-- The product with the entry at position `k`. -/
def prod (M : Mat K) (x : Nat → K) (k : Nat) : K := M.val k * x (M.col k).toNat

theorem foldl_sum (a : Nat → K) : ∀ (n s : Nat) (c : K), (List.range' s n).foldl (fun r k => r + a k) c = c + ∑ k ∈ Ico s (s + n), a k := by
  intro n
  induction n with
  | zero => intro s c; simp
  | succ n ih =>
    intro s c
    rw [List.range'_succ, List.foldl_cons, ih, Finset.sum_eq_sum_Ico_succ_bot (show s < s + (n + 1) by omega), add_assoc,
      show s + 1 + n = s + (n + 1) by omega]

theorem seg_ok (M : Mat K) (x : Nat → K) {nnz s t : Nat} (hst : s ≤ t) (ht : t ≤ nnz) {s' len : Int} (hs' : s' = s) (hlen : len = (t : Int) - s) :
    seg M nnz x s' len = .ok (∑ k ∈ Ico s t, prod M x k) := by
  unfold seg
  rw [if_neg (by omega), show s'.toNat = s by omega, show len.toNat = t - s by omega]
  have := foldl_sum (prod M x) (t - s) s 0
  rw [zero_add, show s + (t - s) = t by omega] at this
  exact congrArg Res.ok this

theorem rowSum_eq (M : Mat K) (x : Nat → K) (r : Nat) (h : M.rp r ≤ M.rp (r + 1)) : rowSum M x r = ∑ k ∈ Ico (M.rp r) (M.rp (r + 1)), prod M x k := by
  have := foldl_sum (prod M x) (M.rp (r + 1) - M.rp r) (M.rp r) 0
  rw [zero_add, show M.rp r + (M.rp (r + 1) - M.rp r) = M.rp (r + 1) by omega] at this
  exact this

/-- The part of row `r` in the positions `s, ..., t - 1`. -/
def part (M : Mat K) (x : Nat → K) (s t r : Nat) : K := ∑ k ∈ Ico s t, if M.rp r ≤ k ∧ k < M.rp (r + 1) then prod M x k else 0

theorem part_eq (M : Mat K) (x : Nat → K) {s t r u v : Nat} (h : ∀ k, (s ≤ k ∧ k < t ∧ M.rp r ≤ k ∧ k < M.rp (r + 1)) ↔ (u ≤ k ∧ k < v)) :
    part M x s t r = ∑ k ∈ Ico u v, prod M x k := by
  unfold part
  rw [← Finset.sum_filter]
  congr 1
  ext k
  rw [Finset.mem_filter, Finset.mem_Ico, Finset.mem_Ico, ← h k]
  tauto

/-- The description of a block of the partition. -/
structure Desc (nrow : Nat) (rp : Nat → Nat) (s t L : Nat) (B : Blk) : Prop where
  range : Range nrow rp s t B.first L
  pos : s < t
  top : t ≤ rp nrow
  spos : B.spos = s
  epos : B.epos = (t : Int) - 1
  last : B.last = if t = rp nrow then nrow - 1 else L
  fr : B.fr = 0 ↔ ¬ (B.first < L ∧ s = rp B.first)
  lr : B.lr = 0 ↔ B.first < L ∧ t ≠ rp (L + 1)

/-- The rows whose results are added after the loop. -/
def Acc (B : Blk) (r : Nat) : Prop := (r = B.first ∧ B.fr = 0) ∨ (r = B.last ∧ B.lr = 0)

variable {nrow : Nat}

section
variable {rp : Nat → Nat} {s t L : Nat} {B : Blk}

theorem Desc.basic (R : Rows nrow rp) (D : Desc nrow rp s t L B) : B.first ≤ L ∧ L ≤ B.last ∧ B.last < nrow ∧ (B.last ≠ L → t = rp nrow) ∧
    (t = rp nrow → t = rp (L + 1) ∧ B.last = nrow - 1) := by
  have h1 := D.range.le
  have h2 := D.range.lt
  have h3 := D.range.stop
  have h4 := R.mono (L + 1) nrow (by omega) (le_refl _)
  have h5 := D.last
  by_cases h : t = rp nrow
  · rw [if_pos h] at h5
    exact ⟨h1, by omega, by omega, fun _ => h, fun _ => ⟨by omega, h5⟩⟩
  · rw [if_neg h] at h5
    exact ⟨h1, by omega, by omega, fun h' => absurd h5 h', fun h' => absurd h' h⟩

theorem Desc.inside (R : Rows nrow rp) (D : Desc nrow rp s t L B) {r : Nat} (h1 : B.first ≤ r) (h2 : r ≤ B.last) (ha : ¬ Acc B r) : s ≤ rp r ∧ rp (r + 1) ≤ t := by
  obtain ⟨b1, b2, b3, b4, b5⟩ := D.basic R
  have hf := D.range.start
  have hl := D.range.last
  have hs := D.range.stop
  have hF := D.range.first
  have htop := D.top
  have e1 := D.fr
  have e2 := D.lr
  unfold Acc at ha
  push Not at ha
  obtain ⟨a1, a2⟩ := ha
  constructor
  · by_cases h : r = B.first
    · have hne := a1 h
      rw [Ne, e1, not_not] at hne
      rw [h, hne.2]
    · have := R.mono (B.first + 1) r (by omega) (by omega)
      have := R.mono B.first r (by omega) (by omega)
      omega
  · by_cases h : t = rp nrow
    · have := R.mono (r + 1) nrow (by omega) (le_refl _)
      omega
    · have hL : B.last = L := by
        by_contra hc
        exact h (b4 hc)
      by_cases hr : r = L
      · have hne := a2 (by omega)
        rw [Ne, e2] at hne
        push Not at hne
        by_cases hFL : B.first < L
        · have := hne hFL
          rw [hr]; omega
        · have h6 : B.first = L := by omega
          have := a1 (by omega)
          rw [Ne, e1, not_not] at this
          omega
      · have := R.mono (r + 1) L (by omega) (by omega)
        omega

end

variable {M : Mat K} {s t L : Nat} {B : Blk}

theorem Desc.outside (R : Rows nrow M.rp) (D : Desc nrow M.rp s t L B) (x : Nat → K) {r : Nat} (hr : r < nrow) (h : r < B.first ∨ B.last < r) : part M x s t r = 0 := by
  obtain ⟨b1, b2, b3, b4, b5⟩ := D.basic R
  rw [part_eq M x (u := 0) (v := 0)]
  · simp
  · intro k
    have hF := D.range.first
    have hs := D.range.stop
    rcases h with h | h
    · have := R.mono (r + 1) B.first (by omega) (by omega)
      omega
    · have hL : t ≠ M.rp nrow := by
        intro e
        have := (b5 e).2
        omega
      have hL : B.last = L := by
        by_contra hc
        exact hL (b4 hc)
      have := R.mono (L + 1) r (by omega) (by omega)
      omega

theorem Desc.out (R : Rows nrow M.rp) (D : Desc nrow M.rp s t L B) (x : Nat → K) : ∃ O, blockOut nrow M B x = .ok O ∧
    (∀ w ∈ O.writes, B.first ≤ w.1 ∧ w.1 ≤ B.last ∧ (Acc B w.1 → w.2 = 0) ∧ (¬ Acc B w.1 → w.2 = rowSum M x w.1)) ∧
    (∀ r, B.first ≤ r → r ≤ B.last → ∃ w ∈ O.writes, w.1 = r) ∧
    (B.fr = 0 → O.fr = some (part M x s t B.first)) ∧ (B.lr = 0 → O.lr = some (part M x s t B.last) ∧ B.first ≠ B.last) := by
  obtain ⟨b1, b2, b3, b4, b5⟩ := D.basic R
  have hf := D.range.start
  have hl := D.range.last
  have hs := D.range.stop
  have hF := D.range.first
  have htop := D.top
  have hpos := D.pos
  have e1 := D.fr
  have e2 := D.lr
  have hmF := R.mono B.first (B.first + 1) (by omega) (by omega)
  unfold blockOut
  by_cases h : B.first = B.last
  · have hL : L = B.first := by omega
    have hfr : B.fr = 0 := by rw [e1]; omega
    have hlr : B.lr ≠ 0 := by rw [Ne, e2]; omega
    rw [if_pos h, if_neg (by omega), seg_ok M x (s := s) (t := t) (by omega) htop D.spos (by rw [D.epos, D.spos]; omega)]
    simp only [Res.bind_ok]
    refine ⟨_, rfl, ?_, ?_, ?_, fun h' => absurd h' hlr⟩
    · intro w hw
      simp only [List.mem_singleton] at hw
      subst hw
      exact ⟨le_refl _, h.le, fun _ => rfl, fun ha => absurd (Or.inl ⟨rfl, hfr⟩) ha⟩
    · intro r h1 h2
      exact ⟨_, List.mem_singleton.2 rfl, by show B.first = r; omega⟩
    · intro _
      simp only [Option.some.injEq]
      rw [part_eq M x (u := s) (v := t)]
      intro k
      rw [hL] at hs
      omega
  · rw [if_neg h]
    have hF1 : M.rp (B.first + 1) ≤ t := by
      by_cases hFL : B.first < L
      · have := R.mono (B.first + 1) L (by omega) (by omega)
        omega
      · have h6 : B.first = L := by omega
        have := b5 (b4 (by omega))
        rw [h6]; omega
    obtain ⟨fs, hfs, q1, q2, q3⟩ : ∃ fs, firstSeg nrow M B x = .ok fs ∧ (∀ w ∈ fs.1, w = (B.first, 0) ∧ B.fr = 0) ∧
        (B.fr = 0 → fs.2.1 = some (part M x s t B.first) ∧ fs.2.2 = B.first + 1 ∧ fs.1 = [(B.first, 0)]) ∧ (B.fr ≠ 0 → fs.2.2 = B.first) := by
      unfold firstSeg
      by_cases h0 : B.fr = 0
      · rw [if_pos h0, if_neg (by omega), seg_ok M x (s := s) (t := M.rp (B.first + 1)) (by omega) (by omega) D.spos (by rw [D.spos])]
        simp only [Res.bind_ok]
        refine ⟨_, rfl, by intro w hw; exact ⟨List.mem_singleton.1 hw, h0⟩, fun _ => ⟨?_, rfl, rfl⟩, fun h' => absurd h0 h'⟩
        simp only [Option.some.injEq]
        rw [part_eq M x (u := s) (v := M.rp (B.first + 1))]
        intro k
        omega
      · rw [if_neg h0]
        exact ⟨_, rfl, by intro w hw; simp at hw, fun h' => absurd h' h0, fun _ => rfl⟩
    obtain ⟨ls, hls, r1, r2, r3⟩ : ∃ ls, lastSeg nrow M B x = .ok ls ∧ (∀ w ∈ ls.1, w = (B.last, 0) ∧ B.lr = 0) ∧
        (B.lr = 0 → ls.2.1 = some (part M x s t B.last) ∧ ls.2.2 = B.last ∧ ls.1 = [(B.last, 0)]) ∧ (B.lr ≠ 0 → ls.2.2 = B.last + 1) := by
      unfold lastSeg
      by_cases h0 : B.lr = 0
      · obtain ⟨c1, c2⟩ := e2.1 h0
        have hL : B.last = L := by
          by_contra hc
          exact c2 (b5 (b4 hc)).1
        have hmL := R.mono (B.first + 1) L (by omega) (by omega)
        rw [hL] at *
        rw [if_pos h0, if_neg (by omega), seg_ok M x (s := M.rp L) (t := t) (by omega) htop rfl (by rw [D.epos]; omega)]
        simp only [Res.bind_ok]
        refine ⟨_, rfl, by intro w hw; exact ⟨List.mem_singleton.1 hw, h0⟩, fun _ => ⟨?_, rfl, rfl⟩, fun h' => absurd h0 h'⟩
        simp only [Option.some.injEq]
        rw [part_eq M x (u := M.rp L) (v := t)]
        intro k
        omega
      · rw [if_neg h0]
        exact ⟨_, rfl, by intro w hw; simp at hw, fun h' => absurd h' h0, fun _ => rfl⟩
    rw [hfs]
    simp only [Res.bind_ok]
    rw [hls]
    simp only [Res.bind_ok]
    have hb : ls.2.2 ≤ B.last + 1 := by
      by_cases h0 : B.lr = 0
      · have := (r2 h0).2.1; omega
      · have := r3 h0; omega
    rw [if_neg (by omega)]
    refine ⟨_, rfl, ?_, ?_, fun h0 => (q2 h0).1, fun h0 => ⟨(r2 h0).1, h⟩⟩
    · intro w hw
      simp only [List.mem_append, List.mem_map, List.mem_range'_1] at hw
      rcases hw with (hw | hw) | ⟨r, hr, rfl⟩
      · obtain ⟨rfl, h0⟩ := q1 w hw
        exact ⟨le_refl _, by show B.first ≤ B.last; omega, fun _ => rfl, fun ha => absurd (Or.inl ⟨rfl, h0⟩) ha⟩
      · obtain ⟨rfl, h0⟩ := r1 w hw
        exact ⟨by show B.first ≤ B.last; omega, le_refl _, fun _ => rfl, fun ha => absurd (Or.inr ⟨rfl, h0⟩) ha⟩
      · have g1 : B.fr = 0 → r ≠ B.first := by
          intro h0
          have := (q2 h0).2.1; omega
        have g2 : B.lr = 0 → r ≠ B.last := by
          intro h0
          have := (r2 h0).2.1; omega
        have g3 : B.first ≤ r := by
          by_cases h0 : B.fr = 0
          · have := (q2 h0).2.1; omega
          · have := q3 h0; omega
        refine ⟨g3, by show r ≤ B.last; omega, ?_, fun _ => rfl⟩
        rintro (⟨h1, h2⟩ | ⟨h1, h2⟩)
        · exact absurd h1 (g1 h2)
        · exact absurd h1 (g2 h2)
    · intro r h1 h2
      simp only [List.mem_append, List.mem_map, List.mem_range'_1]
      by_cases hc1 : r = B.first ∧ B.fr = 0
      · exact ⟨(B.first, 0), Or.inl (Or.inl (by rw [(q2 hc1.2).2.2]; simp)), hc1.1.symm⟩
      by_cases hc2 : r = B.last ∧ B.lr = 0
      · exact ⟨(B.last, 0), Or.inl (Or.inr (by rw [(r2 hc2.2).2.2]; simp)), hc2.1.symm⟩
      refine ⟨(r, rowSum M x r), Or.inr ⟨r, ?_, rfl⟩, rfl⟩
      have g3 : fs.2.2 ≤ r := by
        by_cases h0 : B.fr = 0
        · have := (q2 h0).2.1; omega
        · have := q3 h0; omega
      have g4 : r < ls.2.2 := by
        by_cases h0 : B.lr = 0
        · have := (r2 h0).2.1; omega
        · have := r3 h0; omega
      omega

end H2Pack.CSRP
