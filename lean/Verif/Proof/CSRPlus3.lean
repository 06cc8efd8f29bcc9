import Verif.Proof.CSRPlus2
import Verif.Props.CSR
import Mathlib.Algebra.BigOperators.Group.List.Basic
import Mathlib.Order.Monotone.Basic

/-! # All blocks -/

namespace H2Pack.CSRP
open Finset
open H2Pack.CSR (Mat COO)

variable {K : Type} [Field K]

theorem writes_all {y0 : Nat → K} {r : Nat} {v : K} : ∀ (l : List (Nat × K)), (∀ w ∈ l, w.1 = r → w.2 = v) →
    ((∃ w ∈ l, w.1 = r) → l.foldl (fun y w => Function.update y w.1 w.2) y0 r = v) ∧
    ((¬ ∃ w ∈ l, w.1 = r) → l.foldl (fun y w => Function.update y w.1 w.2) y0 r = y0 r) := by
  intro l
  induction l using List.reverseRecOn with
  | nil => intro _; simp
  | append_singleton l a ih =>
    intro h
    obtain ⟨i1, i2⟩ := ih fun w hw => h w (List.mem_append_left _ hw)
    rw [List.foldl_append, List.foldl_cons, List.foldl_nil]
    by_cases ha : a.1 = r
    · have := h a (by simp) ha
      refine ⟨fun _ => by rw [← ha, Function.update_self, this], fun hn => absurd ⟨a, by simp, ha⟩ hn⟩
    · rw [Function.update_of_ne (Ne.symm ha)]
      constructor
      · rintro ⟨w, hw, hr⟩
        rcases List.mem_append.1 hw with hw | hw
        · exact i1 ⟨w, hw, hr⟩
        · rw [List.mem_singleton] at hw
          subst hw
          exact absurd hr ha
      · intro hn
        exact i2 fun ⟨w, hw, hr⟩ => hn ⟨w, List.mem_append_left _ hw, hr⟩

/-- A partition of the nonzeros into blocks. -/
structure Parts (nrow nblk : Nat) (rp D L : Nat → Nat) (P : Nat → Blk) : Prop where
  rows : Rows nrow rp
  pos : 0 < nblk
  start : D 0 = 0
  stop : D nblk = rp nrow
  mono : ∀ i j, i ≤ j → j ≤ nblk → D i ≤ D j
  desc : ∀ i < nblk, Desc nrow rp (D i) (D (i + 1)) (L i) (P i)

variable {nrow nblk : Nat} {D L : Nat → Nat} {P : Nat → Blk}

theorem Parts.notLast {rp : Nat → Nat} (H : Parts nrow nblk rp D L P) {i j : Nat} (hij : i < j) (hj : j < nblk) : D (i + 1) ≠ rp nrow ∧ (P i).last = L i := by
  have h1 := H.mono (i + 1) j hij (by omega)
  have h2 := (H.desc j hj).pos
  have h3 := (H.desc j hj).top
  have h4 := (H.desc i (by omega)).last
  have : D (i + 1) ≠ rp nrow := by omega
  rw [if_neg this] at h4
  exact ⟨this, h4⟩

theorem Parts.unique {rp : Nat → Nat} (H : Parts nrow nblk rp D L P) {i j r : Nat} (hi : i < nblk) (hj : j < nblk)
    (h1 : (P i).first ≤ r) (h2 : r ≤ (P i).last) (ha : ¬ Acc (P i) r) (h3 : (P j).first ≤ r) (h4 : r ≤ (P j).last) : i = j := by
  obtain ⟨a1, a2⟩ := (H.desc i hi).inside H.rows h1 h2 ha
  obtain ⟨b1, b2, b3, b4, b5⟩ := (H.desc i hi).basic H.rows
  obtain ⟨c1, c2, c3, c4, c5⟩ := (H.desc j hj).basic H.rows
  have hR := H.rows.mono
  rcases lt_trichotomy i j with h | h | h
  · exfalso
    obtain ⟨n1, n2⟩ := H.notLast h hj
    have m1 := H.mono (i + 1) j h (by omega)
    have m2 := hR ((P j).first + 1) (r + 1) (by omega) (by omega)
    have m3 := hR (P j).first r h3 (by omega)
    have m4 := hR r (L i) (by omega) (by omega)
    have m5 := hR r (r + 1) (by omega) (by omega)
    have m6 := (H.desc i hi).range.last
    have m7 := (H.desc j hj).range.start
    have m8 := hR (r + 1) (L i)
    by_cases hrL : r = L i
    · rw [← hrL] at m6
      have m9 := hR (P j).first r h3 (by omega)
      omega
    · have := m8 (by omega) (by omega)
      have := hR (P j).first (L i) (by omega) (by omega)
      omega
  · exact h
  · exfalso
    obtain ⟨n1, n2⟩ := H.notLast h hi
    have m1 := H.mono (j + 1) i h (by omega)
    have m2 := (H.desc j hj).range.last
    have m3 := hR r (L j) (by omega) (by omega)
    omega

theorem Parts.cover {rp : Nat → Nat} (H : Parts nrow nblk rp D L P) {r : Nat} (hr : r < nrow) : ∃ i < nblk, (P i).first ≤ r ∧ r ≤ (P i).last := by
  have hex : ∃ i, i < nblk ∧ r ≤ (P i).last := by
    have hp := H.pos
    have h := H.desc (nblk - 1) (by omega)
    have h1 := h.last
    rw [show nblk - 1 + 1 = nblk by omega, if_pos H.stop] at h1
    exact ⟨nblk - 1, by omega, by omega⟩
  classical
  obtain ⟨h1, h2⟩ := Nat.find_spec hex
  have hmin := fun j => Nat.find_min (m := j) hex
  generalize Nat.find hex = i at *
  refine ⟨i, h1, ?_, h2⟩
  have hd := (H.desc i h1).range
  by_cases h0 : i = 0
  · subst h0
    have hb := hd.before 0
    rw [H.start, H.rows.zero] at hb
    by_contra hc
    exact absurd (hb (by omega)) (by omega)
  · have hl := hmin (i - 1) (by omega)
    push Not at hl
    have hl := hl (by omega)
    obtain ⟨n1, n2⟩ := H.notLast (i := i - 1) (j := i) (by omega) h1
    have hs := (H.desc (i - 1) (by omega)).range.stop
    rw [show i - 1 + 1 = i by omega] at hs
    by_contra hc
    have h3 := hd.before r (by omega)
    have h4 := H.rows.mono (L (i - 1) + 1) r (by omega) (by omega)
    omega

theorem fixup_spec (P : Nat → Blk) (fr lr : Nat → K) (i : Nat) (f l : K) (hf : (P i).fr = 0 → fr i = f) (hl : (P i).lr = 0 → lr i = l ∧ (P i).first ≠ (P i).last) (y : Nat → K) (r : Nat) :
    fixup P fr lr y i r = y r + (if (P i).fr = 0 ∧ r = (P i).first then f else 0) + (if (P i).lr = 0 ∧ r = (P i).last then l else 0) := by
  unfold fixup
  by_cases h1 : (P i).fr = 0
  · rw [hf h1]
    by_cases h2 : (P i).lr = 0
    · obtain ⟨e1, e2⟩ := hl h2
      rw [e1]
      simp only [h1, h2, if_true, true_and, Function.update_apply]
      by_cases r1 : r = (P i).first
      · subst r1
        simp [e2]
      · by_cases r2 : r = (P i).last
        · subst r2
          simp [Ne.symm e2]
        · simp [r1, r2]
    · simp only [h1, h2, if_true, if_false, true_and, false_and, Function.update_apply, add_zero]
      by_cases r1 : r = (P i).first
      · subst r1; simp
      · simp [r1]
  · by_cases h2 : (P i).lr = 0
    · obtain ⟨e1, e2⟩ := hl h2
      rw [e1]
      simp only [h1, h2, if_true, if_false, true_and, false_and, Function.update_apply, add_zero]
      by_cases r2 : r = (P i).last
      · subst r2; simp
      · simp [r2]
    · simp [h1, h2]

theorem fold_fix (F : (Nat → K) → Nat → Nat → K) (c : Nat → Nat → K) (hF : ∀ i < nblk, ∀ y r, F y i r = y r + c i r) (y : Nat → K) (r : Nat) :
    ∀ n ≤ nblk, (List.range n).foldl F y r = y r + ∑ i ∈ range n, c i r := by
  intro n
  induction n with
  | zero => intro _; simp
  | succ n ih =>
    intro hn
    rw [List.range_succ, List.foldl_append, List.foldl_cons, List.foldl_nil, hF n (by omega), ih (by omega), sum_range_succ, add_assoc]

theorem Parts.sum {M : Mat K} (H : Parts nrow nblk M.rp D L P) (x : Nat → K) {r : Nat} (hr : r < nrow) :
    ∑ i ∈ range nblk, part M x (D i) (D (i + 1)) r = ∑ k ∈ Ico (M.rp r) (M.rp (r + 1)), prod M x k := by
  have e : ∀ n ≤ nblk, ∑ i ∈ range n, part M x (D i) (D (i + 1)) r = part M x 0 (D n) r := by
    intro n
    induction n with
    | zero => intro _; rw [H.start]; simp [part]
    | succ n ih =>
      intro hn
      rw [sum_range_succ, ih (by omega)]
      unfold part
      rw [Finset.sum_Ico_consecutive _ (Nat.zero_le _) (H.mono n (n + 1) (by omega) hn)]
  rw [e nblk (le_refl _), H.stop]
  refine part_eq M x fun k => ?_
  have := H.rows.mono (r + 1) nrow (by omega) (le_refl _)
  omega

/-- The product computed with a partition. -/
theorem Parts.spmv {M : Mat K} (H : Parts nrow nblk M.rp D L P) (x : Nat → K) (merge : List (List (Nat × K)) → List (Nat × K)) (hm : ∀ l, (merge l).Perm l.flatten)
    (fr0 lr0 y0 : Nat → K) : ∃ y, CSRP.spmv nrow nblk M P x merge fr0 lr0 y0 = .ok y ∧
      (∀ r < nrow, y r = ∑ k ∈ Ico (M.rp r) (M.rp (r + 1)), prod M x k) ∧ ∀ r, nrow ≤ r → y r = y0 r := by
  have hout : ∀ i, ∃ O, i < nblk → blockOut nrow M (P i) x = .ok O ∧
      (∀ w ∈ O.writes, (P i).first ≤ w.1 ∧ w.1 ≤ (P i).last ∧ (Acc (P i) w.1 → w.2 = 0) ∧ (¬ Acc (P i) w.1 → w.2 = rowSum M x w.1)) ∧
      (∀ r, (P i).first ≤ r → r ≤ (P i).last → ∃ w ∈ O.writes, w.1 = r) ∧
      ((P i).fr = 0 → O.fr = some (part M x (D i) (D (i + 1)) (P i).first)) ∧ ((P i).lr = 0 → O.lr = some (part M x (D i) (D (i + 1)) (P i).last) ∧ (P i).first ≠ (P i).last) := by
    intro i
    by_cases hi : i < nblk
    · obtain ⟨O, hO⟩ := (H.desc i hi).out H.rows x
      exact ⟨O, fun _ => hO⟩
    · exact ⟨⟨[], none, none⟩, fun h => absurd h hi⟩
  choose O hO using hout
  unfold CSRP.spmv
  rw [collect_ok (g := O) (List.range nblk) fun i hi => (hO i (List.mem_range.1 hi)).1]
  simp only [Res.bind_ok]
  refine ⟨_, rfl, ?_⟩
  generalize hy : (merge (List.map Out.writes (List.map O (List.range nblk)))).foldl (fun y w => Function.update y w.1 w.2) y0 = y1
  have hget : ∀ i < nblk, ((List.range nblk).map O)[i]? = some (O i) := by
    intro i hi
    simp [hi]
  have hmem : ∀ w, w ∈ merge (List.map Out.writes (List.map O (List.range nblk))) ↔ ∃ i < nblk, w ∈ (O i).writes := by
    intro w
    rw [(hm _).mem_iff]
    simp
  have hfix : ∀ r, (List.range nblk).foldl (fixup P (fun i => (((List.range nblk).map O)[i]?.bind Out.fr).getD (fr0 i)) fun i => (((List.range nblk).map O)[i]?.bind Out.lr).getD (lr0 i)) y1 r =
      y1 r + ∑ i ∈ range nblk, ((if (P i).fr = 0 ∧ r = (P i).first then part M x (D i) (D (i + 1)) (P i).first else 0) +
        (if (P i).lr = 0 ∧ r = (P i).last then part M x (D i) (D (i + 1)) (P i).last else 0)) := by
    intro r
    refine fold_fix _ (fun i r => (if (P i).fr = 0 ∧ r = (P i).first then part M x (D i) (D (i + 1)) (P i).first else 0) +
        (if (P i).lr = 0 ∧ r = (P i).last then part M x (D i) (D (i + 1)) (P i).last else 0)) (fun i hi y r => ?_) y1 r nblk (le_refl _)
    rw [← add_assoc]
    obtain ⟨-, -, -, o4, o5⟩ := hO i hi
    refine fixup_spec P _ _ i _ _ (fun h => ?_) (fun h => ⟨?_, (o5 h).2⟩) y r
    · rw [hget i hi, Option.bind_some, o4 h]; rfl
    · rw [hget i hi, Option.bind_some, (o5 h).1]; rfl
  have hterm : ∀ r, ∀ i < nblk, ((if (P i).fr = 0 ∧ r = (P i).first then part M x (D i) (D (i + 1)) (P i).first else 0) +
      (if (P i).lr = 0 ∧ r = (P i).last then part M x (D i) (D (i + 1)) (P i).last else 0) : K) = open Classical in if Acc (P i) r then part M x (D i) (D (i + 1)) r else 0 := by
    intro r i hi
    obtain ⟨-, -, -, o4, o5⟩ := hO i hi
    unfold Acc
    by_cases h1 : (P i).fr = 0 ∧ r = (P i).first
    · obtain ⟨h1, h2⟩ := h1
      subst h2
      rw [if_pos ⟨h1, rfl⟩, if_neg (fun h => (o5 h.1).2 h.2), if_pos (Or.inl ⟨rfl, h1⟩), add_zero]
    · by_cases h2 : (P i).lr = 0 ∧ r = (P i).last
      · obtain ⟨h2, h3⟩ := h2
        subst h3
        rw [if_neg h1, if_pos ⟨h2, rfl⟩, if_pos (Or.inr ⟨rfl, h2⟩), zero_add]
      · rw [if_neg h1, if_neg h2, if_neg (by tauto), add_zero]
  constructor
  · intro r hr
    rw [hfix r, Finset.sum_congr rfl fun i hi => hterm r i (Finset.mem_range.1 hi), ← hy]
    obtain ⟨i0, hi0, c1, c2⟩ := H.cover hr
    obtain ⟨w0, hw0, hr0⟩ := (hO i0 hi0).2.2.1 r c1 c2
    by_cases hacc : ∃ i < nblk, (P i).first ≤ r ∧ r ≤ (P i).last ∧ ¬ Acc (P i) r
    · obtain ⟨i, hi, a1, a2, a3⟩ := hacc
      have huniq : ∀ j < nblk, (P j).first ≤ r → r ≤ (P j).last → i = j := fun j hj h1 h2 => H.unique hi hj a1 a2 a3 h1 h2
      rw [(writes_all (v := rowSum M x r) _ ?_).1 ⟨w0, (hmem w0).2 ⟨i0, hi0, hw0⟩, hr0⟩, Finset.sum_eq_zero, add_zero]
      · exact rowSum_eq M x r (H.rows.mono r (r + 1) (by omega) (by omega))
      · intro j hj
        have hj := Finset.mem_range.1 hj
        refine if_neg fun ha => ?_
        have hb := (H.desc j hj).basic H.rows
        have := huniq j hj (by rcases ha with ha | ha <;> omega) (by rcases ha with ha | ha <;> omega)
        subst this
        exact a3 ha
      · intro w hw hwr
        obtain ⟨j, hj, hwj⟩ := (hmem w).1 hw
        obtain ⟨p1, p2, p3, p4⟩ := (hO j hj).2.1 w hwj
        have := huniq j hj (by omega) (by omega)
        subst this
        rw [p4 (by rw [hwr]; exact a3), hwr]
    · push Not at hacc
      rw [(writes_all (v := 0) _ ?_).1 ⟨w0, (hmem w0).2 ⟨i0, hi0, hw0⟩, hr0⟩, zero_add, ← H.sum x hr]
      · refine Finset.sum_congr rfl fun i hi => ?_
        have hi := Finset.mem_range.1 hi
        by_cases ha : Acc (P i) r
        · rw [if_pos ha]
        · rw [if_neg ha, (H.desc i hi).outside H.rows x hr]
          by_contra hc
          push Not at hc
          exact ha (hacc i hi hc.1 hc.2)
      · intro w hw hwr
        obtain ⟨j, hj, hwj⟩ := (hmem w).1 hw
        obtain ⟨p1, p2, p3, p4⟩ := (hO j hj).2.1 w hwj
        exact p3 (by rw [hwr]; exact hacc j hj (by omega) (by omega))
  · intro r hr
    rw [hfix r, Finset.sum_eq_zero, add_zero, ← hy]
    · refine (writes_all (v := y0 r) _ ?_).2 ?_
      · intro w hw hwr
        obtain ⟨j, hj, hwj⟩ := (hmem w).1 hw
        have := (H.desc j hj).basic H.rows
        have := (hO j hj).2.1 w hwj
        omega
      · rintro ⟨w, hw, hwr⟩
        obtain ⟨j, hj, hwj⟩ := (hmem w).1 hw
        have := (H.desc j hj).basic H.rows
        have := (hO j hj).2.1 w hwj
        omega
    · intro i hi
      have hi := Finset.mem_range.1 hi
      have := (H.desc i hi).basic H.rows
      rw [if_neg (by omega), if_neg (by omega), add_zero]

end H2Pack.CSRP
