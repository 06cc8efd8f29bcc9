import Verif.Spec.SamplePoint
import Mathlib.Data.List.GetD
import Mathlib.Tactic.Linarith

/-! # Proportional decomposition, smallest and largest entries -/

namespace H2Pack.Sample
open Finset

theorem argMax_spec (x : Nat → ℝ) (n : Nat) (hn : 0 < n) :
    argMax x n < n ∧ (∀ i < n, x i ≤ x (argMax x n)) ∧ ∀ i < argMax x n, x i < x (argMax x n) := by
  have key : ∀ k, let m := (List.range' 1 k).foldl (fun (m : ℝ × Nat) i => if x i > m.1 then (x i, i) else m) (x 0, 0)
      m.1 = x m.2 ∧ m.2 ≤ k ∧ (∀ i ≤ k, x i ≤ m.1) ∧ ∀ i < m.2, x i < m.1 := by
    intro k
    induction k with
    | zero => simp
    | succ k ih =>
      rw [List.range'_1_concat, List.foldl_append]
      simp only [List.foldl_cons, List.foldl_nil]
      revert ih
      generalize (List.range' 1 k).foldl (fun (m : ℝ × Nat) i => if x i > m.1 then (x i, i) else m) (x 0, 0) = m
      intro ih
      obtain ⟨h1, h2, h3, h4⟩ := ih
      by_cases h : x (1 + k) > m.1
      · rw [if_pos h]
        refine ⟨rfl, by simp; omega, fun i hi => ?_, fun i hi => ?_⟩
        · rcases Nat.lt_or_ge i (1 + k) with h' | h'
          · exact le_trans (h3 i (by omega)) h.le
          · have : i = 1 + k := by omega
            subst this; exact le_refl _
        · exact lt_of_le_of_lt (h3 i (by simp at hi; omega)) h
      · rw [if_neg h]
        refine ⟨h1, by omega, fun i hi => ?_, h4⟩
        rcases Nat.lt_or_ge i (1 + k) with h' | h'
        · exact h3 i (by omega)
        · have : i = 1 + k := by omega
          subst this; exact not_lt.mp h
  obtain ⟨h1, h2, h3, h4⟩ := key (n - 1)
  refine ⟨by unfold argMax; omega, fun i hi => ?_, fun i hi => ?_⟩
  · unfold argMax; rw [← h1]; exact h3 i (by omega)
  · have := h4 i hi
    unfold argMax; rw [← h1]; exact this

theorem argMin_spec (x : Nat → ℝ) (n : Nat) (hn : 0 < n) :
    argMin x n < n ∧ (∀ i < n, x (argMin x n) ≤ x i) ∧ ∀ i < argMin x n, x (argMin x n) < x i := by
  have key : ∀ k, let m := (List.range' 1 k).foldl (fun (m : ℝ × Nat) i => if x i < m.1 then (x i, i) else m) (x 0, 0)
      m.1 = x m.2 ∧ m.2 ≤ k ∧ (∀ i ≤ k, m.1 ≤ x i) ∧ ∀ i < m.2, m.1 < x i := by
    intro k
    induction k with
    | zero => simp
    | succ k ih =>
      rw [List.range'_1_concat, List.foldl_append]
      simp only [List.foldl_cons, List.foldl_nil]
      revert ih
      generalize (List.range' 1 k).foldl (fun (m : ℝ × Nat) i => if x i < m.1 then (x i, i) else m) (x 0, 0) = m
      intro ih
      obtain ⟨h1, h2, h3, h4⟩ := ih
      by_cases h : x (1 + k) < m.1
      · rw [if_pos h]
        refine ⟨rfl, by simp; omega, fun i hi => ?_, fun i hi => ?_⟩
        · rcases Nat.lt_or_ge i (1 + k) with h' | h'
          · exact le_trans h.le (h3 i (by omega))
          · have : i = 1 + k := by omega
            subst this; exact le_refl _
        · exact lt_of_lt_of_le h (h3 i (by simp at hi; omega))
      · rw [if_neg h]
        refine ⟨h1, by omega, fun i hi => ?_, h4⟩
        rcases Nat.lt_or_ge i (1 + k) with h' | h'
        · exact h3 i (by omega)
        · have : i = 1 + k := by omega
          subst this; exact not_lt.mp h
  obtain ⟨h1, h2, h3, h4⟩ := key (n - 1)
  refine ⟨by unfold argMin; omega, fun i hi => ?_, fun i hi => ?_⟩
  · unfold argMin; rw [← h1]; exact h3 i (by omega)
  · have := h4 i hi
    unfold argMin; rw [← h1]; exact this

theorem maxC_spec (x : Nat → ℝ) (n : Nat) (hn : 0 < n) : (∀ i < n, x i ≤ maxC x n) ∧ ∃ i < n, x i = maxC x n := by
  have key : ∀ k, (∀ i ≤ k, x i ≤ (List.range' 1 k).foldl (fun m j => if x j > m then x j else m) (x 0)) ∧
      ∃ i ≤ k, x i = (List.range' 1 k).foldl (fun m j => if x j > m then x j else m) (x 0) := by
    intro k
    induction k with
    | zero => simp
    | succ k ih =>
      rw [List.range'_1_concat, List.foldl_append]
      simp only [List.foldl_cons, List.foldl_nil]
      revert ih
      generalize (List.range' 1 k).foldl (fun m j => if x j > m then x j else m) (x 0) = m
      rintro ⟨h1, i0, h2, h3⟩
      by_cases h : x (1 + k) > m
      · rw [if_pos h]
        refine ⟨fun i hi => ?_, 1 + k, by omega, rfl⟩
        rcases Nat.lt_or_ge i (1 + k) with h' | h'
        · exact le_trans (h1 i (by omega)) h.le
        · have : i = 1 + k := by omega
          subst this; exact le_refl _
      · rw [if_neg h]
        refine ⟨fun i hi => ?_, i0, by omega, h3⟩
        rcases Nat.lt_or_ge i (1 + k) with h' | h'
        · exact h1 i (by omega)
        · have : i = 1 + k := by omega
          subst this; exact not_lt.mp h
  obtain ⟨h1, i, h2, h3⟩ := key (n - 1)
  exact ⟨fun i hi => h1 i (by omega), i, by omega, h3⟩

theorem minC_spec (x : Nat → ℝ) (n : Nat) (hn : 0 < n) : (∀ i < n, minC x n ≤ x i) ∧ ∃ i < n, x i = minC x n := by
  have key : ∀ k, (∀ i ≤ k, (List.range' 1 k).foldl (fun m j => if x j < m then x j else m) (x 0) ≤ x i) ∧
      ∃ i ≤ k, x i = (List.range' 1 k).foldl (fun m j => if x j < m then x j else m) (x 0) := by
    intro k
    induction k with
    | zero => simp
    | succ k ih =>
      rw [List.range'_1_concat, List.foldl_append]
      simp only [List.foldl_cons, List.foldl_nil]
      revert ih
      generalize (List.range' 1 k).foldl (fun m j => if x j < m then x j else m) (x 0) = m
      rintro ⟨h1, i0, h2, h3⟩
      by_cases h : x (1 + k) < m
      · rw [if_pos h]
        refine ⟨fun i hi => ?_, 1 + k, by omega, rfl⟩
        rcases Nat.lt_or_ge i (1 + k) with h' | h'
        · exact le_trans h.le (h1 i (by omega))
        · have : i = 1 + k := by omega
          subst this; exact le_refl _
      · rw [if_neg h]
        refine ⟨fun i hi => ?_, i0, by omega, h3⟩
        rcases Nat.lt_or_ge i (1 + k) with h' | h'
        · exact h1 i (by omega)
        · have : i = 1 + k := by omega
          subst this; exact not_lt.mp h
  obtain ⟨h1, i, h2, h3⟩ := key (n - 1)
  exact ⟨fun i hi => h1 i (by omega), i, by omega, h3⟩

theorem getD_mem' {P : List Pt} {j : Nat} (h : j < P.length) : P.getD j (fun _ => 0) ∈ P := by
  rw [List.getD_eq_getElem _ _ h]; exact List.getElem_mem h

theorem mem_getD {P : List Pt} {p : Pt} (h : p ∈ P) : ∃ j < P.length, P.getD j (fun _ => 0) = p := by
  obtain ⟨j, hj, rfl⟩ := List.getElem_of_mem h
  exact ⟨j, hj, List.getD_eq_getElem _ _ hj⟩

theorem bounds_of {P : List Pt} (h : P ≠ []) (i : Nat) : Bounds P i (minC (crd P i) P.length) (maxC (crd P i) P.length) := by
  have hn : 0 < P.length := List.length_pos_iff.mpr h
  obtain ⟨a1, j1, a2, a3⟩ := minC_spec (crd P i) P.length hn
  obtain ⟨b1, j2, b2, b3⟩ := maxC_spec (crd P i) P.length hn
  refine ⟨fun p hp => ?_, fun p hp => ?_, ⟨_, getD_mem' a2, a3⟩, ⟨_, getD_mem' b2, b3⟩⟩
  · obtain ⟨j, hj, rfl⟩ := mem_getD hp
    exact a1 j hj
  · obtain ⟨j, hj, rfl⟩ := mem_getD hp
    exact b1 j hj

theorem foldl_sum {M : Type} [AddCommMonoid M] (f : Nat → M) (n : Nat) : (List.range n).foldl (fun s i => s + f i) 0 = ∑ i ∈ range n, f i := by
  induction n with
  | zero => simp
  | succ n ih => rw [List.range_succ, List.foldl_append, ih, Finset.sum_range_succ]; rfl

theorem foldl_prod {M : Type} [CommMonoid M] (f : Nat → M) (n : Nat) : (List.range n).foldl (fun s i => s * f i) 1 = ∏ i ∈ range n, f i := by
  induction n with
  | zero => simp
  | succ n ih => rw [List.range_succ, List.foldl_append, ih, Finset.prod_range_succ]; rfl

/-- What the loop of lines 59-74 preserves. -/
structure Loop (n : Nat) (q : Nat → ℝ) (d : Nat → Int) : Prop where
  quota : ∀ i < n, d i = ⌊q i⌋ ∨ (d i = ⌊q i⌋ + 1 ∧ 0 < Int.fract (q i))
  largest : ∀ i < n, ∀ j < n, d i = ⌊q i⌋ + 1 → d j = ⌊q j⌋ → Int.fract (q j) < Int.fract (q i) ∨ (Int.fract (q j) = Int.fract (q i) ∧ i < j)

theorem bump_loop {n : Nat} (hn : 0 < n) {q : Nat → ℝ} {d : Nat → Int} (h : Loop n q d) (hlt : ((∑ i ∈ range n, d i : Int) : ℝ) < ∑ i ∈ range n, q i) :
    Loop n q (bump n q d) ∧ ∑ i ∈ range n, bump n q d i = ∑ i ∈ range n, d i + 1 := by
  obtain ⟨a1, a2, a3⟩ := argMax_spec (fun i => q i - d i) n hn
  unfold bump
  dsimp only at a2 a3 ⊢
  set m := argMax (fun i => q i - (d i : ℝ)) n with hm
  have hpos : 0 < q m - d m := by
    by_contra hc
    have : ∑ i ∈ range n, q i ≤ ∑ i ∈ range n, (d i : ℝ) :=
      Finset.sum_le_sum fun i hi => by have := a2 i (Finset.mem_range.mp hi); linarith [not_lt.mp hc]
    push_cast at hlt
    linarith
  have hdm : d m = ⌊q m⌋ := by
    rcases h.quota m a1 with h' | ⟨h', _⟩
    · exact h'
    · exfalso
      have := Int.lt_floor_add_one (q m)
      rw [h'] at hpos; push_cast at hpos; linarith
  have hfm : Int.fract (q m) = q m - d m := by rw [hdm]; exact (Int.self_sub_floor _).symm
  refine ⟨⟨fun i hi => ?_, fun i hi j hj hi' hj' => ?_⟩, ?_⟩
  · by_cases him : i = m
    · subst him
      right
      rw [Function.update_self, hdm, hfm]
      exact ⟨rfl, hpos⟩
    · rw [Function.update_of_ne him]; exact h.quota i hi
  · have hjm : j ≠ m := by
      rintro rfl
      rw [Function.update_self, hdm] at hj'; omega
    rw [Function.update_of_ne hjm] at hj'
    have hfj : Int.fract (q j) = q j - d j := by rw [hj']; exact (Int.self_sub_floor _).symm
    by_cases him : i = m
    · subst him
      rw [hfj, hfm]
      rcases lt_or_eq_of_le (a2 j hj) with h1 | h1
      · exact Or.inl h1
      · right
        refine ⟨h1, ?_⟩
        by_contra hc
        have := a3 j (by omega)
        linarith
    · rw [Function.update_of_ne him] at hi'
      exact h.largest i hi j hj hi' hj'
  · rw [Finset.sum_update_of_mem (Finset.mem_range.mpr a1), ← Finset.add_sum_erase _ _ (Finset.mem_range.mpr a1), Finset.sdiff_singleton_eq_erase]; ring

theorem iter_loop {n : Nat} (hn : 0 < n) {q : Nat → ℝ} {s : Int} (hq : ∑ i ∈ range n, q i = s) : ∀ (k : Nat) (d : Nat → Int), Loop n q d → ∑ i ∈ range n, d i + k = s →
    Loop n q ((bump n q)^[k] d) ∧ ∑ i ∈ range n, (bump n q)^[k] d i = s := by
  intro k
  induction k with
  | zero => intro d h hs; exact ⟨h, by simpa using hs⟩
  | succ k ih =>
    intro d h hs
    rw [Function.iterate_succ, Function.comp_apply]
    obtain ⟨h1, h2⟩ := bump_loop hn h (by
      rw [hq]
      have : ∑ i ∈ range n, d i < s := by push_cast at hs; omega
      exact_mod_cast this)
    exact ih _ h1 (by rw [h2]; push_cast at hs; omega)

theorem decompose_ok {n : Nat} (hn : 0 < n) (s : Int) (prop : Nat → ℝ) (h : ∑ i ∈ range n, prop i ≠ 0) :
    ∃ d, decompose n s prop = .ok (d, ∏ i ∈ range n, (d i + 1)) ∧ Apportioned n s prop d := by
  have e1 : sumProp n prop = ∑ i ∈ range n, prop i := foldl_sum prop n
  have hq : ∑ i ∈ range n, share n s prop i = s := by
    unfold share
    rw [← Finset.sum_div, ← Finset.mul_sum, mul_div_assoc, div_self h, mul_one]
  have hL : Loop n (share n s prop) fun i => ⌊share n s prop i⌋ := ⟨fun i _ => Or.inl rfl, fun i _ j _ h _ => by simp at h⟩
  have hle : ∑ i ∈ range n, ⌊share n s prop i⌋ ≤ s := by
    have : ((∑ i ∈ range n, ⌊share n s prop i⌋ : Int) : ℝ) ≤ s := by
      rw [← hq]; push_cast
      exact Finset.sum_le_sum fun i _ => Int.floor_le _
    exact_mod_cast this
  obtain ⟨h1, h2⟩ := iter_loop hn hq (s - ∑ i ∈ range n, ⌊share n s prop i⌋).toNat _ hL (by rw [Int.toNat_of_nonneg (by omega)]; omega)
  refine ⟨(bump n (share n s prop))^[(s - ∑ i ∈ range n, ⌊share n s prop i⌋).toNat] fun i => ⌊share n s prop i⌋, ?_, ⟨h2, h1.quota, h1.largest⟩⟩
  unfold decompose
  dsimp only
  rw [e1, if_neg h, foldl_prod, foldl_sum (fun i => ⌊(s : ℝ) * prop i / ∑ i ∈ range n, prop i⌋)]
  rfl

theorem decompose_ub (n : Nat) (s : Int) (prop : Nat → ℝ) (h : ∑ i ∈ range n, prop i = 0) : decompose n s prop = .ub := by
  have e1 : sumProp n prop = ∑ i ∈ range n, prop i := foldl_sum prop n
  unfold decompose
  dsimp only
  rw [e1, if_pos h]

end H2Pack.Sample
