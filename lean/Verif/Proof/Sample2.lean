import Verif.Proof.Sample1
import Mathlib.Analysis.SpecialFunctions.Trigonometric.Complex
import Mathlib.RingTheory.Polynomial.Chebyshev
import Mathlib.Analysis.SpecialFunctions.Trigonometric.Chebyshev.Basic
import Mathlib.Tactic.FieldSimp
import Mathlib.Tactic.Positivity

/-! # Anchor grid and the points nearest to the anchors -/

namespace H2Pack.Sample
open Finset

theorem stride_prod (g : Nat → Nat) (n : Nat) : stride g n = ∏ j ∈ range n, (g j + 1) := by
  induction n with
  | zero => rfl
  | succ n ih => rw [Finset.prod_range_succ, ← ih]; rfl

theorem stride_pos (g : Nat → Nat) (n : Nat) : 0 < stride g n := by
  rw [stride_prod]; exact Finset.prod_pos fun i _ => Nat.succ_pos _

theorem stride_dvd (g : Nat → Nat) {j n : Nat} (h : j < n) : stride g j * (g j + 1) ∣ stride g n := by
  induction n with
  | zero => omega
  | succ n ih =>
    rcases Nat.lt_or_ge j n with h' | h'
    · exact dvd_mul_of_dvd_left (ih h') _
    · have : j = n := by omega
      subst this; exact dvd_refl _

theorem radix (g c : Nat → Nat) : ∀ n, (∀ j < n, c j ≤ g j) → ∃ i < stride g n, ∀ j < n, i / stride g j % (g j + 1) = c j := by
  intro n
  induction n with
  | zero => intro _; exact ⟨0, by simp [stride], by simp⟩
  | succ n ih =>
    intro h
    obtain ⟨i, hi, hc⟩ := ih fun j hj => h j (by omega)
    refine ⟨i + stride g n * c n, ?_, fun j hj => ?_⟩
    · have := h n (by omega)
      show _ < stride g n * (g n + 1)
      have : stride g n * c n ≤ stride g n * g n := Nat.mul_le_mul_left _ this
      rw [Nat.mul_add, Nat.mul_one]; omega
    · rcases Nat.lt_or_ge j n with h' | h'
      · obtain ⟨t, ht⟩ := stride_dvd g h'
        rw [ht, mul_assoc (stride g j), mul_assoc (stride g j), Nat.add_mul_div_left _ _ (stride_pos g j), mul_assoc, Nat.add_mul_mod_self_left]
        exact hc j h'
      · have : j = n := by omega
        subst this
        rw [Nat.add_mul_div_left _ _ (stride_pos g j), Nat.div_eq_of_lt hi, Nat.zero_add]
        exact Nat.mod_eq_of_lt (by have := h j (by omega); omega)

theorem anchors_length (algo dim : Nat) (lo hi e : Nat → ℝ) (g : Nat → Nat) : (anchors algo dim lo hi e g).length = ∏ j ∈ range dim, (g j + 1) := by
  rw [← stride_prod]; simp [anchors]

theorem anchors_mem (algo dim : Nat) (lo hi e : Nat → ℝ) (g : Nat → Nat) {a : Pt} (h : a ∈ anchors algo dim lo hi e g) :
    ∃ c : Nat → Nat, (∀ j, c j ≤ g j) ∧ ∀ j, a j = anchorDim algo (lo j) (hi j) (e j) (g j) (c j) := by
  unfold anchors at h
  obtain ⟨i, _, rfl⟩ := List.mem_map.mp h
  exact ⟨fun j => i / stride g j % (g j + 1), fun j => Nat.lt_succ_iff.mp (Nat.mod_lt _ (Nat.succ_pos _)), fun j => rfl⟩

theorem anchors_all (algo dim : Nat) (lo hi e : Nat → ℝ) (g c : Nat → Nat) (h : ∀ j < dim, c j ≤ g j) :
    ∃ a ∈ anchors algo dim lo hi e g, ∀ j < dim, a j = anchorDim algo (lo j) (hi j) (e j) (g j) (c j) := by
  obtain ⟨i, hi', hc⟩ := radix g c dim h
  refine ⟨_, List.mem_map.mpr ⟨i, List.mem_range.mpr hi', rfl⟩, fun j hj => ?_⟩
  rw [hc j hj]

/-- Distance between neighbouring anchors of algorithm 6. -/
theorem anchor6 (lo hi : ℝ) (g j : Nat) : anchorDim 6 lo hi (hi - lo) g j = lo + (hi - lo) / (g + 1 / 2) * (j + 1 / 4) ∧
    anchorDim 6 lo hi (hi - lo) g j = hi - (hi - lo) / (g + 1 / 2) * ((g : ℝ) - j + 1 / 4) := by
  have : (g : ℝ) + 1 / 2 ≠ 0 := by positivity
  constructor
  · simp only [anchorDim, if_true]; ring
  · simp only [anchorDim, if_true]
    field_simp
    ring

theorem anchor2 (lo hi : ℝ) (g j : Nat) : anchorDim 2 lo hi (hi - lo) g j =
    (lo + hi) / 2 + (hi - lo) / 2 * (if g = 0 then 0 else Real.cos ((2 * (j : ℝ) + 1) * (Real.pi / (2 * g + 2)))) := by
  simp only [anchorDim, if_neg (show ¬ (2 : Nat) = 6 by omega), if_true]
  split_ifs <;> ring

theorem cheb_root (g j : Nat) : (Polynomial.Chebyshev.T ℝ (g + 1)).eval (Real.cos ((2 * (j : ℝ) + 1) * (Real.pi / (2 * g + 2)))) = 0 := by
  have h : (Polynomial.Chebyshev.T ℝ ((g : ℤ) + 1)).eval (Real.cos ((2 * (j : ℝ) + 1) * (Real.pi / (2 * g + 2)))) =
      Real.cos ((((g : ℤ) + 1 : ℤ) : ℝ) * ((2 * (j : ℝ) + 1) * (Real.pi / (2 * g + 2)))) := by
    rw [Polynomial.Chebyshev.T_real_cos]
  rw [h, Real.cos_eq_zero_iff]
  refine ⟨j, ?_⟩
  have : (2 * (g : ℝ) + 2) ≠ 0 := by positivity
  push_cast
  field_simp

theorem anchor_in (algo : Nat) (ha : algo = 2 ∨ algo = 6) {lo hi : ℝ} (h : lo ≤ hi) {g j : Nat} (hj : j ≤ g) :
    lo ≤ anchorDim algo lo hi (hi - lo) g j ∧ anchorDim algo lo hi (hi - lo) g j ≤ hi := by
  rcases ha with rfl | rfl
  · rw [anchor2]
    have : -1 ≤ (if g = 0 then 0 else Real.cos ((2 * (j : ℝ) + 1) * (Real.pi / (2 * g + 2)))) ∧ (if g = 0 then 0 else Real.cos ((2 * (j : ℝ) + 1) * (Real.pi / (2 * g + 2)))) ≤ 1 := by
      split_ifs
      · norm_num
      · exact ⟨Real.neg_one_le_cos _, Real.cos_le_one _⟩
    revert this
    generalize (if g = 0 then (0 : ℝ) else Real.cos ((2 * (j : ℝ) + 1) * (Real.pi / (2 * g + 2)))) = x
    rintro ⟨h1, h2⟩
    constructor <;> nlinarith
  · obtain ⟨h1, h2⟩ := anchor6 lo hi g j
    have hs : 0 ≤ (hi - lo) / ((g : ℝ) + 1 / 2) := div_nonneg (by linarith) (by positivity)
    have hjg : (j : ℝ) ≤ g := by exact_mod_cast hj
    constructor
    · rw [h1]; have := mul_nonneg hs (show (0 : ℝ) ≤ j + 1 / 4 by positivity); linarith
    · rw [h2]; have := mul_nonneg hs (show (0 : ℝ) ≤ (g : ℝ) - j + 1 / 4 by linarith); linarith

theorem anchor_inj (algo : Nat) (ha : algo = 2 ∨ algo = 6) {lo hi : ℝ} (h : lo < hi) {g i j : Nat} (hi' : i ≤ g) (hj : j ≤ g)
    (he : anchorDim algo lo hi (hi - lo) g i = anchorDim algo lo hi (hi - lo) g j) : i = j := by
  rcases ha with rfl | rfl
  · rw [anchor2, anchor2] at he
    by_cases hg : g = 0
    · omega
    rw [if_neg hg, if_neg hg] at he
    have hh : (hi - lo) / 2 ≠ 0 := by have : 0 < hi - lo := by linarith
                                      positivity
    have he' := mul_left_cancel₀ hh (add_left_cancel he)
    have hin : ∀ t : Nat, t ≤ g → (2 * (t : ℝ) + 1) * (Real.pi / (2 * g + 2)) ∈ Set.Icc 0 Real.pi := by
      intro t ht
      have ht' : (t : ℝ) ≤ g := by exact_mod_cast ht
      have hp := Real.pi_pos
      have hd : (0 : ℝ) < 2 * g + 2 := by positivity
      refine ⟨by positivity, ?_⟩
      rw [← mul_div_assoc, div_le_iff₀ hd]
      nlinarith
    have := Real.injOn_cos (hin i hi') (hin j hj) he'
    have hp : Real.pi / (2 * (g : ℝ) + 2) ≠ 0 := by have := Real.pi_pos; positivity
    have := mul_right_cancel₀ hp this
    have : (i : ℝ) = j := by linarith
    exact_mod_cast this
  · rw [(anchor6 lo hi g i).1, (anchor6 lo hi g j).1] at he
    have hh : (hi - lo) / ((g : ℝ) + 1 / 2) ≠ 0 := by have : 0 < hi - lo := by linarith
                                                      positivity
    have := mul_left_cancel₀ hh (add_left_cancel he)
    have : (i : ℝ) = j := by linarith
    exact_mod_cast this

theorem dist2_eq (dim : Nat) (p q : Pt) : dist2 dim p q = sqDist dim p q := by
  unfold dist2 sqDist
  rw [foldl_sum]
  exact Finset.sum_congr rfl fun i _ => by ring

theorem nearest_spec (dim : Nat) {P : List Pt} (h : P ≠ []) (a : Pt) (j : Nat) : nearest dim P a = j ↔ Nearest dim P a j := by
  have hn : 0 < P.length := List.length_pos_iff.mpr h
  obtain ⟨h1, h2, h3⟩ := argMin_spec (fun j => dist2 dim a (P.getD j fun _ => 0)) P.length hn
  simp only [dist2_eq] at h1 h2 h3
  have hN : Nearest dim P a (nearest dim P a) := by
    unfold nearest; simp only [dist2_eq]; exact ⟨h1, h2, h3⟩
  refine ⟨fun h => h ▸ hN, fun h => ?_⟩
  rcases Nat.lt_trichotomy (nearest dim P a) j with hl | hl | hl
  · have a1 := h.first _ hl
    have a2 := hN.least j h.lt
    linarith
  · exact hl
  · have a1 := hN.first _ hl
    have a2 := h.least _ hN.lt
    linarith

theorem flag_fold (dim : Nat) (P : List Pt) : ∀ (L : List Pt) (f : Nat → Int) (j : Nat),
    (L.foldl (fun f a => Function.update f (nearest dim P a) (1 : Int)) f j ≠ -1) ↔ f j ≠ -1 ∨ ∃ a ∈ L, nearest dim P a = j := by
  intro L
  induction L with
  | nil => intro f j; simp
  | cons a L ih =>
    intro f j
    rw [List.foldl_cons, ih]
    by_cases h : nearest dim P a = j
    · subst h; simp
    · rw [Function.update_of_ne (fun h' => h h'.symm)]
      simp [h]

theorem flagged_spec (dim : Nat) {P : List Pt} (h : P ≠ []) (L : List Pt) :
    (flagged dim P L).Pairwise (· < ·) ∧ (∀ j, j ∈ flagged dim P L ↔ ∃ a ∈ L, Nearest dim P a j) ∧ (flagged dim P L).length ≤ P.length ∧
      (flagged dim P L).length ≤ L.length ∧ (L ≠ [] → flagged dim P L ≠ []) := by
  have hp : (flagged dim P L).Pairwise (· < ·) := List.Pairwise.filter _ List.pairwise_lt_range
  have hm : ∀ j, j ∈ flagged dim P L ↔ ∃ a ∈ L, Nearest dim P a j := by
    intro j
    unfold flagged
    simp only [List.mem_filter, List.mem_range, decide_eq_true_eq]
    rw [flag_fold]
    simp only [nearest_spec dim h]
    constructor
    · rintro ⟨_, h' | h'⟩
      · exact absurd rfl h'
      · exact h'
    · rintro ⟨a, ha, hN⟩
      exact ⟨hN.lt, Or.inr ⟨a, ha, hN⟩⟩
  refine ⟨hp, hm, ?_, ?_, ?_⟩
  · have : (flagged dim P L).Sublist (List.range P.length) := List.filter_sublist
    simpa using this.length_le
  · have hnd : (flagged dim P L).Nodup := hp.imp fun h => Nat.ne_of_lt h
    have hsub : flagged dim P L ⊆ L.map (nearest dim P) := by
      intro j hj
      obtain ⟨a, ha, hN⟩ := (hm j).mp hj
      exact List.mem_map.mpr ⟨a, ha, (nearest_spec dim h a j).mpr hN⟩
    have := (hnd.subperm hsub).length_le
    simpa using this
  · intro hL
    obtain ⟨a, ha⟩ := List.exists_mem_of_ne_nil L hL
    have : nearest dim P a ∈ flagged dim P L := (hm _).mpr ⟨a, ha, (nearest_spec dim h a _).mp rfl⟩
    exact List.ne_nil_of_mem this

theorem clusterSample_ok (dim : Nat) {P : List Pt} (h : P ≠ []) (g : Nat → Nat) (algo : Nat) (sched : List Pt → List Pt) (hs : ∀ L, (sched L).Perm L) :
    ∃ s, clusterSample dim P g algo sched = .ok s ∧ s.Pairwise (· < ·) ∧
      (∀ j, j ∈ s ↔ ∃ a ∈ anchors algo dim (fun i => minC (crd P i) P.length) (fun i => maxC (crd P i) P.length)
        (fun i => maxC (crd P i) P.length - minC (crd P i) P.length) g, Nearest dim P a j) ∧
      s ≠ [] ∧ s.length ≤ P.length ∧ s.length ≤ ∏ j ∈ range dim, (g j + 1) := by
  unfold clusterSample
  rw [if_neg (by have := List.length_pos_iff.mpr h; omega)]
  dsimp only
  set L := anchors algo dim (fun i => minC (crd P i) P.length) (fun i => maxC (crd P i) P.length)
        (fun i => maxC (crd P i) P.length - minC (crd P i) P.length) g with hL
  obtain ⟨h1, h2, h3, h4, h5⟩ := flagged_spec dim h (sched L)
  have hlen : L.length = ∏ j ∈ range dim, (g j + 1) := anchors_length _ _ _ _ _ _
  refine ⟨_, rfl, h1, fun j => ?_, ?_, h3, ?_⟩
  · rw [h2]; simp only [(hs L).mem_iff]
  · refine h5 fun h0 => ?_
    have : 0 < L.length := by rw [hlen]; exact Finset.prod_pos fun i _ => Nat.succ_pos _
    rw [← (hs L).length_eq, h0] at this
    simp at this
  · rw [← hlen, ← (hs L).length_eq]; exact h4

end H2Pack.Sample
