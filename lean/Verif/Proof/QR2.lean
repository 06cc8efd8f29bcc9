import Verif.Proof.QR
import Mathlib.Tactic.LinearCombination
import Mathlib.Tactic.FieldSimp
import Mathlib.Tactic.Linarith

/-!
# Partial pivoting QR in exact arithmetic: Gram matrix, triangular form, norms
-/

namespace H2Pack.ID
open Finset (range sum_congr mem_range mul_sum sum_mul sum_add_distrib)

variable {e f t : ℝ}

/-- Squared norm of the rows `i .. nrow-1` of a column. -/
def tail (nrow i : Nat) (x : Nat → ℝ) : ℝ := ∑ k ∈ range (nrow - i), x (i + k) ^ 2

theorem tail_nonneg (nrow i : Nat) (x : Nat → ℝ) : 0 ≤ tail nrow i x := Finset.sum_nonneg fun _ _ => sq_nonneg _

theorem sum_split {nrow i : Nat} (hi : i ≤ nrow) (g : Nat → ℝ) : ∑ k ∈ range nrow, g k = ∑ k ∈ range i, g k + ∑ k ∈ range (nrow - i), g (i + k) := by
  conv_lhs => rw [show nrow = i + (nrow - i) by omega]
  rw [Finset.sum_range_add]

theorem tail_succ {nrow i : Nat} (hi : i < nrow) (x : Nat → ℝ) : tail nrow i x = x i ^ 2 + tail nrow (i + 1) x := by
  unfold tail
  rw [show nrow - i = (nrow - (i + 1)) + 1 by omega, Finset.sum_range_succ', add_comm]
  simp only [Nat.add_zero]
  congr 1
  apply sum_congr rfl; intro k _
  rw [show i + (k + 1) = i + 1 + k by omega]

theorem tail_le {nrow i j : Nat} (hij : i ≤ j) (x : Nat → ℝ) : tail nrow j x ≤ tail nrow i x := by
  induction j, hij using Nat.le_induction with
  | base => exact le_refl _
  | succ j hj ih =>
    by_cases h : j < nrow
    · rw [tail_succ h] at ih
      have := sq_nonneg (x j)
      linarith
    · have : tail nrow (j + 1) x = 0 := by unfold tail; rw [show nrow - (j + 1) = 0 by omega]; rfl
      rw [this]; exact tail_nonneg _ _ _

/-! ## Householder vectors -/

theorem house_real (nrow i : Nat) (hi : i < nrow) (c : Nat → ℝ) :
    (tail nrow i c = 0 → house (realOps e f t) nrow i c = .ub) ∧
    (tail nrow i c ≠ 0 → ∃ d h, house (realOps e f t) nrow i c = .ok (d, h)) ∧
    ∀ d h, house (realOps e f t) nrow i c = .ok (d, h) → d ≠ 0 ∧ ∑ k ∈ range (nrow - i), h k ^ 2 = 1 ∧
      ∀ k < nrow - i, c (i + k) - 2 * (∑ l ∈ range (nrow - i), h l * c (i + l)) * h k = if k = 0 then d else 0 := by
  set S := tail nrow i c with hS
  have hS0 : 0 ≤ S := tail_nonneg _ _ _
  set σ := Real.sqrt S with hσ
  have hσ2 : σ * σ = S := Real.mul_self_sqrt hS0
  have hσ0 : 0 ≤ σ := Real.sqrt_nonneg _
  set sg : ℝ := if (realOps e f t).lt (realOps e f t).zero (c i) then (realOps e f t).one else (realOps e f t).neg (realOps e f t).one with hsg
  have hsg' : sg = if 0 < c i then 1 else -1 := by
    rw [hsg]
    by_cases h : 0 < c i
    · rw [if_pos h]
      show (if decide ((0:ℝ) < c i) = true then (1:ℝ) else -1) = 1
      rw [if_pos (by simpa using h)]
    · rw [if_neg h]
      show (if decide ((0:ℝ) < c i) = true then (1:ℝ) else -1) = -1
      rw [if_neg (by simpa using h)]
  have hsc : 0 ≤ sg * c i := by
    rw [hsg']; split
    · linarith
    · next h => push Not at h; linarith
  have hss : sg * sg = 1 := by rw [hsg']; split <;> norm_num
  set v : Nat → ℝ := fun k => if k = 0 then c i + sg * σ else c (i + k) with hv
  obtain ⟨m, hm⟩ : ∃ m, nrow - i = m + 1 := ⟨nrow - i - 1, by omega⟩
  have hSs : S = (∑ k ∈ range m, c (i + (k + 1)) ^ 2) + c i ^ 2 := by
    rw [hS]; unfold tail; rw [hm, Finset.sum_range_succ']; simp
  have hvv : ∑ k ∈ range (nrow - i), v k ^ 2 = 2 * (S + sg * σ * c i) := by
    rw [hm, Finset.sum_range_succ']
    simp only [hv, if_true, Nat.succ_ne_zero, if_false]
    have : (∑ k ∈ range m, c (i + (k + 1)) ^ 2) = S - c i ^ 2 := by rw [hSs]; ring
    rw [this]
    have h2 : sg * σ * (sg * σ) = S := by rw [show sg * σ * (sg * σ) = (sg * sg) * (σ * σ) by ring, hss, hσ2, one_mul]
    linear_combination h2
  have hvc : ∑ k ∈ range (nrow - i), v k * c (i + k) = S + sg * σ * c i := by
    rw [hm, Finset.sum_range_succ']
    simp only [hv, if_true, Nat.succ_ne_zero, if_false, Nat.add_zero]
    have : (∑ k ∈ range m, c (i + (k + 1)) * c (i + (k + 1))) = S - c i ^ 2 := by
      rw [hSs]; simp only [pow_two]; ring
    rw [this]; ring
  have hN : 0 ≤ sg * σ * c i := by
    rw [show sg * σ * c i = σ * (sg * c i) by ring]; exact mul_nonneg hσ0 hsc
  set N := Real.sqrt (∑ k ∈ range (nrow - i), v k ^ 2) with hNd
  have hNN : N * N = 2 * (S + sg * σ * c i) := by
    rw [hNd, Real.mul_self_sqrt (Finset.sum_nonneg fun _ _ => sq_nonneg _), hvv]
  have hN0 : N = 0 ↔ S = 0 := by
    constructor
    · intro h; rw [h] at hNN; nlinarith
    · intro h
      have : σ = 0 := by rw [hσ, h, Real.sqrt_zero]
      rw [h, this] at hNN
      have : N * N = 0 := by rw [hNN]; ring
      exact mul_self_eq_zero.1 this
  have hdef : house (realOps e f t) nrow i c = (if N = 0 then Res.ub else Res.ok (1 / N)) >>= fun inv => Res.ok (-sg * σ, fun k => v k * inv) := by
    unfold house
    rfl
  refine ⟨fun h => ?_, fun h => ?_, fun d h heq => ?_⟩
  · rw [hdef, if_pos (hN0.2 h)]; rfl
  · rw [hdef, if_neg (fun hh => h (hN0.1 hh))]; exact ⟨_, _, rfl⟩
  · rw [hdef] at heq
    by_cases hz : N = 0
    · rw [if_pos hz] at heq; simp at heq
    · rw [if_neg hz] at heq
      simp only [Res.bind_ok, Res.ok.injEq, Prod.mk.injEq] at heq
      obtain ⟨rfl, rfl⟩ := heq
      have hSne : S ≠ 0 := fun h => hz (hN0.2 h)
      have hσne : σ ≠ 0 := by intro h; rw [h] at hσ2; apply hSne; rw [← hσ2]; ring
      refine ⟨?_, ?_, ?_⟩
      · rw [hsg']; split
        · simpa using hσne
        · simpa using hσne
      · have : ∑ k ∈ range (nrow - i), (v k * (1 / N)) ^ 2 = (∑ k ∈ range (nrow - i), v k ^ 2) * (1 / (N * N)) := by
          rw [sum_mul]; apply sum_congr rfl; intro k _; field_simp
        rw [this, hvv, ← hNN]; field_simp
      · intro k hk
        have h1 : ∑ l ∈ range (nrow - i), v l * (1 / N) * c (i + l) = (S + sg * σ * c i) * (1 / N) := by
          rw [← hvc, sum_mul]; apply sum_congr rfl; intro l _; ring
        rw [h1]
        have h2 : 2 * ((S + sg * σ * c i) * (1 / N)) * (v k * (1 / N)) = v k := by
          have : 2 * ((S + sg * σ * c i) * (1 / N)) * (v k * (1 / N)) = (2 * (S + sg * σ * c i)) * v k / (N * N) := by field_simp
          rw [this, ← hNN]; field_simp
        rw [h2, hv]
        by_cases hk0 : k = 0
        · subst hk0; simp only [if_true, Nat.add_zero]; ring
        · simp only [hk0, if_false]; ring

/-! ## Reflections -/

theorem reflect_real (nrow i : Nat) (h x : Nat → ℝ) (k : Nat) : reflect (realOps e f t) nrow i h x k =
    if i ≤ k ∧ k < nrow then x k - 2 * (∑ l ∈ range (nrow - i), h l * x (i + l)) * h (k - i) else x k := rfl

/-- Inner products are preserved on the rows `i ..` and on all rows. -/
theorem reflect_dot_tail {nrow i : Nat} {h : Nat → ℝ} (hh : ∑ k ∈ range (nrow - i), h k ^ 2 = 1) (x y : Nat → ℝ) :
    ∑ k ∈ range (nrow - i), reflect (realOps e f t) nrow i h x (i + k) * reflect (realOps e f t) nrow i h y (i + k) =
      ∑ k ∈ range (nrow - i), x (i + k) * y (i + k) := by
  set a := ∑ l ∈ range (nrow - i), h l * x (i + l) with ha
  set b := ∑ l ∈ range (nrow - i), h l * y (i + l) with hb
  have : ∀ k ∈ range (nrow - i), reflect (realOps e f t) nrow i h x (i + k) * reflect (realOps e f t) nrow i h y (i + k) =
      x (i + k) * y (i + k) - 2 * a * (h k * y (i + k)) - 2 * b * (h k * x (i + k)) + 4 * a * b * h k ^ 2 := by
    intro k hk
    rw [mem_range] at hk
    rw [reflect_real, reflect_real, if_pos ⟨by omega, by omega⟩, if_pos ⟨by omega, by omega⟩, show i + k - i = k by omega, ← ha, ← hb]
    ring
  rw [sum_congr rfl this]
  simp only [Finset.sum_add_distrib, Finset.sum_sub_distrib, ← mul_sum]
  rw [hh, ← ha, ← hb]; ring

theorem reflect_dot {nrow i : Nat} (hi : i ≤ nrow) {h : Nat → ℝ} (hh : ∑ k ∈ range (nrow - i), h k ^ 2 = 1) (x y : Nat → ℝ) :
    ∑ k ∈ range nrow, reflect (realOps e f t) nrow i h x k * reflect (realOps e f t) nrow i h y k = ∑ k ∈ range nrow, x k * y k := by
  rw [sum_split hi, sum_split hi (fun k => x k * y k), reflect_dot_tail hh]
  congr 1
  apply sum_congr rfl; intro k hk
  rw [mem_range] at hk
  rw [reflect_real, reflect_real, if_neg (by omega), if_neg (by omega)]

theorem reflect_tail {nrow i : Nat} {h : Nat → ℝ} (hh : ∑ k ∈ range (nrow - i), h k ^ 2 = 1) (x : Nat → ℝ) :
    tail nrow i (reflect (realOps e f t) nrow i h x) = tail nrow i x := by
  have := reflect_dot_tail (e := e) (f := f) (t := t) hh x x
  unfold tail
  simpa only [← pow_two] using this

/-- A column with zeros in the rows `i ..` is not changed. -/
theorem reflect_zero {nrow i : Nat} {h x : Nat → ℝ} (hx : ∀ k, i ≤ k → k < nrow → x k = 0) (k : Nat) :
    reflect (realOps e f t) nrow i h x k = x k := by
  rw [reflect_real]
  split
  · have : ∑ l ∈ range (nrow - i), h l * x (i + l) = 0 := by
      apply Finset.sum_eq_zero; intro l hl
      rw [mem_range] at hl
      rw [hx _ (by omega) (by omega)]; ring
    rw [this]; ring
  · rfl

theorem collapse_eq {nrow i : Nat} (hi : i < nrow) {c : Nat → ℝ} {d : ℝ} {h : Nat → ℝ} (hh : house (realOps e f t) nrow i c = .ok (d, h))
    (k : Nat) : collapse (realOps e f t) nrow i d c k = reflect (realOps e f t) nrow i h c k := by
  obtain ⟨_, _, h3⟩ := (house_real nrow i hi c).2.2 d h hh
  rw [reflect_real]
  unfold collapse
  by_cases hk : k = i
  · subst hk
    rw [if_pos rfl, if_pos ⟨le_refl _, hi⟩]
    have := h3 0 (by omega)
    simp only [Nat.add_zero, if_true] at this
    rw [Nat.sub_self]; exact this.symm
  · rw [if_neg hk]
    by_cases hc : i < k ∧ k < nrow
    · rw [if_pos hc, if_pos (by omega)]
      have := h3 (k - i) (by omega)
      rw [show i + (k - i) = k by omega, if_neg (by omega)] at this
      exact this.symm
    · rw [if_neg hc, if_neg (by omega)]

/-! ## Pivot search -/

theorem findPivot_real (cn : Nat → ℝ) (lo hi : Nat) (h0 : ∀ j, lo ≤ j → j < hi → 0 ≤ cn j) :
    (∀ j, lo ≤ j → j < hi → cn j ≤ (findPivot (realOps e f t) cn lo hi).2) ∧ 0 ≤ (findPivot (realOps e f t) cn lo hi).2 ∧
    (lo < hi → cn (findPivot (realOps e f t) cn lo hi).1 = (findPivot (realOps e f t) cn lo hi).2) := by
  have key : ∀ n, (∀ j, lo ≤ j → j < lo + n → 0 ≤ cn j) →
      let s := (List.range' lo n).foldl (fun s j => if (realOps e f t).lt s.2 (cn j) then (j, cn j) else s) (lo, (0:ℝ))
      (∀ j, lo ≤ j → j < lo + n → cn j ≤ s.2) ∧ 0 ≤ s.2 ∧ (s = (lo, 0) ∨ cn s.1 = s.2) := by
    intro n
    induction n with
    | zero => intro _; exact ⟨fun j h1 h2 => by omega, le_refl _, Or.inl rfl⟩
    | succ n ih =>
      intro h0
      obtain ⟨h1, h2, h3⟩ := ih (fun j hj hj' => h0 j hj (by omega))
      rw [List.range'_concat, List.foldl_append]
      set s := (List.range' lo n).foldl (fun s j => if (realOps e f t).lt s.2 (cn j) then (j, cn j) else s) (lo, (0:ℝ)) with hs
      simp only [List.foldl_cons, List.foldl_nil, Nat.one_mul]
      by_cases hc : s.2 < cn (lo + n)
      · have hc' : (realOps e f t).lt s.2 (cn (lo + n)) = true := by simpa [realOps] using hc
        rw [if_pos hc']
        refine ⟨fun j hj hj' => ?_, by dsimp only; linarith, Or.inr rfl⟩
        dsimp only
        by_cases he : j = lo + n
        · subst he; exact le_refl _
        · have := h1 j hj (by omega); linarith
      · have hc' : ¬ (realOps e f t).lt s.2 (cn (lo + n)) = true := by simpa [realOps] using hc
        rw [if_neg hc']
        refine ⟨fun j hj hj' => ?_, h2, h3⟩
        by_cases he : j = lo + n
        · subst he; push Not at hc; exact hc
        · exact h1 j hj (by omega)
  obtain ⟨h1, h2, h3⟩ := key (hi - lo) (fun j hj hj' => h0 j hj (by omega))
  have hdef : findPivot (realOps e f t) cn lo hi = (List.range' lo (hi - lo)).foldl (fun s j => if (realOps e f t).lt s.2 (cn j) then (j, cn j) else s) (lo, (0:ℝ)) := rfl
  rw [hdef]
  refine ⟨fun j hj hj' => h1 j hj (by omega), h2, fun hlt => ?_⟩
  rcases h3 with h | h
  · have h4 := h1 lo (le_refl _) (by omega)
    rw [h] at h4 ⊢
    exact le_antisymm h4 (h0 lo (le_refl _) hlt)
  · exact h

/-! ## The invariant -/

structure Inv (nrow ncol : Nat) (stop : ℝ) (M : Nat → Nat → ℝ) (i : Nat) (s : QRSt ℝ) : Prop where
  perm : IsPerm ncol s.p
  gram : ∀ j < ncol, ∀ k < ncol, ∑ u ∈ range nrow, s.R j u * s.R k u = ∑ u ∈ range nrow, M (s.p j) u * M (s.p k) u
  upper : ∀ j < i, ∀ u, j < u → u < nrow → s.R j u = 0
  diag : ∀ j < i, s.R j j ≠ 0
  norm : ∀ j, i ≤ j → j < ncol → 0 ≤ s.cn j ∧ (s.cn j = Real.sqrt (tail nrow i (s.R j)) ∨ s.cn j = 0 ∧ Real.sqrt (tail nrow i (s.R j)) < stop)
  piv : i < ncol → i ≤ s.pivot ∧ s.pivot < ncol ∧ s.cn s.pivot = s.normp
  max : ∀ j, i ≤ j → j < ncol → s.cn j ≤ s.normp

theorem newNorm_real {nrow i : Nat} (hi : i < nrow) {stop cn : ℝ} {x y : Nat → ℝ} (hxy : tail nrow i y = tail nrow i x)
    (h : 0 ≤ cn ∧ (cn = Real.sqrt (tail nrow i x) ∨ cn = 0 ∧ Real.sqrt (tail nrow i x) < stop)) :
    0 ≤ newNorm (realOps e f t) nrow i stop cn y ∧
    (newNorm (realOps e f t) nrow i stop cn y = Real.sqrt (tail nrow (i + 1) y) ∨
      newNorm (realOps e f t) nrow i stop cn y = 0 ∧ Real.sqrt (tail nrow (i + 1) y) < stop) := by
  have hle : Real.sqrt (tail nrow (i + 1) y) ≤ Real.sqrt (tail nrow i x) := by
    rw [← hxy]; exact Real.sqrt_le_sqrt (tail_le (by omega) y)
  have hdef : newNorm (realOps e f t) nrow i stop cn y = if cn < stop then 0 else
      if cn * cn - y i * y i ≤ f then Real.sqrt (∑ k ∈ range (nrow - i - 1), y (i + 1 + k) ^ 2) else Real.sqrt (cn * cn - y i * y i) := by
    unfold newNorm
    simp only [realOps, decide_eq_true_eq]
  rw [hdef]
  by_cases hc : cn < stop
  · rw [if_pos hc]
    refine ⟨le_refl _, Or.inr ⟨rfl, ?_⟩⟩
    rcases h.2 with h' | h'
    · rw [← h'] at hle; linarith
    · linarith [h'.2]
  · rw [if_neg hc]
    have hcn : cn = Real.sqrt (tail nrow i x) := by
      rcases h.2 with h' | h'
      · exact h'
      · exfalso; have := Real.sqrt_nonneg (tail nrow i x); linarith [h'.1, h'.2]
    have htmp : cn * cn - y i * y i = tail nrow (i + 1) y := by
      rw [hcn, Real.mul_self_sqrt (tail_nonneg _ _ _), ← hxy, tail_succ hi]; ring
    rw [htmp]
    have hn : (∑ k ∈ range (nrow - i - 1), y (i + 1 + k) ^ 2) = tail nrow (i + 1) y := by
      unfold tail; rw [show nrow - (i + 1) = nrow - i - 1 by omega]
    rw [hn]
    simp only [ite_self]
    exact ⟨Real.sqrt_nonneg _, Or.inl trivial⟩

theorem swap_self {α : Type} (g : Nat → α) (a t : Nat) : swap g a a t = g t := by
  unfold swap
  by_cases h : t = a
  · rw [if_pos h, h]
  · rw [if_neg h, if_neg h]

/-- The exchange of two columns keeps the invariant, and puts the pivot in front. -/
theorem Inv.swap {nrow ncol : Nat} {stop : ℝ} {M : Nat → Nat → ℝ} {i : Nat} {s : QRSt ℝ} (h : Inv nrow ncol stop M i s) (hi : i < ncol) :
    ∃ s1, (if i ≠ s.pivot then { s with p := ID.swap s.p i s.pivot, cn := ID.swap s.cn i s.pivot, R := ID.swap s.R i s.pivot } else s) = s1 ∧
      IsPerm ncol s1.p ∧
      (∀ j < ncol, ∀ k < ncol, ∑ u ∈ range nrow, s1.R j u * s1.R k u = ∑ u ∈ range nrow, M (s1.p j) u * M (s1.p k) u) ∧
      (∀ j < i, s1.R j = s.R j) ∧
      (∀ j, i ≤ j → j < ncol → 0 ≤ s1.cn j ∧ (s1.cn j = Real.sqrt (tail nrow i (s1.R j)) ∨ s1.cn j = 0 ∧ Real.sqrt (tail nrow i (s1.R j)) < stop)) ∧
      s1.cn i = s.normp := by
  obtain ⟨p1, p2, p3⟩ := h.piv hi
  by_cases hc : i = s.pivot
  · refine ⟨s, by rw [if_neg (by simpa using hc)], h.perm, h.gram, fun _ _ => rfl, h.norm, ?_⟩
    conv_lhs => rw [hc]
    exact p3
  · refine ⟨_, if_pos hc, h.perm.swap hi p2, ?_, ?_, ?_, ?_⟩
    · intro j hj k hk
      dsimp only
      rw [swap_eq s.R, swap_eq s.R, swap_eq s.p, swap_eq s.p]
      exact h.gram _ ((isPerm_swap_id hi p2).lt j hj) _ ((isPerm_swap_id hi p2).lt k hk)
    · intro j hj
      dsimp only
      unfold ID.swap
      rw [if_neg (by omega), if_neg (by omega)]
    · intro j hj hj'
      dsimp only
      rw [swap_eq s.R, swap_eq s.cn]
      refine h.norm _ ?_ ((isPerm_swap_id hi p2).lt j hj')
      unfold ID.swap
      split
      · exact p1
      · split
        · exact le_refl _
        · exact hj
    · dsimp only
      unfold ID.swap
      rw [if_pos rfl]; exact p3

theorem qrStep_inv {nrow ncol : Nat} {stop : ℝ} {M : Nat → Nat → ℝ} {i : Nat} {s : QRSt ℝ} (h : Inv nrow ncol stop M i s) (hi : i < ncol) (hr : i < nrow) :
    (∀ s', qrStep (realOps e f t) nrow ncol stop i s = .ok s' → Inv nrow ncol stop M (i + 1) s') ∧
    (s.normp ≠ 0 → ∃ s', qrStep (realOps e f t) nrow ncol stop i s = .ok s') ∧ qrStep (realOps e f t) nrow ncol stop i s ≠ .diverge := by
  obtain ⟨s1, e1, g1, g2, g3, g4, g5⟩ := h.swap hi
  have hdef : qrStep (realOps e f t) nrow ncol stop i s = (house (realOps e f t) nrow i (s1.R i)) >>= fun hv =>
      let R := fun j => if i < j ∧ j < ncol then reflect (realOps e f t) nrow i hv.2 (s1.R j) else if j = i then collapse (realOps e f t) nrow i hv.1 (s1.R i) else s1.R j
      let cn := fun j => if i < j ∧ j < ncol then newNorm (realOps e f t) nrow i stop (s1.cn j) (R j) else s1.cn j
      let f := findPivot (realOps e f t) cn (i + 1) ncol
      .ok ⟨s1.p, cn, R, f.1, f.2⟩ := by
    unfold qrStep
    dsimp only
    rw [e1]
  obtain ⟨q1, q2, q3⟩ := house_real (e := e) (f := f) (t := t) nrow i hr (s1.R i)
  refine ⟨?_, ?_, ?_⟩
  · intro s' hs'
    rw [hdef] at hs'
    cases hh : house (realOps e f t) nrow i (s1.R i) with
    | ok hv =>
      obtain ⟨d, hv⟩ := hv
      rw [hh] at hs'
      simp only [Res.bind_ok, Res.ok.injEq] at hs'
      obtain ⟨hd, hu, _⟩ := q3 d hv hh
      set R' : Nat → Nat → ℝ := fun j => if i < j ∧ j < ncol then reflect (realOps e f t) nrow i hv (s1.R j) else if j = i then collapse (realOps e f t) nrow i d (s1.R i) else s1.R j with hR'
      set cn' : Nat → ℝ := fun j => if i < j ∧ j < ncol then newNorm (realOps e f t) nrow i stop (s1.cn j) (R' j) else s1.cn j with hcn'
      have hR : ∀ j < ncol, ∀ u, R' j u = reflect (realOps e f t) nrow i hv (s1.R j) u := by
        intro j hj u
        rw [hR']; dsimp only
        by_cases c1 : i < j
        · rw [if_pos ⟨c1, hj⟩]
        · rw [if_neg (by omega)]
          by_cases c2 : j = i
          · subst c2; rw [if_pos rfl]; exact collapse_eq hr hh u
          · rw [if_neg c2]
            rw [reflect_zero]
            intro k hk hk'
            rw [g3 j (by omega)]
            exact h.upper j (by omega) k (by omega) hk'
      have hnorm : ∀ j, i + 1 ≤ j → j < ncol → 0 ≤ cn' j ∧ (cn' j = Real.sqrt (tail nrow (i + 1) (R' j)) ∨ cn' j = 0 ∧ Real.sqrt (tail nrow (i + 1) (R' j)) < stop) := by
        intro j hj hj'
        have hc : cn' j = newNorm (realOps e f t) nrow i stop (s1.cn j) (R' j) := by rw [hcn']; dsimp only; rw [if_pos ⟨by omega, hj'⟩]
        rw [hc]
        refine newNorm_real hr ?_ (g4 j (by omega) hj')
        rw [show R' j = reflect (realOps e f t) nrow i hv (s1.R j) from funext (hR j hj')]
        exact reflect_tail hu _
      have hpiv := findPivot_real (e := e) (f := f) (t := t) cn' (i + 1) ncol (fun j hj hj' => (hnorm j hj hj').1)
      subst hs'
      refine ⟨g1, ?_, ?_, ?_, hnorm, fun hlt => ?_, hpiv.1⟩
      · intro j hj k hk
        dsimp only
        rw [← g2 j hj k hk, ← reflect_dot (e := e) (f := f) (t := t) (le_of_lt hr) hu (s1.R j) (s1.R k)]
        apply sum_congr rfl; intro u _
        rw [hR j hj, hR k hk]
      · intro j hj u hu' hu''
        dsimp only
        rw [hR']; dsimp only
        rw [if_neg (by omega)]
        by_cases c2 : j = i
        · rw [if_pos c2]
          unfold collapse
          rw [if_neg (by omega), if_pos (by omega)]
          rfl
        · rw [if_neg c2, g3 j (by omega)]
          exact h.upper j (by omega) u hu' hu''
      · intro j hj
        dsimp only
        rw [hR']; dsimp only
        rw [if_neg (by omega)]
        by_cases c2 : j = i
        · rw [if_pos c2]
          unfold collapse
          rw [if_pos c2]; exact hd
        · rw [if_neg c2, g3 j (by omega)]
          exact h.diag j (by omega)
      · have := findPivot_mem (realOps e f t) cn' hlt
        exact ⟨this.1, this.2, hpiv.2.2 hlt⟩
    | ub => rw [hh] at hs'; simp at hs'
    | diverge => rw [hh] at hs'; simp at hs'
  · intro hn
    have : tail nrow i (s1.R i) ≠ 0 := by
      intro hz
      rcases (g4 i (le_refl _) hi).2 with h1 | h1
      · rw [hz, Real.sqrt_zero, g5] at h1; exact hn h1
      · rw [g5] at h1; exact hn h1.1
    obtain ⟨d, hv, hh⟩ := q2 this
    rw [hdef, hh]
    exact ⟨_, rfl⟩
  · rw [hdef]
    by_cases hz : tail nrow i (s1.R i) = 0
    · rw [q1 hz]; simp
    · obtain ⟨d, hv, hh⟩ := q2 hz
      rw [hh]; simp

theorem qrLoop_inv {nrow ncol : Nat} {stop : ℝ} {M : Nat → Nat → ℝ} (sr : Int) : ∀ n i s, Inv nrow ncol stop M i s → i + n = min nrow ncol →
    qrLoop (realOps e f t) nrow ncol stop sr n i s ≠ .diverge ∧
    (0 < stop → ∃ r, qrLoop (realOps e f t) nrow ncol stop sr n i s = .ok r) ∧
    ∀ r, qrLoop (realOps e f t) nrow ncol stop sr n i s = .ok r → Inv nrow ncol stop M r.1 r.2 ∧ r.1 ≤ min nrow ncol ∧
      (r.1 = min nrow ncol ∨ r.2.normp < stop ∨ sr ≤ r.1) := by
  intro n
  induction n with
  | zero =>
    intro i s h hn
    rw [qrLoop]
    refine ⟨by simp, fun _ => ⟨_, rfl⟩, ?_⟩
    intro r hr
    simp only [Res.ok.injEq] at hr
    subst hr
    exact ⟨h, by dsimp only; omega, Or.inl (by dsimp only; omega)⟩
  | succ n ih =>
    intro i s h hn
    rw [qrLoop]
    by_cases hc : (realOps e f t).lt s.normp stop = true ∨ (i : Int) ≥ sr
    · rw [if_pos hc]
      refine ⟨by simp, fun _ => ⟨_, rfl⟩, ?_⟩
      intro r hr
      simp only [Res.ok.injEq] at hr
      subst hr
      refine ⟨h, by dsimp only; omega, ?_⟩
      rcases hc with hc | hc
      · right; left; simpa [realOps] using hc
      · right; right; exact hc
    · rw [if_neg hc]
      push Not at hc
      have hc1 : stop ≤ s.normp := by
        have := hc.1
        simp only [realOps, ne_eq, decide_eq_true_eq, not_lt] at this
        exact this
      obtain ⟨a1, a2, a3⟩ := qrStep_inv (e := e) (f := f) (t := t) h (by omega) (by omega)
      cases hq : qrStep (realOps e f t) nrow ncol stop i s with
      | ok s' =>
        simp only [Res.bind_ok]
        exact ih (i + 1) s' (a1 s' hq) (by omega)
      | ub =>
        refine ⟨by simp, fun hs => ?_, fun r hr => by simp at hr⟩
        obtain ⟨s', e'⟩ := a2 (by linarith)
        rw [hq] at e'; cases e'
      | diverge => exact absurd hq a3

/-- The result of `H2P_partial_pivot_QR` in exact arithmetic. -/
structure QRRes (nrow ncol : Nat) (M : Nat → Nat → ℝ) (q : Nat × (Nat → Nat) × (Nat → Nat → ℝ)) : Prop where
  perm : IsPerm ncol q.2.1
  le : q.1 ≤ min nrow ncol
  gram : ∀ j < ncol, ∀ k < ncol, ∑ u ∈ range nrow, q.2.2 j u * q.2.2 k u = ∑ u ∈ range nrow, M (q.2.1 j) u * M (q.2.1 k) u
  upper : ∀ j < q.1, ∀ u, j < u → u < nrow → q.2.2 j u = 0
  diag : ∀ j < q.1, q.2.2 j j ≠ 0

/-- The stopping norm in exact arithmetic: `m` is the largest column norm. -/
noncomputable def stopR (e : ℝ) (nrow : Nat) (tol : ℝ) (rel : Bool) (m : ℝ) : ℝ := if rel then max (Real.sqrt nrow * e) tol * m else max (Real.sqrt nrow * e) tol

theorem stopNorm_real (nrow : Nat) (tol : ℝ) (rel : Bool) (m : ℝ) : stopNorm (realOps e f t) nrow tol rel m = stopR e nrow tol rel m := by
  have hm : (realOps e f t).max (Real.sqrt nrow * e) tol = max (Real.sqrt nrow * e) tol := by
    unfold Ops.max
    by_cases h : tol < Real.sqrt nrow * e
    · rw [if_pos (show (realOps e f t).lt tol (Real.sqrt nrow * e) = true by simpa [realOps] using h), max_eq_left (le_of_lt h)]
    · rw [if_neg (show ¬ (realOps e f t).lt tol (Real.sqrt nrow * e) = true by simpa [realOps] using h), max_eq_right (by linarith)]
  unfold stopNorm stopR
  dsimp only
  have : (realOps e f t).max ((realOps e f t).mul ((realOps e f t).sqrt ((realOps e f t).ofNat nrow)) (realOps e f t).eps) tol = max (Real.sqrt nrow * e) tol := hm
  rw [this]; rfl

theorem partialPivotQR_real {nrow ncol : Nat} (tolRank : Int) (tol : ℝ) (rel : Bool) (M : Nat → Nat → ℝ) (p0 : Nat → Nat) (cn0 : Nat → ℝ) :
    ∃ m : ℝ, (∀ j < ncol, Real.sqrt (tail nrow 0 (M j)) ≤ m) ∧ 0 ≤ m ∧ (0 < ncol → ∃ j < ncol, m = Real.sqrt (tail nrow 0 (M j))) ∧
    partialPivotQR (realOps e f t) nrow ncol tolRank tol rel M p0 cn0 ≠ .diverge ∧
    (0 < stopR e nrow tol rel m → ∃ q, partialPivotQR (realOps e f t) nrow ncol tolRank tol rel M p0 cn0 = .ok q) ∧
    ∀ q, partialPivotQR (realOps e f t) nrow ncol tolRank tol rel M p0 cn0 = .ok q → QRRes nrow ncol M q ∧
      ((q.1 : Int) < tolRank → ∀ k, q.1 ≤ k → k < ncol → q.1 < nrow → Real.sqrt (tail nrow q.1 (q.2.2 k)) < stopR e nrow tol rel m) := by
  set cn : Nat → ℝ := fun j => if j < ncol then Real.sqrt (tail nrow 0 (M j)) else cn0 j with hcn
  have hdef : partialPivotQR (realOps e f t) nrow ncol tolRank tol rel M p0 cn0 =
      (qrLoop (realOps e f t) nrow ncol (stopR e nrow tol rel (findPivot (realOps e f t) cn 0 ncol).2) (min ((min nrow ncol : Nat) : Int) tolRank) (min nrow ncol) 0
        ⟨fun j => if j < ncol then j else p0 j, cn, M, (findPivot (realOps e f t) cn 0 ncol).1, (findPivot (realOps e f t) cn 0 ncol).2⟩) >>= fun r => .ok (r.1, r.2.p, r.2.R) := by
    have : (fun j => if j < ncol then (realOps e f t).nrm2 nrow (M j) else cn0 j) = cn := by
      rw [hcn]; funext j
      show (if j < ncol then Real.sqrt (∑ k ∈ range nrow, M j k ^ 2) else cn0 j) = _
      unfold tail
      simp
    unfold partialPivotQR
    dsimp only
    rw [this, stopNorm_real]
  have h0 : ∀ j, 0 ≤ j → j < ncol → 0 ≤ cn j := by
    intro j _ hj; rw [hcn]; dsimp only; rw [if_pos hj]; exact Real.sqrt_nonneg _
  have hp := findPivot_real (e := e) (f := f) (t := t) cn 0 ncol h0
  set fp := findPivot (realOps e f t) cn 0 ncol with hfp
  have hinv : Inv nrow ncol (stopR e nrow tol rel fp.2) M 0 ⟨fun j => if j < ncol then j else p0 j, cn, M, fp.1, fp.2⟩ := by
    refine ⟨(IsPerm.id ncol).congr fun j hj => by dsimp only; rw [if_pos hj], ?_, fun j hj => by omega, fun j hj => by omega, ?_, ?_, hp.1⟩
    · intro j hj k hk
      dsimp only
      rw [if_pos hj, if_pos hk]
    · intro j hj hj'
      refine ⟨h0 j hj hj', Or.inl ?_⟩
      dsimp only
      rw [hcn]; dsimp only; rw [if_pos hj']
    · intro hlt
      have := findPivot_mem (realOps e f t) cn hlt
      exact ⟨this.1, this.2, hp.2.2 hlt⟩
  obtain ⟨l1, l2, l3⟩ := qrLoop_inv (e := e) (f := f) (t := t) (min ((min nrow ncol : Nat) : Int) tolRank) (min nrow ncol) 0 _ hinv (by omega)
  refine ⟨fp.2, ?_, hp.2.1, ?_, ?_, ?_, ?_⟩
  · intro j hj
    have := hp.1 j (Nat.zero_le _) hj
    rw [hcn] at this; dsimp only at this; rw [if_pos hj] at this; exact this
  · intro hn
    have h1 := findPivot_mem (realOps e f t) cn hn
    refine ⟨fp.1, h1.2, ?_⟩
    have := hp.2.2 hn
    rw [← this, hcn]; dsimp only; rw [if_pos h1.2]
  · rw [hdef]
    cases hl : qrLoop (realOps e f t) nrow ncol (stopR e nrow tol rel fp.2) (min ((min nrow ncol : Nat) : Int) tolRank) (min nrow ncol) 0 _ with
    | ok r => simp
    | ub => simp
    | diverge => exact absurd hl l1
  · intro hs
    obtain ⟨r, hr⟩ := l2 hs
    rw [hdef, hr]; exact ⟨_, rfl⟩
  · intro q hq
    rw [hdef] at hq
    cases hl : qrLoop (realOps e f t) nrow ncol (stopR e nrow tol rel fp.2) (min ((min nrow ncol : Nat) : Int) tolRank) (min nrow ncol) 0 _ with
    | ok r =>
      rw [hl] at hq
      simp only [Res.bind_ok, Res.ok.injEq] at hq
      obtain ⟨i1, i2, i3⟩ := l3 r hl
      subst hq
      refine ⟨⟨i1.perm, i2, i1.gram, i1.upper, i1.diag⟩, ?_⟩
      intro hlt k hk hk' hn
      dsimp only at *
      have hst : r.2.normp < stopR e nrow tol rel fp.2 := by
        rcases i3 with h | h | h
        · omega
        · exact h
        · omega
      rcases (i1.norm k hk hk').2 with h | h
      · rw [← h]; exact lt_of_le_of_lt (i1.max k hk hk') hst
      · exact h.2
    | ub => rw [hl] at hq; simp at hq
    | diverge => rw [hl] at hq; simp at hq

end H2Pack.ID
