import Verif.Model.Utils
import Verif.Props.BlockPart
import Mathlib.Tactic.Linarith
import Mathlib.Tactic.Ring
import Mathlib.Tactic.FieldSimp
import Mathlib.Data.List.Perm.Basic
import Mathlib.Data.List.Perm.Subperm
import Mathlib.Data.Finset.Card
import Mathlib.Algebra.BigOperators.Group.Finset.Basic
import Mathlib.Algebra.Order.BigOperators.Group.Finset
import Mathlib.Data.Rat.Defs
import Mathlib.Algebra.Order.Ring.Rat

/-! # Random sampling (C38), admissibility (C39), transposition (C43) -/

namespace H2Pack.Utils

/-! ## C38 -/

theorem drawLoop_ok {r : Nat → Nat} {n : Nat} {flag : Nat → Bool} (hn : 0 < n) : ∀ {fuel t idx t' : Nat},
    drawLoop r n flag fuel t = .ok (idx, t') → idx < n ∧ flag idx = false := by
  intro fuel
  induction fuel with
  | zero => intro t idx t' h; simp [drawLoop] at h
  | succ fuel ih =>
    intro t idx t' h
    rw [drawLoop] at h
    split at h
    · exact ih h
    · rename_i hf
      simp only [Res.ok.injEq, Prod.mk.injEq] at h
      rw [← h.1]
      exact ⟨Nat.mod_lt _ hn, by simpa using hf⟩

theorem sampleLoop_ok {r : Nat → Nat} {n fuel : Nat} : ∀ {k : Nat} {flag : Nat → Bool} {t : Nat} {l : List Nat} {t' : Nat},
    sampleLoop r n fuel k flag t = .ok (l, t') → l.length = k ∧ l.Nodup ∧ ∀ x ∈ l, x < n ∧ flag x = false := by
  intro k
  induction k with
  | zero => intro flag t l t' h; simp [sampleLoop] at h; rw [h.1]; simp
  | succ k ih =>
    intro flag t l t' h
    rw [sampleLoop] at h
    split at h
    · simp at h
    · rename_i hn
      cases hd : drawLoop r n flag fuel t with
      | ub => rw [hd] at h; simp at h
      | diverge => rw [hd] at h; simp at h
      | ok p =>
        obtain ⟨idx, t1⟩ := p
        rw [hd] at h
        simp only [Res.bind_ok] at h
        cases hs : sampleLoop r n fuel k (Function.update flag idx true) t1 with
        | ub => rw [hs] at h; simp at h
        | diverge => rw [hs] at h; simp at h
        | ok q =>
          obtain ⟨rest, t2⟩ := q
          rw [hs] at h
          simp only [Res.bind_ok, Res.ok.injEq, Prod.mk.injEq] at h
          obtain ⟨q1, q2, q3⟩ := ih hs
          obtain ⟨d1, d2⟩ := drawLoop_ok (by omega) hd
          rw [← h.1]
          refine ⟨by simp [q1], ?_, ?_⟩
          · rw [List.nodup_cons]
            refine ⟨?_, q2⟩
            intro hm
            have := (q3 idx hm).2
            rw [Function.update_self] at this
            exact absurd this (by simp)
          · intro x hx
            rcases List.mem_cons.1 hx with hx | hx
            · rw [hx]; exact ⟨d1, d2⟩
            · obtain ⟨p1, p2⟩ := q3 x hx
              refine ⟨p1, ?_⟩
              by_cases he : x = idx
              · rw [he, Function.update_self] at p2; exact absurd p2 (by simp)
              · rwa [Function.update_of_ne he] at p2

/-- **C38**.  For every stream of random numbers: whenever the sampling returns, it returns `k` distinct
indices in `[0, n-1]`. -/
theorem C38_rand_sample (r : Nat → Nat) (n k fuel : Nat) (l : List Nat) (t : Nat)
    (h : randSample r n k fuel = .ok (l, t)) : l.length = k ∧ l.Nodup ∧ ∀ x ∈ l, x < n := by
  obtain ⟨h1, h2, h3⟩ := sampleLoop_ok h
  exact ⟨h1, h2, fun x hx => (h3 x hx).1⟩

theorem sampleLoop_not_ub {r : Nat → Nat} {n fuel : Nat} (hn : 0 < n) : ∀ {k : Nat} {flag : Nat → Bool} {t : Nat},
    sampleLoop r n fuel k flag t ≠ .ub := by
  have hd : ∀ {flag : Nat → Bool} {f t : Nat}, drawLoop r n flag f t ≠ .ub := by
    intro flag f
    induction f with
    | zero => intro t; simp [drawLoop]
    | succ f ih => intro t; rw [drawLoop]; split <;> simp [ih]
  intro k
  induction k with
  | zero => intro flag t; simp [sampleLoop]
  | succ k ih =>
    intro flag t h
    rw [sampleLoop, if_neg (by omega)] at h
    cases hdr : drawLoop r n flag fuel t with
    | ub => exact hd hdr
    | diverge => rw [hdr] at h; simp at h
    | ok p =>
      rw [hdr] at h
      simp only [Res.bind_ok] at h
      cases hs : sampleLoop r n fuel k (Function.update flag p.1 true) p.2 with
      | ub => exact ih hs
      | diverge => rw [hs] at h; simp at h
      | ok q => rw [hs] at h; simp at h

/-- **C38**.  Asking for more indices than exist never returns, for any random stream. -/
theorem C38_too_many_diverges (r : Nat → Nat) (n k : Nat) (hn : 0 < n) (hk : n < k) :
    Diverges (fun fuel => randSample r n k fuel) := by
  intro fuel
  cases h : randSample r n k fuel with
  | diverge => exact h
  | ub => exact absurd h (sampleLoop_not_ub hn)
  | ok p =>
    exfalso
    obtain ⟨l, t⟩ := p
    obtain ⟨h1, h2, h3⟩ := C38_rand_sample r n k fuel l t h
    have : l.Subperm (List.range n) := h2.subperm (fun x hx => List.mem_range.2 (h3 x hx))
    have := this.length_le
    rw [List.length_range] at this
    omega

theorem drawLoop_mono {r : Nat → Nat} {n : Nat} {flag : Nat → Bool} : ∀ {f f' t : Nat} {p : Nat × Nat}, f ≤ f' →
    drawLoop r n flag f t = .ok p → drawLoop r n flag f' t = .ok p := by
  intro f
  induction f with
  | zero => intro f' t p _ h; simp [drawLoop] at h
  | succ f ih =>
    intro f' t p hf h
    obtain ⟨f', rfl⟩ : ∃ m, f' = m + 1 := ⟨f' - 1, by omega⟩
    rw [drawLoop] at h ⊢
    split at h
    · rename_i hc; rw [if_pos hc]; exact ih (by omega) h
    · rename_i hc; rw [if_neg hc]; exact h

theorem sampleLoop_mono {r : Nat → Nat} {n f f' : Nat} (hf : f ≤ f') : ∀ {k : Nat} {flag : Nat → Bool} {t : Nat} {p : List Nat × Nat},
    sampleLoop r n f k flag t = .ok p → sampleLoop r n f' k flag t = .ok p := by
  intro k
  induction k with
  | zero => intro flag t p h; simpa [sampleLoop] using h
  | succ k ih =>
    intro flag t p h
    rw [sampleLoop] at h ⊢
    split at h
    · simp at h
    · rename_i hn
      rw [if_neg hn]
      cases hd : drawLoop r n flag f t with
      | ub => rw [hd] at h; simp at h
      | diverge => rw [hd] at h; simp at h
      | ok p =>
        rw [hd] at h
        rw [drawLoop_mono hf hd]
        simp only [Res.bind_ok] at h ⊢
        cases hs : sampleLoop r n f k (Function.update flag p.1 true) p.2 with
        | ub => rw [hs] at h; simp at h
        | diverge => rw [hs] at h; simp at h
        | ok q => rw [hs] at h; rw [ih hs]; exact h

theorem sampleLoop_fair (r : Nat → Nat) (n k : Nat) (hk : k ≤ n) (hfair : ∀ m < n, ∀ N, ∃ t ≥ N, r t % n = m) (t0 : Nat) :
    ∃ F p, sampleLoop r n F k (fun _ => false) t0 = .ok p := by
  have draw : ∀ (flag : Nat → Bool) (t m : Nat), m < n → flag m = false → ∃ F p, drawLoop r n flag F t = .ok p := by
    intro flag t m hm hf
    obtain ⟨t1, h1, h2⟩ := hfair m hm t
    have : ∀ d t, r (t + d) % n = m → ∃ F p, drawLoop r n flag F t = .ok p := by
      intro d
      induction d with
      | zero =>
        intro t h
        rw [Nat.add_zero] at h
        exact ⟨1, (m, t+1), by rw [drawLoop, h, hf]; simp⟩
      | succ d ih =>
        intro t h
        obtain ⟨F, p, hF⟩ := ih (t+1) (by rw [show t + 1 + d = t + (d+1) by omega]; exact h)
        by_cases hc : flag (r t % n) = true
        · exact ⟨F+1, p, by rw [drawLoop, if_pos hc]; exact hF⟩
        · exact ⟨F+1, _, by rw [drawLoop, if_neg hc]⟩
    exact this (t1 - t) t (by rw [show t + (t1 - t) = t1 by omega]; exact h2)
  have gen : ∀ (k : Nat) (used : Finset Nat) (flag : Nat → Bool) (t : Nat), (∀ x, flag x = true ↔ x ∈ used) →
      (∀ x ∈ used, x < n) → used.card + k ≤ n → ∃ F p, sampleLoop r n F k flag t = .ok p := by
    intro k
    induction k with
    | zero => intro used flag t _ _ _; exact ⟨0, ([], t), rfl⟩
    | succ k ih =>
      intro used flag t hu hlt hc
      have hex : ∃ m, m < n ∧ m ∉ used := by
        by_contra hcon
        push Not at hcon
        have h1 : Finset.range n ⊆ used := fun x hx => hcon x (Finset.mem_range.1 hx)
        have := Finset.card_le_card h1
        rw [Finset.card_range] at this
        omega
      obtain ⟨m, hm, hmu⟩ := hex
      obtain ⟨F1, p, hF1⟩ := draw flag t m hm (by
        cases hf : flag m with
        | false => rfl
        | true => exact absurd ((hu m).1 hf) hmu)
      obtain ⟨d1, d2⟩ := drawLoop_ok (by omega) hF1
      have hnot : p.1 ∉ used := fun h => by rw [(hu p.1).2 h] at d2; exact absurd d2 (by simp)
      obtain ⟨F2, q, hF2⟩ := ih (insert p.1 used) (Function.update flag p.1 true) p.2
        (by
          intro x
          by_cases he : x = p.1
          · subst he; simp
          · rw [Function.update_of_ne he, hu x]; simp [he])
        (by
          intro x hx
          rcases Finset.mem_insert.1 hx with h | h
          · rw [h]; exact d1
          · exact hlt x h)
        (by rw [Finset.card_insert_of_notMem hnot]; omega)
      refine ⟨max F1 F2, (p.1 :: q.1, q.2), ?_⟩
      rw [sampleLoop, if_neg (by omega), drawLoop_mono (le_max_left _ _) hF1]
      simp only [Res.bind_ok]
      rw [sampleLoop_mono (le_max_right _ _) hF2]
      rfl
  exact gen k ∅ (fun _ => false) t0 (by simp) (by simp) (by simpa using hk)

/-- **C38**.  If `k ≤ n` and the random stream hits every residue again and again, the sampling returns. -/
theorem C38_terminates (r : Nat → Nat) (n k : Nat) (hk : k ≤ n)
    (hfair : ∀ m < n, ∀ N, ∃ t ≥ N, r t % n = m) :
    ∃ p, Returns (fun fuel => randSample r n k fuel) p := by
  obtain ⟨F, p, h⟩ := sampleLoop_fair r n k hk hfair 0
  exact ⟨p, F, fun fuel hf => sampleLoop_mono hf h⟩

/-- With `n = 0` the first draw divides by zero. -/
theorem C38_empty_range_ub (r : Nat → Nat) (k fuel : Nat) : randSample r 0 (k+1) fuel = .ub := by
  simp [randSample, sampleLoop]

example : ∃ p, Returns (fun fuel => randSample (fun t => t / 2) 5 5 fuel) p :=
  C38_terminates _ 5 5 (le_refl _) (fun m hm N => ⟨2 * (5 * N + m), by omega, by
    show (2 * (5 * N + m)) / 2 % 5 = m
    omega⟩)

/-! ## C39 -/

section
variable {K : Type} [Field K] [LinearOrder K] [IsStrictOrderedRing K]

/-- Specification: the gap between the intervals of the two boxes in dimension `i` (negative if they
overlap). -/
def gap (b0 b1 : Box K) (i : Nat) : K :=
  max (b0.lo i - (b1.lo i + b1.ext i)) (b1.lo i - (b0.lo i + b0.ext i))

theorem dimAdmissible_iff (b0 b1 : Box K) (alpha : K) (i : Nat) :
    dimAdmissible b0 b1 alpha i = true ↔ alpha * min (b0.ext i) (b1.ext i) ≤ gap b0 b1 i := by
  unfold dimAdmissible gap
  dsimp only
  rw [decide_eq_true_iff]
  have hmin : (if b0.ext i < b1.ext i then b0.ext i else b1.ext i) = min (b0.ext i) (b1.ext i) := by
    split
    · rename_i h; rw [min_eq_left h.le]
    · rename_i h; rw [min_eq_right (not_lt.1 h)]
  rw [hmin]
  generalize alpha * min (b0.ext i) (b1.ext i) = a
  rw [ge_iff_le, le_abs, le_max_iff]
  have e0 : (1 / 2 : K) * b0.ext i + (1 / 2) * b0.ext i = b0.ext i := by ring
  have e1 : (1 / 2 : K) * b1.ext i + (1 / 2) * b1.ext i = b1.ext i := by ring
  constructor
  · rintro (h | h)
    · left; linarith
    · right; linarith
  · rintro (h | h)
    · left; linarith
    · right; linarith

omit [IsStrictOrderedRing K] in
theorem admLoop_iff (b0 b1 : Box K) (alpha : K) : ∀ (n i : Nat),
    admLoop b0 b1 alpha i n = true ↔ ∃ d, i ≤ d ∧ d < i + n ∧ dimAdmissible b0 b1 alpha d = true := by
  intro n
  induction n with
  | zero => intro i; simp [admLoop]; intro d h1 h2; omega
  | succ n ih =>
    intro i
    rw [admLoop]
    split
    · rename_i h; simp only [true_iff]; exact ⟨i, le_refl _, by omega, h⟩
    · rename_i h
      rw [ih]
      constructor
      · rintro ⟨d, h1, h2, h3⟩; exact ⟨d, by omega, by omega, h3⟩
      · rintro ⟨d, h1, h2, h3⟩
        refine ⟨d, ?_, by omega, h3⟩
        rcases Nat.lt_or_ge i d with hh | hh
        · exact hh
        · have : d = i := by omega
          subst this; exact absurd h3 h

/-- **C39** (meaning).  Two boxes are admissible iff in some dimension their intervals are separated by a
gap of at least `alpha` times the smaller extent. -/
theorem C39_admissible_iff_gap (b0 b1 : Box K) (ptDim : Nat) (alpha : K) :
    checkBoxAdmissible b0 b1 ptDim alpha = true ↔
      ∃ d < ptDim, alpha * min (b0.ext d) (b1.ext d) ≤ gap b0 b1 d := by
  unfold checkBoxAdmissible
  rw [admLoop_iff]
  constructor
  · rintro ⟨d, _, h2, h3⟩; exact ⟨d, by omega, (dimAdmissible_iff ..).1 h3⟩
  · rintro ⟨d, h2, h3⟩; exact ⟨d, by omega, by omega, (dimAdmissible_iff ..).2 h3⟩

/-- **C39** (symmetry). -/
theorem C39_symmetric (b0 b1 : Box K) (ptDim : Nat) (alpha : K) :
    checkBoxAdmissible b0 b1 ptDim alpha = checkBoxAdmissible b1 b0 ptDim alpha := by
  have : checkBoxAdmissible b0 b1 ptDim alpha = true ↔ checkBoxAdmissible b1 b0 ptDim alpha = true := by
    rw [C39_admissible_iff_gap, C39_admissible_iff_gap]
    simp only [gap]
    constructor
    · rintro ⟨d, h1, h2⟩; exact ⟨d, h1, by rw [min_comm, max_comm]; exact h2⟩
    · rintro ⟨d, h1, h2⟩; exact ⟨d, h1, by rw [min_comm, max_comm]; exact h2⟩
  cases h : checkBoxAdmissible b1 b0 ptDim alpha <;> simp_all

/-- Box `b` lies inside box `c` (first `ptDim` dimensions). -/
def Inside (b c : Box K) (ptDim : Nat) : Prop :=
  ∀ d < ptDim, c.lo d ≤ b.lo d ∧ b.lo d + b.ext d ≤ c.lo d + c.ext d

/-- **C39** (monotonicity).  Sub-boxes of admissible boxes are admissible, also for a smaller `alpha`. -/
theorem C39_monotone (b0 b1 c0 c1 : Box K) (ptDim : Nat) (alpha alpha' : K) (h0 : Inside b0 c0 ptDim) (h1 : Inside b1 c1 ptDim)
    (he0 : ∀ d < ptDim, 0 ≤ b0.ext d) (he1 : ∀ d < ptDim, 0 ≤ b1.ext d) (ha : 0 ≤ alpha') (haa : alpha' ≤ alpha)
    (h : checkBoxAdmissible c0 c1 ptDim alpha = true) : checkBoxAdmissible b0 b1 ptDim alpha' = true := by
  rw [C39_admissible_iff_gap] at h ⊢
  obtain ⟨d, hd, hg⟩ := h
  refine ⟨d, hd, ?_⟩
  have q0 := h0 d hd
  have q1 := h1 d hd
  have e0 := he0 d hd
  have e1 := he1 d hd
  have hmin : min (b0.ext d) (b1.ext d) ≤ min (c0.ext d) (c1.ext d) :=
    min_le_min (by linarith [q0.1, q0.2]) (by linarith [q1.1, q1.2])
  have hnn : 0 ≤ min (b0.ext d) (b1.ext d) := le_min e0 e1
  have hmul : alpha' * min (b0.ext d) (b1.ext d) ≤ alpha * min (c0.ext d) (c1.ext d) :=
    mul_le_mul haa hmin hnn (le_trans ha haa)
  refine le_trans hmul (le_trans hg ?_)
  unfold gap
  exact max_le_max (by linarith [q0.1, q1.2]) (by linarith [q1.1, q0.2])

/-- **C39** (separation).  Points of admissible boxes are at least `alpha * min extent` apart in one
coordinate; in particular for `alpha > 0` and boxes of positive extent the boxes are disjoint. -/
theorem C39_points_separated (b0 b1 : Box K) (ptDim : Nat) (alpha : K)
    (h : checkBoxAdmissible b0 b1 ptDim alpha = true) (x y : Nat → K)
    (hx : ∀ d < ptDim, b0.lo d ≤ x d ∧ x d ≤ b0.lo d + b0.ext d)
    (hy : ∀ d < ptDim, b1.lo d ≤ y d ∧ y d ≤ b1.lo d + b1.ext d) :
    ∃ d < ptDim, alpha * min (b0.ext d) (b1.ext d) ≤ |x d - y d| := by
  rw [C39_admissible_iff_gap] at h
  obtain ⟨d, hd, hg⟩ := h
  refine ⟨d, hd, le_trans hg ?_⟩
  have p := hx d hd
  have q := hy d hd
  unfold gap
  rw [max_le_iff]
  constructor
  · exact le_trans (by linarith [p.1, q.2]) (le_abs_self _)
  · exact le_trans (by linarith [p.2, q.1]) (neg_le_abs _)

end

example : checkBoxAdmissible (K := ℚ) ⟨fun _ => 0, fun _ => 1⟩ ⟨fun d => if d = 1 then 3 else 0, fun _ => 1⟩ 2 1 = true := by
  rw [C39_admissible_iff_gap]
  exact ⟨1, by decide, by simp [gap]; norm_num⟩

/-! ## C43 -/

section
variable {α : Type}

theorem applyStores_not {ws : List (Write α)} : ∀ {dst : Nat → α} {p : Nat}, (∀ w ∈ ws, w.1 ≠ p) → applyStores dst ws p = dst p := by
  induction ws with
  | nil => intro dst p _; rfl
  | cons w ws ih =>
    intro dst p h
    show applyStores (Function.update dst w.1 w.2) ws p = dst p
    rw [ih (fun x hx => h x (List.mem_cons_of_mem _ hx)), Function.update_of_ne (Ne.symm (h w (by simp)))]

/-- If all stores to `p` write `v` and there is at least one, the result is `v`. -/
theorem applyStores_mem {ws : List (Write α)} : ∀ {dst : Nat → α} {p : Nat} {v : α}, (∃ w ∈ ws, w.1 = p) → (∀ w ∈ ws, w.1 = p → w.2 = v) →
    applyStores dst ws p = v := by
  induction ws with
  | nil => intro dst p v h _; obtain ⟨w, hw, _⟩ := h; simp at hw
  | cons w ws ih =>
    intro dst p v h hv
    show applyStores (Function.update dst w.1 w.2) ws p = v
    by_cases hex : ∃ x ∈ ws, x.1 = p
    · exact ih hex (fun x hx => hv x (List.mem_cons_of_mem _ hx))
    · push Not at hex
      rw [applyStores_not hex]
      obtain ⟨x, hx, hp⟩ := h
      rcases List.mem_cons.1 hx with hx | hx
      · rw [hx] at hp
        rw [← hp, Function.update_self]
        exact hv w (by simp) hp
      · exact absurd hp (hex x hx)

theorem Interleaving.mem_iff {β : Type} {n : Nat} {qs : Nat → List β} {w : List β} (h : Interleaving n qs w) (x : β) :
    x ∈ w ↔ ∃ t < n, x ∈ qs t := by
  induction h with
  | done qs hq =>
    simp only [List.not_mem_nil, false_iff]
    rintro ⟨t, ht, hx⟩
    rw [hq t ht] at hx
    simp at hx
  | step qs t y rest w ht hq _ ih =>
    rw [List.mem_cons, ih]
    constructor
    · rintro (h | ⟨s, hs, hx⟩)
      · exact ⟨t, ht, by rw [hq, h]; simp⟩
      · by_cases hst : s = t
        · subst hst; rw [Function.update_self] at hx; exact ⟨s, hs, by rw [hq]; exact List.mem_cons_of_mem _ hx⟩
        · rw [Function.update_of_ne hst] at hx; exact ⟨s, hs, hx⟩
    · rintro ⟨s, hs, hx⟩
      by_cases hst : s = t
      · subst hst
        rw [hq] at hx
        rcases List.mem_cons.1 hx with h | h
        · exact Or.inl h
        · exact Or.inr ⟨s, hs, by rw [Function.update_self]; exact h⟩
      · exact Or.inr ⟨s, hs, by rw [Function.update_of_ne hst]; exact hx⟩

theorem mem_transRow {src : Nat → α} {lds ldd i js n : Nat} {w : Write α} :
    w ∈ transRow src lds ldd i js n ↔ ∃ j, js ≤ j ∧ j < js + n ∧ w = (i * ldd + j, src (j * lds + i)) := by
  unfold transRow
  rw [List.mem_map]
  constructor
  · rintro ⟨t, ht, rfl⟩
    rw [List.mem_range] at ht
    exact ⟨js + t, by omega, by omega, rfl⟩
  · rintro ⟨j, h1, h2, rfl⟩
    exact ⟨j - js, by rw [List.mem_range]; omega, by rw [show js + (j - js) = j by omega]⟩

/-- The stores of all threads are exactly those of the transposition. -/
theorem mem_stores {nThread srcNrow srcNcol : Nat} {src : Nat → α} {lds ldd : Nat} {assign : Nat → Nat}
    (hn : 1 ≤ nThread) (ha : ∀ i < srcNcol, assign i < nThread) (w : Write α) :
    (∃ t < nThread, w ∈ transposeStores nThread srcNrow srcNcol src lds ldd assign t) ↔
      ∃ i < srcNcol, ∃ j < srcNrow, w = (i * ldd + j, src (j * lds + i)) := by
  unfold transposeStores
  by_cases h1 : nThread = 1
  · simp only [h1, if_true, List.mem_flatMap, List.mem_range, mem_transRow]
    constructor
    · rintro ⟨t, _, i, hi, j, _, hj, hw⟩; exact ⟨i, hi, j, by omega, hw⟩
    · rintro ⟨i, hi, j, hj, hw⟩; exact ⟨0, by omega, i, hi, j, by omega, by omega, hw⟩
  · simp only [if_neg h1]
    by_cases h2 : srcNrow > srcNcol
    · simp only [if_pos h2, List.mem_flatMap, List.mem_filter, List.mem_range, mem_transRow, decide_eq_true_eq]
      constructor
      · rintro ⟨t, _, i, ⟨hi, _⟩, j, _, hj, hw⟩; exact ⟨i, hi, j, by omega, hw⟩
      · rintro ⟨i, hi, j, hj, hw⟩; exact ⟨assign i, ha i hi, i, ⟨hi, rfl⟩, j, by omega, by omega, hw⟩
    · simp only [if_neg h2]
      have tile := C01_blocks_tile (srcNrow : Int) (nThread : Int) (by omega) (by omega)
      constructor
      · rintro ⟨t, ht, hw⟩
        cases hb : calcBlockSposLen srcNrow nThread t with
        | none => rw [hb] at hw; simp at hw
        | some b =>
          rw [hb] at hw
          simp only [transThreadBlk, List.mem_flatMap, List.mem_range, mem_transRow] at hw
          obtain ⟨i, hi, j, hj1, hj2, hw⟩ := hw
          obtain ⟨b1, b2, b3⟩ := C01_block_in_range (srcNrow : Int) (nThread : Int) t (by omega) (by omega) (by omega) b hb
          exact ⟨i, hi, j, by omega, hw⟩
      · rintro ⟨i, hi, j, hj, hw⟩
        obtain ⟨t, ⟨ht0, ht1, b, hb, hm⟩, _⟩ := (tile (j : Int)).1 (by omega)
        obtain ⟨b1, b2, b3⟩ := C01_block_in_range (srcNrow : Int) (nThread : Int) t (by omega) (by omega) (by omega) b hb
        refine ⟨t.toNat, by omega, ?_⟩
        rw [show ((t.toNat : Nat) : Int) = t by omega, hb]
        simp only [transThreadBlk, List.mem_flatMap, List.mem_range, mem_transRow]
        unfold BlkRange.Mem at hm
        exact ⟨i, hi, j, by omega, by omega, hw⟩

/-- **C43**.  For every number of threads, every assignment of loop iterations to threads by the OpenMP
runtime and every interleaving of the threads' stores, the destination holds the transposed matrix and
nothing else is changed. -/
theorem C43_transpose (nThread srcNrow srcNcol : Nat) (src dst : Nat → α) (lds ldd : Nat) (assign : Nat → Nat)
    (hn : 1 ≤ nThread) (ha : ∀ i < srcNcol, assign i < nThread) (hld : srcNrow ≤ ldd) (ws : List (Write α))
    (hw : Interleaving nThread (transposeStores nThread srcNrow srcNcol src lds ldd assign) ws) :
    (∀ i < srcNcol, ∀ j < srcNrow, applyStores dst ws (i * ldd + j) = src (j * lds + i)) ∧
    (∀ p, (¬ ∃ i < srcNcol, ∃ j < srcNrow, p = i * ldd + j) → applyStores dst ws p = dst p) := by
  have hmem : ∀ w, w ∈ ws ↔ ∃ i < srcNcol, ∃ j < srcNrow, w = (i * ldd + j, src (j * lds + i)) := by
    intro w; rw [hw.mem_iff, mem_stores hn ha]
  constructor
  · intro i hi j hj
    apply applyStores_mem
    · exact ⟨(i * ldd + j, src (j * lds + i)), (hmem _).2 ⟨i, hi, j, hj, rfl⟩, rfl⟩
    · intro w hwm hp
      obtain ⟨i', hi', j', hj', rfl⟩ := (hmem w).1 hwm
      dsimp only at hp ⊢
      have hii : i' = i := by
        rcases Nat.lt_trichotomy i' i with h | h | h
        · have : (i'+1) * ldd ≤ i * ldd := Nat.mul_le_mul_right _ h
          rw [Nat.add_mul] at this; omega
        · exact h
        · have : (i+1) * ldd ≤ i' * ldd := Nat.mul_le_mul_right _ h
          rw [Nat.add_mul] at this; omega
      subst hii
      have : j' = j := by omega
      rw [this]
  · intro p hp
    apply applyStores_not
    intro w hwm he
    obtain ⟨i, hi, j, hj, rfl⟩ := (hmem w).1 hwm
    exact hp ⟨i, hi, j, hj, he.symm⟩

/-- An interleaving always exists (threads executed one after the other). -/
theorem Interleaving.exists {β : Type} : ∀ (n : Nat) (qs : Nat → List β), ∃ w, Interleaving n qs w := by
  intro n qs
  have gen : ∀ (m : Nat) (qs : Nat → List β), (Finset.sum (Finset.range n) (fun t => (qs t).length)) = m → ∃ w, Interleaving n qs w := by
    intro m
    induction m with
    | zero =>
      intro qs h
      refine ⟨[], .done qs (fun t ht => ?_)⟩
      rw [Finset.sum_eq_zero_iff] at h
      exact List.length_eq_zero_iff.1 (h t (Finset.mem_range.2 ht))
    | succ m ih =>
      intro qs h
      have hex : ∃ t < n, qs t ≠ [] := by
        by_contra hcon
        push Not at hcon
        rw [Finset.sum_eq_zero (fun t ht => by rw [hcon t (Finset.mem_range.1 ht)]; rfl)] at h
        omega
      obtain ⟨t, ht, hne⟩ := hex
      cases hq : qs t with
      | nil => exact absurd hq hne
      | cons x rest =>
        obtain ⟨w, hw⟩ := ih (Function.update qs t rest) (by
          rw [← Finset.add_sum_erase _ _ (Finset.mem_range.2 ht)] at h ⊢
          rw [Function.update_self]
          rw [hq, List.length_cons] at h
          rw [Finset.sum_congr rfl (g := fun t => (qs t).length) (fun s hs => by
            rw [Function.update_of_ne (Finset.ne_of_mem_erase hs)])]
          omega)
        exact ⟨x :: w, .step qs t x rest w ht hq hw⟩
  exact gen _ qs rfl

example : ∃ ws, Interleaving 3 (transposeStores 3 2 5 (fun k => k) 5 4 (fun i => i % 3)) ws ∧
    applyStores (fun _ => 100) ws (4 * 4 + 1) = 9 ∧ applyStores (fun _ => 100) ws (4 * 4 + 2) = 100 := by
  obtain ⟨ws, h⟩ := Interleaving.exists 3 (transposeStores 3 2 5 (fun k => k) 5 4 (fun i => i % 3))
  obtain ⟨h1, h2⟩ := C43_transpose 3 2 5 (fun k => k) (fun _ => 100) 5 4 (fun i => i % 3) (by decide)
    (fun i _ => Nat.mod_lt _ (by decide)) (by decide) ws h
  refine ⟨ws, h, h1 4 (by decide) 1 (by decide), h2 _ ?_⟩
  rintro ⟨i, hi, j, hj, he⟩
  omega

end
end H2Pack.Utils
