import Verif.Proof.QR2

/-!
# QR with column blocks in exact arithmetic
-/

namespace H2Pack.ID
open Finset (range sum_congr mem_range mul_sum sum_mul sum_add_distrib)

variable {e f t : ℝ}

/-! ## Chunks -/

section
variable {K : Type}

theorem chunkSize_pos (sz vn kdim : Nat) : 0 < chunkSize sz vn kdim := by
  unfold chunkSize; dsimp only; split <;> omega

theorem chunks_eq (O : Ops K) (kdim vn b sc rn sz : Nat) (V W : Nat → Nat → K) : ∀ fuel off R, rn - off < fuel →
    chunks O kdim vn b sc rn sz V W fuel off R = .ok (fun j => if sc + off ≤ j ∧ j < sc + rn then wyCol O kdim vn b V W (R j) else R j) := by
  intro fuel
  induction fuel with
  | zero => intro off R h; omega
  | succ fuel ih =>
    intro off R h
    have hp := chunkSize_pos sz vn kdim
    rw [chunks]
    by_cases hc : off < rn
    · rw [if_pos hc]
      dsimp only
      have hsz : (if chunkSize sz vn kdim + off > rn then rn - off else chunkSize sz vn kdim) = min (rn - off) (chunkSize sz vn kdim) := by
        split <;> omega
      rw [hsz, ih _ _ (by omega)]
      congr 1; funext j
      by_cases h1 : sc + (off + chunkSize sz vn kdim) ≤ j ∧ j < sc + rn
      · have h1' : sc + off ≤ j ∧ j < sc + rn := by omega
        have h2 : ¬ (sc + off ≤ j ∧ j < sc + off + min (rn - off) (chunkSize sz vn kdim)) := by omega
        rw [if_pos h1, if_neg h2, if_pos h1']
      · rw [if_neg h1]
        by_cases h2 : sc + off ≤ j ∧ j < sc + rn
        · rw [if_pos h2, if_pos (by omega)]
        · rw [if_neg h2, if_neg (by omega)]
    · rw [if_neg hc]
      congr 1; funext j
      rw [if_neg (by omega)]

end

/-! ## Products of reflections -/

/-- Reflections with the vectors `V a, V (a+1), ...` (`n` of them). -/
noncomputable def reflFrom (e f t : ℝ) (nrow b : Nat) (V : Nat → Nat → ℝ) : Nat → Nat → (Nat → ℝ) → (Nat → ℝ)
  | _, 0, x => x
  | a, n + 1, x => reflFrom e f t nrow b V (a + 1) n (reflect (realOps e f t) nrow b (V a) x)

theorem reflFrom_succ (nrow b : Nat) (V : Nat → Nat → ℝ) : ∀ n a x,
    reflFrom e f t nrow b V a (n + 1) x = reflect (realOps e f t) nrow b (V (a + n)) (reflFrom e f t nrow b V a n x) := by
  intro n
  induction n with
  | zero => intro a x; rfl
  | succ n ih =>
    intro a x
    rw [reflFrom, ih, reflFrom]
    congr 2; omega

theorem reflFrom_dot {nrow b : Nat} (hb : b ≤ nrow) {V : Nat → Nat → ℝ} : ∀ n a, (∀ l, a ≤ l → l < a + n → ∑ k ∈ range (nrow - b), V l k ^ 2 = 1) → ∀ x y,
    ∑ k ∈ range nrow, reflFrom e f t nrow b V a n x k * reflFrom e f t nrow b V a n y k = ∑ k ∈ range nrow, x k * y k := by
  intro n
  induction n with
  | zero => intro a _ x y; rfl
  | succ n ih =>
    intro a h x y
    rw [reflFrom, reflFrom, ih (a + 1) (fun l h1 h2 => h l (by omega) (by omega)), reflect_dot hb (h a (le_refl _) (by omega))]

theorem reflFrom_tail {nrow b : Nat} {V : Nat → Nat → ℝ} : ∀ n a, (∀ l, a ≤ l → l < a + n → ∑ k ∈ range (nrow - b), V l k ^ 2 = 1) → ∀ x,
    tail nrow b (reflFrom e f t nrow b V a n x) = tail nrow b x := by
  intro n
  induction n with
  | zero => intro a _ x; rfl
  | succ n ih =>
    intro a h x
    rw [reflFrom, ih (a + 1) (fun l h1 h2 => h l (by omega) (by omega)), reflect_tail (h a (le_refl _) (by omega))]

/-- A column with zeros from row `b + c` on is not changed by reflections whose vectors have zeros before `c`. -/
theorem reflect_zero' {nrow b c : Nat} {v x : Nat → ℝ} (hv : ∀ k < c, v k = 0) (hx : ∀ k, b + c ≤ k → k < nrow → x k = 0) (k : Nat) :
    reflect (realOps e f t) nrow b v x k = x k := by
  rw [reflect_real]
  split
  · have : ∑ l ∈ range (nrow - b), v l * x (b + l) = 0 := by
      apply Finset.sum_eq_zero; intro l hl
      rw [mem_range] at hl
      by_cases h : l < c
      · rw [hv l h]; ring
      · rw [hx _ (by omega) (by omega)]; ring
    rw [this]; ring
  · rfl

theorem reflFrom_zero {nrow b c : Nat} {V : Nat → Nat → ℝ} : ∀ n a, (∀ l, a ≤ l → l < a + n → ∀ k < c, V l k = 0) → ∀ x : Nat → ℝ,
    (∀ k, b + c ≤ k → k < nrow → x k = 0) → reflFrom e f t nrow b V a n x = x := by
  intro n
  induction n with
  | zero => intro a _ x _; rfl
  | succ n ih =>
    intro a h x hx
    rw [reflFrom, show reflect (realOps e f t) nrow b (V a) x = x from funext (reflect_zero' (h a (le_refl _) (by omega)) hx)]
    exact ih (a + 1) (fun l h1 h2 => h l (by omega) (by omega)) x hx

theorem reflFrom_congr {nrow b : Nat} {V V' : Nat → Nat → ℝ} : ∀ n a, (∀ l, a ≤ l → l < a + n → V l = V' l) → ∀ x,
    reflFrom e f t nrow b V a n x = reflFrom e f t nrow b V' a n x := by
  intro n
  induction n with
  | zero => intro a _ x; rfl
  | succ n ih =>
    intro a h x
    rw [reflFrom, reflFrom, h a (le_refl _) (by omega), ih (a + 1) (fun l h1 h2 => h l (by omega) (by omega))]

/-- The reflection with a vector that starts at row `b + c`. -/
theorem reflect_shift {nrow b c : Nat} (hc : b + c ≤ nrow) {h v : Nat → ℝ} (hv : ∀ k < nrow - b, v k = if k < c then 0 else h (k - c)) (x : Nat → ℝ) (k : Nat) :
    reflect (realOps e f t) nrow (b + c) h x k = reflect (realOps e f t) nrow b v x k := by
  have hs : ∑ l ∈ range (nrow - b), v l * x (b + l) = ∑ l ∈ range (nrow - (b + c)), h l * x (b + c + l) := by
    rw [show nrow - b = c + (nrow - (b + c)) by omega, Finset.sum_range_add]
    have h1 : ∑ l ∈ range c, v l * x (b + l) = 0 := by
      apply Finset.sum_eq_zero; intro l hl
      rw [mem_range] at hl
      rw [hv l (by omega), if_pos hl]; ring
    rw [h1, zero_add]
    apply sum_congr rfl; intro l hl
    rw [mem_range] at hl
    rw [hv (c + l) (by omega), if_neg (by omega), show c + l - c = l by omega, Nat.add_assoc]
  rw [reflect_real, reflect_real, hs]
  by_cases h1 : b + c ≤ k ∧ k < nrow
  · rw [if_pos h1, if_pos (by omega), hv (k - b) (by omega), if_neg (by omega), show k - b - c = k - (b + c) by omega]
  · rw [if_neg h1]
    by_cases h2 : b ≤ k ∧ k < nrow
    · rw [if_pos h2, hv (k - b) (by omega), if_pos (by omega)]; ring
    · rw [if_neg h2]

theorem unit_shift {nrow b c : Nat} (hc : b + c ≤ nrow) {h v : Nat → ℝ} (hv : ∀ k < nrow - b, v k = if k < c then 0 else h (k - c)) :
    ∑ k ∈ range (nrow - b), v k ^ 2 = ∑ k ∈ range (nrow - (b + c)), h k ^ 2 := by
  rw [show nrow - b = c + (nrow - (b + c)) by omega, Finset.sum_range_add]
  have h1 : ∑ l ∈ range c, v l ^ 2 = 0 := by
    apply Finset.sum_eq_zero; intro l hl
    rw [mem_range] at hl
    rw [hv l (by omega), if_pos hl]; ring
  rw [h1, zero_add]
  apply sum_congr rfl; intro l hl
  rw [mem_range] at hl
  rw [hv (c + l) (by omega), if_neg (by omega), show c + l - c = l by omega]

/-! ## The panel -/

theorem panel_real {nrow kdim b : Nat} (hb : b + kdim ≤ nrow) : ∀ n blk R V, blk + n = kdim →
    panel (realOps e f t) nrow kdim b n blk R V ≠ .diverge ∧
    ∀ q, panel (realOps e f t) nrow kdim b n blk R V = .ok q →
      (∀ a < blk, q.2 a = V a) ∧
      (∀ a, blk ≤ a → a < kdim → ∑ k ∈ range (nrow - b), q.2 a k ^ 2 = 1 ∧ ∀ k < a, q.2 a k = 0) ∧
      (∀ j, j < b + blk ∨ b + kdim ≤ j → q.1 j = R j) ∧
      (∀ j, b + blk ≤ j → j < b + kdim → q.1 j = reflFrom e f t nrow b q.2 blk n (R j) ∧ q.1 j j ≠ 0 ∧ ∀ u, j < u → u < nrow → q.1 j u = 0) := by
  intro n
  induction n with
  | zero =>
    intro blk R V h
    rw [panel]
    refine ⟨by simp, ?_⟩
    intro q hq
    simp only [Res.ok.injEq] at hq
    subst hq
    exact ⟨fun _ _ => rfl, fun a h1 h2 => by omega, fun _ _ => rfl, fun j h1 h2 => by omega⟩
  | succ n ih =>
    intro blk R V h
    rw [panel]
    dsimp only
    obtain ⟨q1, q2, q3⟩ := house_real (e := e) (f := f) (t := t) nrow (b + blk) (by omega) (R (b + blk))
    cases hh : house (realOps e f t) nrow (b + blk) (R (b + blk)) with
    | ok hv =>
      obtain ⟨d, hv⟩ := hv
      obtain ⟨hd, hu, _⟩ := q3 d hv hh
      simp only [Res.bind_ok]
      set R1 : Nat → Nat → ℝ := fun j => if b + blk < j ∧ j < b + kdim then reflect (realOps e f t) nrow (b + blk) hv (R j) else if j = b + blk then collapse (realOps e f t) nrow (b + blk) d (R (b + blk)) else R j with hR1
      set v : Nat → ℝ := fun u => if u < blk then (realOps e f t).zero else if u < blk + (nrow - (b + blk)) then hv (u - blk) else V blk u with hvd
      obtain ⟨i1, i2⟩ := ih (blk + 1) R1 (Function.update V blk v) (by omega)
      refine ⟨i1, ?_⟩
      intro q hq
      obtain ⟨g1, g2, g3, g4⟩ := i2 q hq
      have hvb : q.2 blk = v := by rw [g1 blk (by omega), Function.update_self]
      have hvv : ∀ k < nrow - b, v k = if k < blk then 0 else hv (k - blk) := by
        intro k hk
        rw [hvd]; dsimp only
        by_cases h1 : k < blk
        · rw [if_pos h1, if_pos h1]; rfl
        · rw [if_neg h1, if_neg h1, if_pos (by omega)]
      have href : ∀ x, reflect (realOps e f t) nrow (b + blk) hv x = reflect (realOps e f t) nrow b (q.2 blk) x := by
        intro x; funext k; rw [hvb]; exact reflect_shift (by omega) hvv x k
      refine ⟨?_, ?_, ?_, ?_⟩
      · intro a ha
        rw [g1 a (by omega), Function.update_of_ne (by omega)]
      · intro a h1 h2
        by_cases hab : a = blk
        · subst hab
          rw [hvb]
          refine ⟨by rw [unit_shift (by omega) hvv, hu], ?_⟩
          intro k hk
          rw [hvv k (by omega), if_pos hk]
        · exact g2 a (by omega) h2
      · intro j hj
        rw [g3 j (by omega), hR1]; dsimp only
        rw [if_neg (by omega), if_neg (by omega)]
      · intro j h1 h2
        by_cases hj : j = b + blk
        · subst hj
          have e1 : q.1 (b + blk) = collapse (realOps e f t) nrow (b + blk) d (R (b + blk)) := by
            rw [g3 _ (Or.inl (by omega)), hR1]; dsimp only
            rw [if_neg (by omega), if_pos rfl]
          refine ⟨?_, ?_, ?_⟩
          · rw [reflFrom, ← href, ← show collapse (realOps e f t) nrow (b + blk) d (R (b + blk)) = _ from funext (collapse_eq (by omega) hh), e1]
            rw [reflFrom_zero (c := blk + 1)]
            · intro l hl hl' k hk
              exact (g2 l (by omega) (by omega)).2 k (by omega)
            · intro k hk hk'
              unfold collapse
              rw [if_neg (by omega), if_pos (by omega)]; rfl
          · rw [e1]; unfold collapse; rw [if_pos rfl]; exact hd
          · intro u hu1 hu2
            rw [e1]; unfold collapse; rw [if_neg (by omega), if_pos (by omega)]; rfl
        · obtain ⟨k1, k2⟩ := g4 j (by omega) h2
          refine ⟨?_, k2⟩
          rw [k1, reflFrom, hR1]; dsimp only
          rw [if_pos (by omega), href]
    | ub => simp
    | diverge =>
      exfalso
      by_cases hz : tail nrow (b + blk) (R (b + blk)) = 0
      · rw [q1 hz] at hh; cases hh
      · obtain ⟨d, h', e'⟩ := q2 hz
        rw [e'] at hh; cases hh

/-! ## The WY form -/

/-- Column `a` of `W`. -/
noncomputable def wcol (e f t : ℝ) (vn : Nat) (V : Nat → Nat → ℝ) (a : Nat) : Nat → ℝ := wMat (realOps e f t) vn V (a + 1) a

theorem wMat_stable (vn : Nat) (V : Nat → Nat → ℝ) : ∀ n, ∀ a < n, wMat (realOps e f t) vn V n a = wcol e f t vn V a := by
  intro n
  induction n with
  | zero => intro a ha; omega
  | succ n ih =>
    intro a ha
    by_cases h : a = n
    · subst h; rfl
    · rw [wMat, Function.update_of_ne h]; exact ih a (by omega)

theorem wcol_eq (vn : Nat) (V : Nat → Nat → ℝ) (a k : Nat) :
    wcol e f t vn V a k = -2 * (V a k + ∑ c ∈ range a, wcol e f t vn V c k * ∑ l ∈ range vn, V c l * V a l) := by
  unfold wcol
  rw [wMat, Function.update_self]
  by_cases h : a = 0
  · subst h
    rw [if_pos rfl]
    show -(2:ℝ) * V 0 k = _
    simp
  · rw [if_neg h]
    show -(2:ℝ) * (V a k + ∑ c ∈ range a, wMat (realOps e f t) vn V a c k * ∑ l ∈ range vn, V c l * V a l) = _
    congr 2
    apply sum_congr rfl; intro c hc
    rw [wMat_stable vn V a c (mem_range.1 hc)]
    rfl

theorem wy_real {nrow b : Nat} (V : Nat → Nat → ℝ) (x : Nat → ℝ) : ∀ n k, b ≤ k → k < nrow →
    reflFrom e f t nrow b V 0 n x k = x k + ∑ a ∈ range n, V a (k - b) * ∑ l ∈ range (nrow - b), wcol e f t (nrow - b) V a l * x (b + l) := by
  intro n
  induction n with
  | zero => intro k _ _; simp [reflFrom]
  | succ n ih =>
    intro k h1 h2
    rw [reflFrom_succ, reflect_real, if_pos ⟨h1, h2⟩, ih k h1 h2, Nat.zero_add, Finset.sum_range_succ]
    set P : Nat → ℝ := fun a => ∑ l ∈ range (nrow - b), wcol e f t (nrow - b) V a l * x (b + l) with hP
    have hw : P n = -2 * (∑ l ∈ range (nrow - b), V n l * x (b + l) + ∑ a ∈ range n, P a * ∑ l ∈ range (nrow - b), V a l * V n l) := by
      rw [hP]; dsimp only
      have : ∀ l ∈ range (nrow - b), wcol e f t (nrow - b) V n l * x (b + l) =
          -2 * (V n l * x (b + l) + ∑ a ∈ range n, (wcol e f t (nrow - b) V a l * x (b + l)) * ∑ m ∈ range (nrow - b), V a m * V n m) := by
        intro l _
        rw [wcol_eq, mul_assoc, add_mul, sum_mul]
        congr 2
        apply sum_congr rfl; intro a _; ring
      rw [sum_congr rfl this, ← mul_sum, sum_add_distrib, Finset.sum_comm]
      congr 2
      apply sum_congr rfl; intro a _
      rw [sum_mul]
    have hd : ∑ l ∈ range (nrow - b), V n l * reflFrom e f t nrow b V 0 n x (b + l) =
        ∑ l ∈ range (nrow - b), V n l * x (b + l) + ∑ a ∈ range n, P a * ∑ l ∈ range (nrow - b), V a l * V n l := by
      have : ∀ l ∈ range (nrow - b), V n l * reflFrom e f t nrow b V 0 n x (b + l) = V n l * x (b + l) + ∑ a ∈ range n, P a * (V a l * V n l) := by
        intro l hl
        rw [mem_range] at hl
        rw [ih (b + l) (by omega) (by omega), show b + l - b = l by omega, mul_add, mul_sum]
        congr 1
        apply sum_congr rfl; intro a _; rw [hP]; ring
      rw [sum_congr rfl this, sum_add_distrib, Finset.sum_comm]
      congr 1
      apply sum_congr rfl; intro a _
      rw [mul_sum]
    rw [hd]
    have : ∑ a ∈ range n, V a (k - b) * ∑ l ∈ range (nrow - b), wcol e f t (nrow - b) V a l * x (b + l) = ∑ a ∈ range n, V a (k - b) * P a := rfl
    rw [this, show (∑ l ∈ range (nrow - b), wcol e f t (nrow - b) V n l * x (b + l)) = P n from rfl, hw]
    ring

theorem reflFrom_outside {nrow b : Nat} (V : Nat → Nat → ℝ) (x : Nat → ℝ) : ∀ n k, ¬ (b ≤ k ∧ k < nrow) → reflFrom e f t nrow b V 0 n x k = x k := by
  intro n
  induction n with
  | zero => intro k _; rfl
  | succ n ih => intro k h; rw [reflFrom_succ, reflect_real, if_neg h, ih k h]

theorem wyCol_real {nrow b kdim : Nat} (hb : b ≤ nrow) (V : Nat → Nat → ℝ) (x : Nat → ℝ) :
    wyCol (realOps e f t) kdim (nrow - b) b V (wMat (realOps e f t) (nrow - b) V kdim) x = reflFrom e f t nrow b V 0 kdim x := by
  funext k
  unfold wyCol
  by_cases h : b ≤ k ∧ k < nrow
  · rw [if_pos ⟨h.1, by omega⟩, wy_real V x kdim k h.1 h.2]
    show x k + ∑ a ∈ range kdim, V a (k - b) * ∑ l ∈ range (nrow - b), wMat (realOps e f t) (nrow - b) V kdim a l * x (b + l) = _
    congr 1
    apply sum_congr rfl; intro a ha
    rw [wMat_stable (nrow - b) V kdim a (mem_range.1 ha)]
  · rw [if_neg (by omega), reflFrom_outside V x kdim k h]

end H2Pack.ID
