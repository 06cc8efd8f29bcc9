import Verif.Proof.Sample7
import Verif.Props.ID

/-! # The grid size -/

namespace H2Pack.Sample
open Finset
open H2Pack.ID (Ops Stop IDEnv idCompress Selected Fails)
open H2Pack.MV (kmat point)

theorem fnorm_frob (n : Nat) (M : Nat → Nat → ℝ) : fnorm n M = frob n M := by
  unfold fnorm frob
  simp only [sq]

theorem frob_nonneg (n : Nat) (M : Nat → Nat → ℝ) : 0 ≤ frob n M := Real.sqrt_nonneg _

theorem below_iff (n : Nat) (M A : Nat → Nat → ℝ) (stop : ℝ) : below (fnorm n M) (fnorm n A) stop ↔ frob n A ≠ 0 ∧ frob n M < stop * frob n A := by
  unfold below
  rw [fnorm_frob, fnorm_frob]
  refine and_congr_right fun h => ?_
  exact div_lt_iff₀ (lt_of_le_of_ne (frob_nonneg n A) (Ne.symm h))

theorem selectR_c1_ne {S : RIn} (hs : Spread S.dim S.c1) : 0 < S.k := by
  obtain ⟨p, hp, _⟩ := hs
  unfold RIn.c1 at hp
  obtain ⟨j, hj, _⟩ := List.mem_map.mp hp
  have := List.mem_range.mp hj
  omega

structure Good (S : RIn) : Prop where
  dim : 0 < S.dim
  kdim : 0 < S.kdim
  spread : Spread S.dim S.c1
  sched : ∀ L, (S.sched L).Perm L
  ops : ∀ a b, S.ops.div a b ≠ .diverge

/-- One pass, for all large enough fuels. -/
theorem rPass_cases {S : RIn} (G : Good S) (t : Nat) {r : Int} (hr : 0 ≤ r) :
    (Fails (fun fuel => rPass S t r fuel) ∧ ¬ S.ops.Total) ∨
    ∃ len good, Returns (fun fuel => rPass S t r fuel) (len, good) ∧ Trial S t r len good ∧ len ≤ S.k := by
  obtain ⟨d, e, hA, h0⟩ := decompose_side G.dim hr G.spread
  have hne := G.spread.ne_nil
  obtain ⟨s, h1, h2, h3, _, _⟩ := clusterSample_chosen anchorDim_equi (dim := S.dim) hne (fun i => (d i).toNat) G.sched
  have hk : 1 ≤ S.k * S.kdim := Nat.mul_pos (selectR_c1_ne G.spread) G.kdim
  have hcol : (select S.c1 s).length = s.length := by simp [select]
  have hlen : ∀ len, len * S.kdim ≤ S.k * S.kdim → len ≤ S.k := fun len h => Nat.le_of_mul_le_mul_right h G.kdim
  have hp : ∀ fuel, rPass S t r fuel = (idCompress S.ops S.sz (S.k * S.kdim) (s.length * S.kdim) S.kdim (.rel S.tol) (kmat S.kern S.kdim (col S.c0) (col (select S.c1 s))) true (S.env t) fuel).bind
      fun id => .ok (id.1.2, below (fnorm (S.k * S.kdim) (resid S id.1.1 id.1.2 id.2)) (fnorm (S.k * S.kdim) (kmat S.kern S.kdim (col S.c0) (col S.c1))) S.stopErr) := by
    intro fuel
    unfold rPass
    rw [boxSize_ok S.dim hne, Res.bind_ok, e, Res.bind_ok]
    dsimp only
    rw [h1, Res.bind_ok, hcol]
    rfl
  rcases H2Pack.ID.C28_selection S.ops G.ops S.sz (S.k * S.kdim) (s.length * S.kdim) S.kdim G.kdim hk (.rel S.tol) (kmat S.kern S.kdim (col S.c0) (col (select S.c1 s))) (S.env t) with
    ⟨F, hF⟩ | ⟨J, len, U, ⟨F, hF⟩, _, hle, _⟩
  · left
    refine ⟨⟨F, fun fuel hf => ?_⟩, fun hT => ?_⟩
    · have := hF fuel hf
      beta_reduce at this ⊢
      rw [hp, this]; rfl
    · obtain ⟨J, len, U, ⟨G', hG'⟩, _⟩ := H2Pack.ID.C28_returns S.ops hT S.sz (S.k * S.kdim) (s.length * S.kdim) S.kdim G.kdim hk (.rel S.tol) (kmat S.kern S.kdim (col S.c0) (col (select S.c1 s))) (S.env t)
      have h1 := hF (max F G') (le_max_left _ _)
      have h2 := hG' (max F G') (le_max_right _ _)
      rw [h1] at h2; simp at h2
  · right
    refine ⟨len, below (fnorm (S.k * S.kdim) (resid S J len U)) (fnorm (S.k * S.kdim) (kmat S.kern S.kdim (col S.c0) (col S.c1))) S.stopErr, ⟨F, fun fuel hf => ?_⟩, ⟨fun i => minC (crd S.c1 i) S.c1.length, fun i => maxC (crd S.c1 i) S.c1.length, d, s, J, U, fun i _ => bounds_of hne i, hA, h0, h2, ⟨F, fun fuel hf => ?_⟩, ?_⟩, hlen len hle⟩
    · have := hF fuel hf
      beta_reduce at this ⊢
      rw [hp, this]; rfl
    · have := hF fuel hf
      exact this
    · exact below_iff _ _ _ _

/-- Size of the selection of the pass before. -/
def prev (last : Int) (l : Nat → Nat) : Nat → Int
  | 0 => last
  | i + 1 => l i

open Classical in
/-- The loop: `n + 1` passes, of which the last one ends it. -/
theorem rLoop_cases {S : RIn} (G : Good S) : ∀ (b t : Nat) (r last : Int), 0 ≤ r → (S.k : Int) - last < 2 + 2 * b →
    ((∃ F, ∀ f1 ≥ F, ∀ f2 ≥ F, rLoop S f1 f2 t r last = .ub) ∧ ¬ S.ops.Total) ∨
    ∃ (n : Nat) (l : Nat → Nat) (good : Nat → Prop), n ≤ b ∧ (∀ i ≤ n, Trial S (t + i) (r + i) (l i) (good i)) ∧
      (∀ i < n, ¬ good i ∧ prev last l i + 2 ≤ l i) ∧ (good n ∨ (l n : Int) < prev last l n + 2) ∧
      ∃ F, ∀ f1 ≥ F, ∀ f2 ≥ F, rLoop S f1 f2 t r last = .ok (r + n + if good n then 0 else 1) := by
  intro b
  induction b with
  | zero =>
    intro t r last hr hb
    rcases rPass_cases G t hr with ⟨⟨F, hF⟩, hT⟩ | ⟨len, good, ⟨F, hF⟩, h2, h3⟩
    · left
      refine ⟨⟨F + 1, fun f1 h1 f2 h2 => ?_⟩, hT⟩
      obtain ⟨f, rfl⟩ : ∃ f, f2 = f + 1 := ⟨f2 - 1, by omega⟩
      have := hF f1 (by omega)
      beta_reduce at this
      rw [rLoop, this]; rfl
    · right
      refine ⟨0, fun _ => len, fun _ => good, le_refl _, fun i hi => ?_, fun i hi => by omega, Or.inr ?_, F + 1, fun f1 h1 f2 h2 => ?_⟩
      · obtain rfl : i = 0 := by omega
        simpa using h2
      · show (len : Int) < last + 2; push_cast at hb; omega
      · obtain ⟨f, rfl⟩ : ∃ f, f2 = f + 1 := ⟨f2 - 1, by omega⟩
        have := hF f1 (by omega)
        beta_reduce at this
        rw [rLoop, this, Res.bind_ok]
        dsimp only
        rw [if_pos (Or.inl (by push_cast at hb; omega))]
        by_cases hg : good <;> simp [hg]
  | succ b ih =>
    intro t r last hr hb
    rcases rPass_cases G t hr with ⟨⟨F, hF⟩, hT⟩ | ⟨len, good, ⟨F, hF⟩, h2, h3⟩
    · left
      refine ⟨⟨F + 1, fun f1 h1 f2 h2 => ?_⟩, hT⟩
      obtain ⟨f, rfl⟩ : ∃ f, f2 = f + 1 := ⟨f2 - 1, by omega⟩
      have := hF f1 (by omega)
      beta_reduce at this
      rw [rLoop, this]; rfl
    · by_cases hc : (len : Int) - last < 2 ∨ good
      · right
        refine ⟨0, fun _ => len, fun _ => good, by omega, fun i hi => ?_, fun i hi => by omega, ?_, F + 1, fun f1 h1 f2 h2 => ?_⟩
        · obtain rfl : i = 0 := by omega
          simpa using h2
        · rcases hc with hc | hc
          · right; show (len : Int) < last + 2; omega
          · exact Or.inl hc
        · obtain ⟨f, rfl⟩ : ∃ f, f2 = f + 1 := ⟨f2 - 1, by omega⟩
          have := hF f1 (by omega)
          beta_reduce at this
          rw [rLoop, this, Res.bind_ok]
          dsimp only
          rw [if_pos hc]
          by_cases hg : good <;> simp [hg]
      · have hc' := hc
        push Not at hc'
        have hstep : ∀ f1 ≥ F, ∀ f, rLoop S f1 (f + 1) t r last = rLoop S f1 f (t + 1) (r + 1) len := by
          intro f1 h1 f
          have := hF f1 (by omega)
          beta_reduce at this
          rw [rLoop, this, Res.bind_ok]
          dsimp only
          rw [if_neg hc, if_neg hc'.2]
        rcases ih (t + 1) (r + 1) len (by omega) (by push_cast at hb ⊢; omega) with ⟨⟨F', hF'⟩, hT⟩ | ⟨n, l, g, n1, n2, n3, n4, F', hF'⟩
        · left
          refine ⟨⟨max F F' + 1, fun f1 h1 f2 h2 => ?_⟩, hT⟩
          obtain ⟨f, rfl⟩ : ∃ f, f2 = f + 1 := ⟨f2 - 1, by omega⟩
          rw [hstep f1 (by omega)]
          exact hF' f1 (by omega) f (by omega)
        · right
          refine ⟨n + 1, fun i => match i with | 0 => len | i + 1 => l i, fun i => match i with | 0 => good | i + 1 => g i, by omega, fun i hi => ?_, fun i hi => ?_, ?_, max F F' + 1, fun f1 h1 f2 h2 => ?_⟩
          · match i with
            | 0 => simpa using h2
            | i + 1 =>
              have := n2 i (by omega)
              rw [show t + (i + 1) = t + 1 + i by omega, show r + ((i + 1 : Nat) : Int) = r + 1 + i by push_cast; ring]
              exact this
          · match i with
            | 0 => exact ⟨hc'.2, by show last + 2 ≤ (len : Int); omega⟩
            | 1 => exact n3 0 (by omega)
            | i + 2 => exact n3 (i + 1) (by omega)
          · match n with
            | 0 => exact n4
            | n + 1 => exact n4
          · obtain ⟨f, rfl⟩ : ∃ f, f2 = f + 1 := ⟨f2 - 1, by omega⟩
            rw [hstep f1 (by omega), hF' f1 (by omega) f (by omega)]
            congr 1
            push_cast
            ring

theorem logb7 : 7 * Real.logb 10 (7 / 10) < -1 := by
  have h : Real.logb 10 ((7 / 10 : ℝ) ^ 7) = 7 * Real.logb 10 (7 / 10) := by
    have := Real.logb_pow 10 (7 / 10) 7
    rw [this]; norm_num
  rw [← h]
  have h2 : Real.logb 10 ((1 / 10 : ℝ)) = -1 := by
    rw [one_div, Real.logb_inv, Real.logb_self_eq_one (by norm_num)]
  rw [← h2]
  exact Real.logb_lt_logb (by norm_num) (by norm_num) (by norm_num)

theorem tol_ge (S : RIn) : 1 / 10 ^ 14 ≤ S.tol := by
  unfold RIn.tol
  split_ifs with h
  · exact le_refl _
  · exact not_lt.mp h

theorem r0_cases (S : RIn) : (S.tol ≤ 1 → ∃ r, S.r0 = .ok r ∧ 0 ≤ r ∧ r ≤ 14) ∧ (1 < S.tol → S.r0 = .ub) := by
  have h7 := logb7
  have h70 : Real.logb 10 (7 / 10) < 0 := by linarith
  have hpos : 0 < S.tol := lt_of_lt_of_le (by positivity) (tol_ge S)
  constructor
  · intro h
    have hlog : Real.logb 10 S.tol ≤ 0 := Real.logb_nonpos (by norm_num) hpos.le h
    have hlog2 : -14 ≤ Real.logb 10 S.tol := by
      have h1 : Real.logb 10 ((1 : ℝ) / 10 ^ 14) = -14 := by
        rw [one_div, Real.logb_inv, Real.logb_pow, Real.logb_self_eq_one (by norm_num)]; norm_num
      rw [← h1]
      exact Real.logb_le_logb_of_le (by norm_num) (by positivity) (tol_ge S)
    have hx : 0 ≤ 2 * Real.logb 10 S.tol / Real.logb 10 (7 / 10) := div_nonneg_of_nonpos (by linarith) h70.le
    have hx0 : 0 ≤ ⌊2 * Real.logb 10 S.tol / Real.logb 10 (7 / 10)⌋ := Int.floor_nonneg.mpr hx
    have hx1 : (⌊2 * Real.logb 10 S.tol / Real.logb 10 (7 / 10)⌋ : ℝ) ≤ 14 ^ 2 := by
      refine le_trans (Int.floor_le _) ?_
      rw [div_le_iff_of_neg h70]
      nlinarith
    have hs : ⌈Real.sqrt ((⌊2 * Real.logb 10 S.tol / Real.logb 10 (7 / 10)⌋ : Int) : ℝ)⌉ ≤ 14 := by
      rw [Int.ceil_le]
      push_cast
      rw [Real.sqrt_le_left (by norm_num)]
      exact hx1
    have hs0 : 0 ≤ ⌈Real.sqrt ((⌊2 * Real.logb 10 S.tol / Real.logb 10 (7 / 10)⌋ : Int) : ℝ)⌉ := Int.ceil_nonneg (Real.sqrt_nonneg _)
    unfold RIn.r0
    dsimp only
    rw [if_neg (by omega)]
    refine ⟨_, rfl, ?_, ?_⟩
    · split_ifs <;> omega
    · split_ifs <;> omega
  · intro h
    have hlog : 0 < Real.logb 10 S.tol := Real.logb_pos (by norm_num) h
    have hx : 2 * Real.logb 10 S.tol / Real.logb 10 (7 / 10) < 0 := div_neg_of_pos_of_neg (by linarith) h70
    unfold RIn.r0
    dsimp only
    rw [if_pos (Int.floor_lt.mpr (by simpa using hx))]

end H2Pack.Sample
