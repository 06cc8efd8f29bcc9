import Verif.Spec.SPDHSS
import Verif.Proof.ULV2
import Verif.Proof.ULV6
import Mathlib.Tactic.LinearCombination

set_option linter.unusedSectionVars false

/-! # SPDHSS: the linear algebra of one node -/

namespace H2Pack.SPD
open H2Pack.ULV (fsub mulTL mulR putBlock lowM mf fsub_cols fsub_inv isUnit_lowM Lapack)
open Finset

/-- The quadratic form of a matrix. -/
def quad (n : Nat) (g : Nat → Nat → ℝ) (c : Nat → ℝ) : ℝ := ∑ i ∈ range n, ∑ j ∈ range n, c i * g i j * c j

theorem quad_congr {n : Nat} {g g' : Nat → Nat → ℝ} {c c' : Nat → ℝ} (hg : ∀ i < n, ∀ j < n, g i j = g' i j) (hc : ∀ i < n, c i = c' i) :
    quad n g c = quad n g' c' := by
  unfold quad
  refine sum_congr rfl fun i hi => sum_congr rfl fun j hj => ?_
  rw [mem_range] at hi hj
  rw [hg i hi j hj, hc i hi, hc j hj]

/-- `y' K K' y = |K' y|²`. -/
theorem quad_gram {n : Nat} {g k : Nat → Nat → ℝ} (hg : ∀ i < n, ∀ j < n, g i j = ∑ t ∈ range n, k i t * k j t) (c : Nat → ℝ) :
    quad n g c = ∑ t ∈ range n, (∑ i ∈ range n, k i t * c i) ^ 2 := by
  unfold quad
  have : ∀ i ∈ range n, ∑ j ∈ range n, c i * g i j * c j = ∑ j ∈ range n, ∑ t ∈ range n, (k i t * c i) * (k j t * c j) := by
    intro i hi
    refine sum_congr rfl fun j hj => ?_
    rw [hg i (mem_range.1 hi) j (mem_range.1 hj), mul_sum, sum_mul]
    exact sum_congr rfl fun t _ => by ring
  rw [sum_congr rfl this]
  have : ∀ i ∈ range n, ∑ j ∈ range n, ∑ t ∈ range n, (k i t * c i) * (k j t * c j) = ∑ t ∈ range n, (k i t * c i) * ∑ j ∈ range n, k j t * c j := by
    intro i _
    rw [sum_comm]
    exact sum_congr rfl fun t _ => by rw [mul_sum]
  rw [sum_congr rfl this, sum_comm]
  exact sum_congr rfl fun t _ => by rw [← sum_mul, sq]

/-- `V` has orthonormal columns. -/
def Ortho (m r : Nat) (V : Nat → Nat → ℝ) : Prop := ∀ a < r, ∀ b < r, ∑ t ∈ range m, V t a * V t b = if a = b then 1 else 0

theorem ortho_norm {m r : Nat} {V : Nat → Nat → ℝ} (hV : Ortho m r V) (c : Nat → ℝ) :
    ∑ t ∈ range m, (∑ a ∈ range r, V t a * c a) ^ 2 = ∑ a ∈ range r, c a ^ 2 := by
  have : ∀ t ∈ range m, (∑ a ∈ range r, V t a * c a) ^ 2 = ∑ a ∈ range r, ∑ b ∈ range r, c a * c b * (V t a * V t b) := by
    intro t _
    rw [sq, sum_mul_sum]
    exact sum_congr rfl fun a _ => sum_congr rfl fun b _ => by ring
  rw [sum_congr rfl this, sum_comm]
  refine sum_congr rfl fun a ha => ?_
  rw [sum_comm]
  have : ∀ b ∈ range r, ∑ t ∈ range m, c a * c b * (V t a * V t b) = if a = b then c a * c b else 0 := by
    intro b hb
    rw [← mul_sum, hV a (mem_range.1 ha) b (mem_range.1 hb)]
    split <;> simp
  rw [sum_congr rfl this, sum_ite_eq, if_pos ha, sq]

/-- Projections do not increase the norm. -/
theorem ortho_bessel {m r : Nat} {V : Nat → Nat → ℝ} (hV : Ortho m r V) (z : Nat → ℝ) :
    ∑ a ∈ range r, (∑ t ∈ range m, V t a * z t) ^ 2 ≤ ∑ t ∈ range m, z t ^ 2 := by
  set w := fun a => ∑ t ∈ range m, V t a * z t with hw
  have h1 := ortho_norm hV w
  have h2 : ∑ t ∈ range m, z t * (∑ a ∈ range r, V t a * w a) = ∑ a ∈ range r, w a ^ 2 := by
    simp only [mul_sum]
    rw [sum_comm]
    refine sum_congr rfl fun a _ => ?_
    rw [sq, hw]
    dsimp only
    rw [sum_mul]
    exact sum_congr rfl fun t _ => by ring
  have h3 : 0 ≤ ∑ t ∈ range m, (z t - ∑ a ∈ range r, V t a * w a) ^ 2 := sum_nonneg fun _ _ => sq_nonneg _
  have h4 : ∑ t ∈ range m, (z t - ∑ a ∈ range r, V t a * w a) ^ 2 =
      ∑ t ∈ range m, z t ^ 2 - 2 * ∑ t ∈ range m, z t * (∑ a ∈ range r, V t a * w a) + ∑ t ∈ range m, (∑ a ∈ range r, V t a * w a) ^ 2 := by
    rw [mul_sum, ← sum_sub_distrib, ← sum_add_distrib]
    exact sum_congr rfl fun t _ => by ring
  rw [h4, h2, h1] at h3
  show ∑ a ∈ range r, w a ^ 2 ≤ _
  linarith

/-- What the matrices of a node satisfy: `g` is the Gram matrix that was factorized, `U = K V`, `X = V' K⁻¹`, `g = K K'`. -/
structure NodeLA (m r : Nat) (g U X : Nat → Nat → ℝ) : Prop where
  up : ∀ y : Nat → ℝ, ∑ a ∈ range r, (∑ i ∈ range m, U i a * y i) ^ 2 ≤ quad m g y
  low : ∀ c : Nat → ℝ, quad m g (fun i => ∑ a ∈ range r, c a * X a i) = ∑ a ∈ range r, c a ^ 2
  inv : ∀ a < r, ∀ b < r, ∑ i ∈ range m, X a i * U i b = if a = b then 1 else 0

theorem nodeLA {m r : Nat} {g k ki V U X : Nat → Nat → ℝ} (hg : ∀ i < m, ∀ j < m, g i j = ∑ t ∈ range m, k i t * k j t)
    (hinv : ∀ i < m, ∀ j < m, ∑ t ∈ range m, ki i t * k t j = if i = j then 1 else 0) (hV : Ortho m r V)
    (hU : ∀ i < m, ∀ a < r, U i a = ∑ t ∈ range m, k i t * V t a) (hX : ∀ a < r, ∀ i < m, X a i = ∑ t ∈ range m, V t a * ki t i) :
    NodeLA m r g U X where
  up := by
    intro y
    rw [quad_gram hg]
    refine le_trans (le_of_eq ?_) (ortho_bessel hV fun t => ∑ i ∈ range m, k i t * y i)
    refine sum_congr rfl fun a ha => ?_
    congr 1
    simp only [mul_sum]
    rw [sum_comm]
    refine sum_congr rfl fun i hi => ?_
    rw [hU i (mem_range.1 hi) a (mem_range.1 ha), sum_mul]
    exact sum_congr rfl fun t _ => by ring
  low := by
    intro c
    rw [quad_gram hg, ← ortho_norm hV]
    refine sum_congr rfl fun t ht => ?_
    congr 1
    simp only [mul_sum]
    rw [sum_comm]
    refine sum_congr rfl fun a ha => ?_
    have : ∀ i ∈ range m, k i t * (c a * X a i) = ∑ s ∈ range m, c a * V s a * (ki s i * k i t) := by
      intro i hi
      rw [hX a (mem_range.1 ha) i (mem_range.1 hi), mul_sum, mul_sum]
      exact sum_congr rfl fun s _ => by ring
    rw [sum_congr rfl this, sum_comm]
    have : ∀ s ∈ range m, ∑ i ∈ range m, c a * V s a * (ki s i * k i t) = if s = t then c a * V s a else 0 := by
      intro s hs
      rw [← mul_sum, hinv s (mem_range.1 hs) t (mem_range.1 ht)]
      split <;> simp
    rw [sum_congr rfl this, sum_ite_eq', if_pos ht, mul_comm]
  inv := by
    intro a ha b hb
    rw [← hV a ha b hb]
    have e1 : ∀ i ∈ range m, X a i * U i b = ∑ s ∈ range m, ∑ t ∈ range m, V s a * V t b * (ki s i * k i t) := by
      intro i hi
      rw [hX a ha i (mem_range.1 hi), hU i (mem_range.1 hi) b hb, sum_mul_sum]
      exact sum_congr rfl fun s _ => sum_congr rfl fun t _ => by ring
    rw [sum_congr rfl e1, sum_comm]
    refine sum_congr rfl fun s hs => ?_
    rw [sum_comm, sum_eq_single s]
    · rw [← mul_sum, hinv s (mem_range.1 hs) s (mem_range.1 hs), if_pos rfl, mul_one]
    · intro t ht hne
      rw [← mul_sum, hinv s (mem_range.1 hs) t (mem_range.1 ht), if_neg (fun h => hne h.symm), mul_zero]
    · intro h; exact absurd hs h

/-! ## Forward substitution -/

/-- The inverse of a lower triangular matrix. -/
noncomputable def sInv (s : Nat → Nat → ℝ) (t i : Nat) : ℝ := fsub false s (fun r => if r = i then 1 else 0) t

theorem sInv_mf {d : Nat} {s : Nat → Nat → ℝ} (hd : ∀ k < d, s k k ≠ 0) : mf d d (sInv s) = (lowM false d s)⁻¹ := by
  have := fsub_cols false d d s (fun r i => if r = i then 1 else 0) (fun _ => hd)
  have e : mf d d (fun r i => if r = i then (1 : ℝ) else 0) = 1 := by
    ext i j
    simp [mf, Matrix.one_apply, Fin.ext_iff]
  rw [e, mul_one] at this
  exact this

theorem fsub_lin {d : Nat} {s : Nat → Nat → ℝ} (hd : ∀ k < d, s k k ≠ 0) (b : Nat → ℝ) {t : Nat} (ht : t < d) :
    fsub false s b t = ∑ i ∈ range d, sInv s t i * b i := by
  have := fsub_inv false d s b (fun _ => hd) ⟨t, ht⟩
  dsimp only at this
  rw [this, ← sInv_mf hd, sum_range]
  rfl

theorem sInv_mul {d : Nat} {s : Nat → Nat → ℝ} (hd : ∀ k < d, s k k ≠ 0) (hup : ∀ i j, i < j → s i j = 0) :
    ∀ i < d, ∀ j < d, ∑ t ∈ range d, sInv s i t * s t j = if i = j then 1 else 0 := by
  intro i hi j hj
  have e : lowM false d s = mf d d s := by
    ext a b
    simp only [lowM, mf, Bool.false_eq_true, if_false]
    split
    · rfl
    · split
      · rename_i h; rw [h]
      · rename_i h1 h2
        rw [hup]
        have : (a : Nat) ≠ b := fun h => h2 (Fin.ext h)
        omega
  have h := Matrix.nonsing_inv_mul _ (isUnit_lowM false d s (fun _ => hd))
  rw [← sInv_mf hd, e] at h
  have := congrFun (congrFun h ⟨i, hi⟩) ⟨j, hj⟩
  rw [Matrix.mul_apply, Matrix.one_apply] at this
  simp only [Fin.mk.injEq] at this
  rw [sum_range]
  exact this

/-- POTRF. -/
theorem chol_gram {Lp : Lapack ℝ} (hL : Lp.Correct) {d : Nat} {T l : Nat → Nat → ℝ} (hinfo : (Lp.potrf d T).1 = 0)
    (hl : l = fun i j => if i < j then 0 else (Lp.potrf d T).2 i j) (hsym : ∀ i < d, ∀ j < d, T i j = T j i) :
    (∀ k < d, l k k ≠ 0) ∧ (∀ i j, i < j → l i j = 0) ∧ ∀ i < d, ∀ j < d, T i j = ∑ t ∈ range d, l i t * l j t := by
  have hup : ∀ i j, i < j → l i j = 0 := fun i j h => by rw [hl]; exact if_pos h
  refine ⟨fun k hk => ?_, hup, ?_⟩
  · rw [hl]
    show (if k < k then (0 : ℝ) else _) ≠ 0
    rw [if_neg (lt_irrefl _)]
    exact hL.cholDiag d T hinfo k hk
  · have key : ∀ i < d, ∀ j ≤ i, T i j = ∑ t ∈ range d, l i t * l j t := by
      intro i hi j hj
      rw [← hL.chol d T hinfo i hi j hj, ← sum_range_add_sum_Ico _ (show j + 1 ≤ d by omega)]
      rw [sum_eq_zero (s := Ico (j + 1) d), add_zero]
      · refine sum_congr rfl fun t ht => ?_
        rw [mem_range] at ht
        rw [hl]
        show _ = (if i < t then (0 : ℝ) else _) * (if j < t then 0 else _)
        rw [if_neg (show ¬ i < t by omega), if_neg (show ¬ j < t by omega)]
      · intro t ht
        rw [mem_Ico] at ht
        rw [hup j t (by omega), mul_zero]
    intro i hi j hj
    rcases le_total j i with h | h
    · exact key i hi j h
    · rw [hsym i hi j hj, key j hj i h]
      exact sum_congr rfl fun t _ => mul_comm _ _

/-! ## Eigenvalues -/

/-- SYEVD applied to the upper half of `T` with `1 + T` positive definite. -/
theorem ev_spec {Lq : Lapack2} (hL : Lq.Correct) {n : Nat} {a g : Nat → Nat → ℝ} (hg : ∀ i < n, ∀ j < n, g i j = g j i)
    (hga : ∀ j < n, ∀ i ≤ j, g i j = (if i = j then 1 else 0) + a i j)
    (hpos : ∀ c, (∃ i < n, c i ≠ 0) → 0 < quad n g c) :
    (∀ k < n, -1 < (Lq.syevd n a).2.2 k) ∧
    (∀ i < n, ∀ j < n, g i j = ∑ t ∈ range n, specM n (Lq.syevd n a).2.1 (fun k => √(1 + (Lq.syevd n a).2.2 k)) i t *
      specM n (Lq.syevd n a).2.1 (fun k => √(1 + (Lq.syevd n a).2.2 k)) j t) ∧
    (∀ i < n, ∀ j < n, ∑ t ∈ range n, specM n (Lq.syevd n a).2.1 (fun k => 1 / √(1 + (Lq.syevd n a).2.2 k)) i t *
      specM n (Lq.syevd n a).2.1 (fun k => √(1 + (Lq.syevd n a).2.2 k)) t j = if i = j then 1 else 0) := by
  set Q := (Lq.syevd n a).2.1 with hQ
  set e := (Lq.syevd n a).2.2 with he
  have hc : Ortho n n Q := fun i hi j hj => hL.evOrth n a i hi j hj
  -- the rows are orthonormal too
  have hr : ∀ i < n, ∀ j < n, ∑ k ∈ range n, Q i k * Q j k = if i = j then 1 else 0 := by
    have h1 : (mf n n Q).transpose * mf n n Q = 1 := by
      ext i j
      rw [Matrix.mul_apply, Matrix.one_apply]
      have := hc i i.2 j j.2
      rw [sum_range] at this
      simp only [Fin.ext_iff]
      exact this
    have h2 : mf n n Q * (mf n n Q).transpose = 1 := mul_eq_one_comm.1 h1
    intro i hi j hj
    have := congrFun (congrFun h2 ⟨i, hi⟩) ⟨j, hj⟩
    rw [Matrix.mul_apply, Matrix.one_apply] at this
    simp only [Fin.mk.injEq] at this
    rw [sum_range]
    exact this
  have hge : ∀ i < n, ∀ j < n, g i j = ∑ k ∈ range n, Q i k * (1 + e k) * Q j k := by
    have key : ∀ j < n, ∀ i ≤ j, g i j = ∑ k ∈ range n, Q i k * (1 + e k) * Q j k := by
      intro j hj i hi
      rw [hga j hj i hi, ← hr i (by omega) j hj, ← hL.ev n a j hj i hi, ← sum_add_distrib]
      exact sum_congr rfl fun k _ => by ring
    intro i hi j hj
    rcases le_total i j with h | h
    · exact key j hj i h
    · rw [hg i hi j hj, key i hi j h]
      exact sum_congr rfl fun k _ => by ring
  have hq : ∀ c, quad n g c = ∑ k ∈ range n, (1 + e k) * (∑ i ∈ range n, Q i k * c i) ^ 2 := by
    intro c
    unfold quad
    have : ∀ i ∈ range n, ∑ j ∈ range n, c i * g i j * c j = ∑ k ∈ range n, (1 + e k) * (Q i k * c i) * ∑ j ∈ range n, Q j k * c j := by
      intro i hi
      simp only [mul_sum]
      rw [sum_comm]
      refine sum_congr rfl fun j hj => ?_
      rw [hge i (mem_range.1 hi) j (mem_range.1 hj), mul_sum, sum_mul]
      exact sum_congr rfl fun t _ => by ring
    rw [sum_congr rfl this, sum_comm]
    refine sum_congr rfl fun k _ => ?_
    rw [← sum_mul, sq, ← mul_sum]
    ring
  have hev : ∀ k < n, -1 < e k := by
    intro k hk
    have h1 := hpos (fun i => Q i k) (by
      by_contra hcon
      push Not at hcon
      have := hc k hk k hk
      rw [if_pos rfl, sum_eq_zero] at this
      · exact zero_ne_one this
      · intro i hi
        rw [hcon i (mem_range.1 hi), zero_mul])
    rw [hq] at h1
    have : ∀ k' ∈ range n, (1 + e k') * (∑ i ∈ range n, Q i k' * Q i k) ^ 2 = if k' = k then 1 + e k else 0 := by
      intro k' hk'
      rw [hc k' (mem_range.1 hk') k hk]
      split
      · rename_i h; rw [h]; ring
      · ring
    rw [sum_congr rfl this, sum_ite_eq', if_pos (mem_range.2 hk)] at h1
    linarith
  have hmul : ∀ (f f' : Nat → ℝ), ∀ i < n, ∀ j < n, ∑ t ∈ range n, specM n Q f i t * specM n Q f' t j = ∑ k ∈ range n, Q i k * (f k * f' k) * Q j k := by
    intro f f' i hi j hj
    have : ∀ t ∈ range n, specM n Q f i t * specM n Q f' t j = ∑ k ∈ range n, ∑ l ∈ range n, Q i k * f k * (f' l * Q j l) * (Q t k * Q t l) := by
      intro t _
      unfold specM mulNT
      rw [sum_mul_sum]
      exact sum_congr rfl fun k _ => sum_congr rfl fun l _ => by ring
    rw [sum_congr rfl this, sum_comm]
    refine sum_congr rfl fun k hk => ?_
    rw [sum_comm]
    have : ∀ l ∈ range n, ∑ t ∈ range n, Q i k * f k * (f' l * Q j l) * (Q t k * Q t l) = if k = l then Q i k * f k * (f' l * Q j l) else 0 := by
      intro l hl
      rw [← mul_sum, hc k (mem_range.1 hk) l (mem_range.1 hl)]
      split <;> simp
    rw [sum_congr rfl this, sum_ite_eq, if_pos hk]
    ring
  have hsymm : ∀ (f : Nat → ℝ) i j, specM n Q f i j = specM n Q f j i := by
    intro f i j
    unfold specM mulNT
    exact sum_congr rfl fun k _ => by ring
  refine ⟨hev, ?_, ?_⟩
  · intro i hi j hj
    rw [hge i hi j hj]
    have : ∀ t ∈ range n, specM n Q (fun k => √(1 + e k)) i t * specM n Q (fun k => √(1 + e k)) j t =
        specM n Q (fun k => √(1 + e k)) i t * specM n Q (fun k => √(1 + e k)) t j := fun t _ => by rw [hsymm _ j t]
    rw [sum_congr rfl this, hmul _ _ i hi j hj]
    refine sum_congr rfl fun k hk => ?_
    have := hev k (mem_range.1 hk)
    rw [Real.mul_self_sqrt (by linarith)]
  · intro i hi j hj
    rw [hmul _ _ i hi j hj, ← hr i hi j hj]
    refine sum_congr rfl fun k hk => ?_
    have := hev k (mem_range.1 hk)
    have h0 : √(1 + e k) ≠ 0 := Real.sqrt_ne_zero'.2 (by linarith)
    rw [one_div, inv_mul_cancel₀ h0, mul_one]

/-! ## The rank of a basis -/

theorem vCols_spec (reltol : ℝ) {n : Nat} (hn : 0 < n) (d : Nat → ℝ) : 0 < vCols reltol n d ∧ vCols reltol n d ≤ n := by
  unfold vCols
  split
  · rename_i k hk
    have := List.mem_range.1 (List.mem_of_find?_eq_some hk)
    split <;> omega
  · omega

theorem basisV_spec (P : Params) (hL : P.lq.Correct) {m n : Nat} (hm : 0 < m) (hn : 0 < n) (hr : 0 < P.maxRank) (y : Nat → Nat → ℝ) :
    (basisV P m n y).nrow = m ∧ 0 < (basisV P m n y).ncol ∧ (basisV P m n y).ncol ≤ m ∧ Ortho m (basisV P m n y).ncol (basisV P m n y).e := by
  have h := vCols_spec P.reltol (show 0 < min (min m n) P.maxRank by omega) (fun k => (P.lq.geqpf m n y).1 k k)
  refine ⟨rfl, h.1, le_trans h.2 (by omega), ?_⟩
  intro a ha b hb
  have ha' : a < vCols P.reltol (min (min m n) P.maxRank) (fun k => (P.lq.geqpf m n y).1 k k) := ha
  have hb' : b < vCols P.reltol (min (min m n) P.maxRank) (fun k => (P.lq.geqpf m n y).1 k k) := hb
  exact hL.orth m n y a (by omega) b (by omega)

end H2Pack.SPD
