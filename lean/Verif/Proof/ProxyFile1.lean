import Verif.Model.ProxyFile

/-! # The proxy point file: indices -/

namespace H2Pack.Proxy

theorem dround_near {x : ℝ} {n : Int} (h : |(n : ℝ) - x| < 1 / 2) : dround x = n := by
  rw [abs_lt] at h
  unfold dround
  split
  · rw [Int.floor_eq_iff]; constructor <;> linarith [h.1, h.2]
  · rw [Int.ceil_eq_iff]; constructor <;> linarith [h.1, h.2]

theorem log2_mul {a b : ℝ} (ha : 0 < a) (hb : 0 < b) : log2 (a * b) = log2 a + log2 b := Real.logb_mul ha.ne' hb.ne'

theorem log2_div {a b : ℝ} (ha : 0 < a) (hb : 0 < b) : log2 (a / b) = log2 a - log2 b := Real.logb_div ha.ne' hb.ne'

theorem log2_pow2 (k : ℝ) : log2 (pow2 k) = k := by unfold log2 pow2; rw [Real.logb_rpow (by norm_num) (by norm_num)]

theorem pow2_pos (k : ℝ) : 0 < pow2 k := Real.rpow_pos_of_pos (by norm_num) k

theorem log2_half_pow (m : Nat) : log2 ((1/2) ^ m) = -m := by
  have : ((1/2 : ℝ)) ^ m = pow2 (-(m : ℝ)) := by unfold pow2; rw [Real.rpow_neg (by norm_num), Real.rpow_natCast]; simp
  rw [this, log2_pow2]

theorem log2_two : log2 2 = 1 := by unfold log2; rw [Real.logb_self_eq_one (by norm_num)]

theorem log2_mono {a b : ℝ} (ha : 0 < a) (h : a ≤ b) : log2 a ≤ log2 b := Real.logb_le_logb_of_le (by norm_num) ha h

theorem log2_le_iff {a b : ℝ} (ha : 0 < a) (hb : 0 < b) : log2 a ≤ log2 b ↔ a ≤ b := Real.logb_le_logb (by norm_num) ha hb

theorem log2_inj {a b : ℝ} (ha : 0 < a) (hb : 0 < b) (h : log2 a = log2 b) : a = b :=
  le_antisymm ((log2_le_iff ha hb).1 h.le) ((log2_le_iff hb ha).1 h.ge)

theorem log2_max {a b : ℝ} (ha : 0 < a) (hb : 0 < b) : log2 (max a b) = max (log2 a) (log2 b) := by
  rcases le_total a b with h | h
  · rw [max_eq_right h, max_eq_right (log2_mono ha h)]
  · rw [max_eq_left h, max_eq_left (log2_mono hb h)]

theorem log2_minL {T : Tree} (hw : 0 < T.width) : log2 (ptMinL T) = log2 T.width - 1 - T.maxLevel := by
  unfold ptMinL
  rw [log2_mul (by positivity) (by positivity), log2_half_pow, log2_mul hw (by norm_num), show (1/2 : ℝ) = (1/2) ^ 1 by norm_num, log2_half_pow]
  push_cast; ring

theorem log2_maxL {T : Tree} (hw : 0 < T.width) : log2 (ptMaxL T) = log2 T.width - 3 := by
  unfold ptMaxL
  rw [log2_mul (by positivity) (by norm_num), log2_mul hw (by norm_num), show (1/4 : ℝ) = (1/2) ^ 2 by norm_num, log2_half_pow, show (1/2 : ℝ) = (1/2) ^ 1 by norm_num, log2_half_pow]
  push_cast; ring

theorem ptMinL_pos {T : Tree} (hw : 0 < T.width) : 0 < ptMinL T := by unfold ptMinL; positivity

theorem ptMaxL_pos {T : Tree} (hw : 0 < T.width) : 0 < ptMaxL T := by unfold ptMaxL; positivity

/-- The file is aligned with the boxes of the tree: the set with the index `κ` is the one for boxes of level 2. -/
def Aligned {σ : Type} (T : Tree) (H : PFile σ) (κ : Int) : Prop := 0 < H.minL ∧ |(κ : ℝ) - log2 (ptMaxL T / H.minL)| ≤ 1 / 10 ^ 10

/-- The index of the first of the common sets, counted from the first set of the file. -/
def start (T : Tree) (κ : Int) : Int := min 0 (κ + 2 - T.maxLevel)

theorem indices_spec {σ : Type} {T : Tree} (hw : 0 < T.width) {H : PFile σ} {κ : Int} (ha : Aligned T H κ) :
    0 < (indices T H).minL ∧
    (∃ δ : ℝ, |δ| ≤ 1 / 10 ^ 10 ∧ log2 (indices T H).minL = log2 T.width - 3 - κ + start T κ + δ) ∧
    (start T κ < 0 → (indices T H).minL = ptMinL T) ∧ (start T κ = 0 → κ + 2 - T.maxLevel ≠ 0 → (indices T H).minL = H.minL) ∧
    (indices T H).num = max κ (H.sets.length - 1) - start T κ + 1 ∧ (indices T H).fs = -start T κ ∧ (indices T H).fe = H.sets.length - 1 - start T κ ∧
    (indices T H).ps = κ + 2 - T.maxLevel - start T κ ∧ (indices T H).pe = κ - start T κ := by
  obtain ⟨hm, hk⟩ := ha
  have hpm := ptMinL_pos hw
  have hpM := ptMaxL_pos hw
  have l1 := log2_minL hw
  have l2 := log2_maxL hw
  rw [log2_div hpM hm, l2] at hk
  set W := log2 T.width with hW
  set q := log2 H.minL with hq
  have hM0 : 0 < maxL0 H := by unfold maxL0; exact mul_pos hm (pow2_pos _)
  have l3 : log2 (maxL0 H) = q + (H.sets.length - 1) := by unfold maxL0; rw [log2_mul hm (pow2_pos _), log2_pow2]
  have hlo : 0 < min (ptMinL T) H.minL := lt_min hpm hm
  obtain ⟨hk1, hk2⟩ := abs_le.1 hk
  have hmain : ∃ δ : ℝ, |δ| ≤ 1 / 10 ^ 10 ∧ log2 (min (ptMinL T) H.minL) = W - 3 - κ + start T κ + δ := by
    unfold start
    rcases le_total (ptMinL T) H.minL with h | h
    · have h' := log2_mono hpm h
      rw [l1] at h'
      have : κ + 2 - T.maxLevel ≤ 0 := by
        by_contra hc
        have : (1 : ℝ) ≤ κ + 2 - T.maxLevel := by have : 1 ≤ κ + 2 - T.maxLevel := by omega
                                                  exact_mod_cast this
        norm_num at hk1 hk2
        linarith
      rw [min_eq_left h, min_eq_right this, l1]
      refine ⟨0, by norm_num, ?_⟩
      push_cast; ring
    · have h' := log2_mono hm h
      rw [l1] at h'
      have : 0 ≤ κ + 2 - T.maxLevel := by
        by_contra hc
        have : (κ : ℝ) + 2 - T.maxLevel ≤ -1 := by have : κ + 2 - T.maxLevel ≤ -1 := by omega
                                                   exact_mod_cast this
        norm_num at hk1 hk2
        linarith
      rw [min_eq_right h, min_eq_left this]
      exact ⟨q - (W - 3 - κ), by rw [abs_le]; constructor <;> linarith, by push_cast; ring⟩
  obtain ⟨δ, hδ, hlog⟩ := hmain
  obtain ⟨hδ1, hδ2⟩ := abs_le.1 hδ
  have hsmall : (1 : ℝ) / 10 ^ 10 < 1 / 8 := by norm_num
  refine ⟨hlo, ⟨δ, hδ, hlog⟩, ?_, ?_, ?_, ?_, ?_, ?_, ?_⟩
  · intro hs
    unfold indices
    dsimp only
    apply min_eq_left
    rw [← log2_le_iff hpm hm, l1, ← hq]
    have hs' : κ + 2 - T.maxLevel ≤ -1 := by unfold start at hs; omega
    have : (κ : ℝ) + 2 - T.maxLevel ≤ -1 := by exact_mod_cast hs'
    linarith
  · intro hs hne
    unfold indices
    dsimp only
    apply min_eq_right
    rw [← log2_le_iff hm hpm, l1, ← hq]
    have hs' : 1 ≤ κ + 2 - T.maxLevel := by unfold start at hs; omega
    have : (1 : ℝ) ≤ (κ : ℝ) + 2 - T.maxLevel := by exact_mod_cast hs'
    linarith
  · unfold indices
    dsimp only
    rw [dround_near (n := max κ (H.sets.length - 1) - start T κ)]
    rw [log2_div (lt_of_lt_of_le hpM (le_max_left _ _)) hlo, log2_max hpM hM0, l2, l3, hlog]
    push_cast
    rcases le_total (κ : ℝ) ((H.sets.length : ℝ) - 1) with h | h
    · rw [max_eq_right h]
      rcases le_total (W - 3) (q + (H.sets.length - 1)) with h' | h'
      · rw [max_eq_right h', abs_lt]; constructor <;> linarith
      · rw [max_eq_left h', abs_lt]; constructor <;> linarith
    · rw [max_eq_left h]
      rcases le_total (W - 3) (q + (H.sets.length - 1)) with h' | h'
      · rw [max_eq_right h', abs_lt]; constructor <;> linarith
      · rw [max_eq_left h', abs_lt]; constructor <;> linarith
  · unfold indices
    dsimp only
    apply dround_near
    rw [log2_div hm hlo, hlog, ← hq, abs_lt]
    push_cast
    constructor <;> linarith
  · unfold indices
    dsimp only
    apply dround_near
    rw [log2_div hM0 hlo, hlog, l3, abs_lt]
    push_cast
    constructor <;> linarith
  · unfold indices
    dsimp only
    apply dround_near
    rw [log2_div hpm hlo, hlog, l1, abs_lt]
    push_cast
    constructor <;> linarith
  · unfold indices
    dsimp only
    apply dround_near
    rw [log2_div hpM hlo, hlog, l2, abs_lt]
    push_cast
    constructor <;> linarith

theorem header_none_aligned {σ : Type} {T : Tree} (hw : 0 < T.width) (g : GenParam) : Aligned T (⟨T.dim, T.reltol, g.nlayer, ptMinL T, []⟩ : PFile σ) (T.maxLevel - 2) := by
  refine ⟨ptMinL_pos hw, ?_⟩
  dsimp only
  rw [log2_div (ptMaxL_pos hw) (ptMinL_pos hw), log2_minL hw, log2_maxL hw]
  push_cast
  rw [show (T.maxLevel : ℝ) - 2 - (log2 T.width - 3 - (log2 T.width - 1 - T.maxLevel)) = 0 by ring]
  norm_num

theorem usable_iff {σ : Type} {T : Tree} {g : GenParam} {F : PFile σ} (hm : 0 < F.minL) : usable T g F = true ↔
    F.dim = T.dim ∧ F.reltol ≤ T.reltol ∧ F.nlayer = g.nlayer ∧ |(dround (log2 (ptMaxL T / F.minL)) : ℝ) - log2 (ptMaxL T / F.minL)| ≤ 1 / 10 ^ 10 := by
  unfold usable
  simp only [Bool.not_eq_true', Bool.or_eq_false_iff, decide_eq_false_iff_not, not_not, gt_iff_lt, not_lt, not_and, ne_eq]
  constructor
  · rintro ⟨⟨⟨h1, h2⟩, h3⟩, h4⟩; exact ⟨h1, h2, h3, h4 hm⟩
  · rintro ⟨h1, h2, h3, h4⟩; exact ⟨⟨⟨h1, h2⟩, h3⟩, fun _ => h4⟩

theorem usable_aligned {σ : Type} {T : Tree} {g : GenParam} {F : PFile σ} (hm : 0 < F.minL) (h : usable T g F = true) : Aligned T F (dround (log2 (ptMaxL T / F.minL))) :=
  ⟨hm, ((usable_iff hm).1 h).2.2.2⟩

end H2Pack.Proxy
