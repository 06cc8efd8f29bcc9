import Verif.Proof.ProxyFile1
import Verif.Spec.ProxyFile

/-! # The proxy point file: a run -/

namespace H2Pack.Proxy
open H2Pack.Part (alphaH2)

/-- The sets in a run. -/
noncomputable def pp0Of {σ : Type} (T : Tree) (g : GenParam) (gen : GenArgs → σ) (H : PFile σ) (κ : Int) (i : Nat) : σ :=
  if -start T κ ≤ (i : Int) ∧ (i : Int) ≤ H.sets.length - 1 - start T κ then (H.sets[((i : Int) + start T κ).toNat]?).getD (gen (genArgs T g (indices T H).minL i))
  else gen (genArgs T g (indices T H).minL i)

/-- The sets of the levels in a run. -/
noncomputable def ppOf {σ : Type} (T : Tree) (g : GenParam) (gen : GenArgs → σ) (H : PFile σ) (κ : Int) (level : Nat) : Option σ :=
  if 2 ≤ level ∧ level ≤ T.maxLevel then some (pp0Of T g gen H κ (κ + 2 - level - start T κ).toNat) else none

/-- The file after a run. -/
noncomputable def fileOf {σ : Type} (T : Tree) (g : GenParam) (gen : GenArgs → σ) (H : PFile σ) (κ : Int) : PFile σ :=
  ⟨T.dim, H.reltol, H.nlayer, (indices T H).minL, (List.range (max κ (H.sets.length - 1) - start T κ + 1).toNat).map (pp0Of T g gen H κ)⟩

theorem start_nonpos (T : Tree) (κ : Int) : start T κ ≤ 0 := min_le_left _ _

theorem start_le (T : Tree) (κ : Int) : start T κ ≤ κ + 2 - T.maxLevel := min_le_right _ _

theorem idFile_run {σ : Type} {T : Tree} (hw : 0 < T.width) (g : GenParam) (gen : GenArgs → σ) (name : Bool) (file : Option (PFile σ)) {H : PFile σ}
    (hH : header T g (if name then file else none) = H) {κ : Int} (ha : Aligned T H κ) :
    idFile T g gen name file = .ok (ppOf T g gen H κ, if name then some (fileOf T g gen H κ) else file) := by
  obtain ⟨i1, _, _, _, i2, i3, i4, i5, i6⟩ := indices_spec hw ha
  have hs1 := start_nonpos T κ
  have hs2 := start_le T κ
  have hA : allSets T g gen H (indices T H) = .ok (pp0Of T g gen H κ) := by
    unfold allSets pp0Of
    rw [i2, i3, i4, if_neg (by omega)]
    congr 1
    funext i
    rw [show (i : Int) - -start T κ = i + start T κ by ring]
  have hL : levelSets T (indices T H) (pp0Of T g gen H κ) = .ok (ppOf T g gen H κ) := by
    unfold levelSets ppOf
    rw [i2, i5, i6, if_neg (by omega)]
    congr 1
    funext level
    by_cases h : 2 ≤ level ∧ level ≤ T.maxLevel
    · rw [if_pos h, if_pos (by omega)]
      congr 3
      omega
    · rw [if_neg h, if_neg (by omega)]
  unfold idFile
  dsimp only
  rw [hH, if_neg (by rintro (h | h); exacts [absurd ha.1 (by linarith), absurd hw (by linarith)]), if_neg (by rw [i2]; omega), hA, Res.bind_ok, hL, Res.bind_ok]
  unfold fileOf
  rw [i2]

theorem maxL_eq (T : Tree) : ptMaxL T = T.width / 8 := by unfold ptMaxL; ring

theorem matches_usable {σ : Type} {T : Tree} {g : GenParam} {F : PFile σ} (hm : 0 < F.minL) : usable T g F = true ↔ Matches T g F := by
  rw [usable_iff hm, maxL_eq]
  unfold Matches
  constructor
  · rintro ⟨h1, h2, h3, h4⟩; exact ⟨h1, h2, h3, _, h4⟩
  · rintro ⟨h1, h2, h3, κ, h4⟩
    refine ⟨h1, h2, h3, ?_⟩
    rw [dround_near (n := κ) (lt_of_le_of_lt h4 (by norm_num))]
    exact h4

theorem header_of_matches {σ : Type} {T : Tree} {g : GenParam} {F : PFile σ} (hm : 0 < F.minL) (h : Matches T g F) : header T g (some F) = F := by
  unfold header
  dsimp only
  rw [if_pos ((matches_usable hm).2 h)]

theorem header_of_not {σ : Type} {T : Tree} {g : GenParam} {file : Option (PFile σ)} (hm : ∀ F, file = some F → 0 < F.minL) (h : ∀ F, file = some F → ¬ Matches T g F) :
    header T g file = ⟨T.dim, T.reltol, g.nlayer, ptMinL T, []⟩ := by
  cases file with
  | none => rfl
  | some F =>
    unfold header
    dsimp only
    rw [if_neg (by rw [matches_usable (hm F rfl)]; exact h F rfl)]

/-- Every run uses an aligned file, possibly an empty one. -/
theorem header_cases {σ : Type} {T : Tree} (hw : 0 < T.width) (g : GenParam) (file : Option (PFile σ)) (hm : ∀ F, file = some F → 0 < F.minL) :
    (∃ F κ, file = some F ∧ Matches T g F ∧ header T g file = F ∧ Aligned T F κ) ∨
    ((∀ F, file = some F → ¬ Matches T g F) ∧ header T g file = ⟨T.dim, T.reltol, g.nlayer, ptMinL T, []⟩) := by
  by_cases h : ∃ F, file = some F ∧ Matches T g F
  · obtain ⟨F, rfl, hF⟩ := h
    left
    obtain ⟨κ, hκ⟩ := hF.2.2.2
    exact ⟨F, κ, rfl, hF, header_of_matches (hm F rfl) hF, hm F rfl, by rw [maxL_eq]; exact hκ⟩
  · right
    have h' : ∀ F, file = some F → ¬ Matches T g F := fun F h1 h2 => h ⟨F, h1, h2⟩
    exact ⟨h', header_of_not hm h'⟩

theorem log2_box {T : Tree} (hw : 0 < T.width) (l : Nat) : log2 (T.width / 2 ^ l) = log2 T.width - l := by
  rw [log2_div hw (by positivity)]
  congr 1
  rw [show (2 : ℝ) ^ l = pow2 (l : ℝ) by unfold pow2; rw [Real.rpow_natCast], log2_pow2]

theorem log2_set {m : ℝ} (hm : 0 < m) (f : Nat) : log2 (2 * m * 2 ^ f) = 1 + log2 m + f := by
  rw [log2_mul (by positivity) (by positivity), log2_mul (by norm_num) hm, log2_two, show (2 : ℝ) ^ f = pow2 (f : ℝ) by unfold pow2; rw [Real.rpow_natCast], log2_pow2]

/-- The set of the file for the boxes of a level. -/
theorem fits_iff {σ : Type} {T : Tree} (hw : 0 < T.width) {H : PFile σ} {κ : Int} (ha : Aligned T H κ) (f l : Nat) :
    Fits (2 * H.minL * 2 ^ f) (T.width / 2 ^ l) ↔ (f : Int) = κ + 2 - l := by
  obtain ⟨hm, hk⟩ := ha
  unfold Fits
  rw [log2_set hm, log2_box hw]
  rw [log2_div (ptMaxL_pos hw) hm, log2_maxL hw] at hk
  constructor
  · intro h
    have h1 : |((f : Int) - (κ + 2 - l) : ℝ)| < 1 := by
      rw [abs_le] at h hk
      rw [abs_lt]
      push_cast
      norm_num at h hk ⊢
      constructor <;> linarith [h.1, h.2, hk.1, hk.2]
    have h2 : |(f : Int) - (κ + 2 - l)| < 1 := by exact_mod_cast h1
    have := Int.abs_lt_one_iff.1 h2
    omega
  · intro h
    have : (f : ℝ) = κ + 2 - l := by exact_mod_cast h
    rw [this]
    rw [abs_le] at hk ⊢
    constructor <;> linarith [hk.1, hk.2]

theorem argsFor {σ : Type} {T : Tree} (hw : 0 < T.width) (g : GenParam) (hg : 2 ≤ g.nlayer ∧ g.nlayer ≤ 1000) {H : PFile σ} {κ : Int} (ha : Aligned T H κ) {l : Nat} (h2 : 2 ≤ l) (hl : l ≤ T.maxLevel) :
    ArgsFor T g (T.width / 2 ^ l) (genArgs T g (indices T H).minL (κ + 2 - l - start T κ).toNat) := by
  obtain ⟨i1, ⟨δ, hδ, hlog⟩, _⟩ := indices_spec hw ha
  have hs2 := start_le T κ
  set i := (κ + 2 - l - start T κ).toNat with hi
  have hii : (i : Int) = κ + 2 - l - start T κ := by omega
  have hpos : 0 < 2 * (indices T H).minL * pow2 i := mul_pos (by linarith) (pow2_pos _)
  have ea : (alphaH2 : ℝ) = 999999 / 1000000 := by unfold alphaH2; norm_num
  refine ⟨rfl, ?_, ?_, ?_, ?_⟩
  · unfold Fits genArgs
    dsimp only
    rw [log2_mul (by linarith) (pow2_pos _), log2_mul (by norm_num) i1, log2_two, log2_pow2, hlog, log2_box hw]
    have : (i : ℝ) = κ + 2 - l - start T κ := by exact_mod_cast hii
    rw [this]
    rw [show 1 + (log2 T.width - 3 - κ + start T κ + δ) + ((κ : ℝ) + 2 - l - start T κ) - (log2 T.width - l) = δ by ring]
    exact hδ
  · unfold genArgs; dsimp only; rw [ea]
  · unfold genArgs; dsimp only; rw [ea]
  · unfold genArgs
    dsimp only
    by_cases h0 : g.alg = 0
    · rw [if_pos h0, if_pos h0]
      congr 2
      apply dround_near
      rw [ea, show ((1 + (g.nlayer : ℝ) * (999999 / 1000000)) * (2 * (indices T H).minL * pow2 i) - (1 + 2 * (999999 / 1000000)) * (2 * (indices T H).minL * pow2 i)) /
        (2 * (indices T H).minL * pow2 i) = ((g.nlayer : ℝ) - 2) * (999999 / 1000000) by
          rw [← sub_mul, mul_div_assoc, div_self hpos.ne', mul_one]; ring]
      have h1 : (2 : ℝ) ≤ g.nlayer := by exact_mod_cast hg.1
      have h2 : (g.nlayer : ℝ) ≤ 1000 := by exact_mod_cast hg.2
      push_cast
      rw [abs_lt]
      constructor <;> linarith
    · rw [if_neg h0, if_neg h0]; simp

end H2Pack.Proxy
