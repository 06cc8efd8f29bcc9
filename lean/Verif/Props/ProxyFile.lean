import Verif.Proof.ProxyFile2
import Mathlib.Data.List.GetD

/-!
# C75: H2P_generate_proxy_point_ID_file

`σ` is the type of a set of proxy points, `gen a` the set that the generation (C74) computes for the arguments `a`.  `L3_nlayer` is between 8 and 32 in the program.
-/

namespace H2Pack.Proxy
open H2Pack.Part (alphaH2)

/-- The file as the run sees it. -/
def seen {σ : Type} (name : Bool) (file : Option (PFile σ)) : Option (PFile σ) := if name then file else none

/-- C75: every run returns; the levels 2 to `max_level` have a set, the others none.  A set of a file with matching first line for boxes of the width of the level is
used; when there is none, one for boxes of this width is generated, with the tolerance of the run. -/
theorem C75_levels {σ : Type} (T : Tree) (hw : 0 < T.width) (g : GenParam) (hg : 2 ≤ g.nlayer ∧ g.nlayer ≤ 1000) (gen : GenArgs → σ) (name : Bool) (file : Option (PFile σ))
    (hm : ∀ F, seen name file = some F → 0 < F.minL) :
    ∃ pp file', idFile T g gen name file = .ok (pp, file') ∧ (∀ l, l < 2 ∨ T.maxLevel < l → pp l = none) ∧
      ∀ l, 2 ≤ l → l ≤ T.maxLevel →
        (∀ F, seen name file = some F → Matches T g F → ∀ f s, F.sets[f]? = some s → Fits (2 * F.minL * 2 ^ f) (T.width / 2 ^ l) → pp l = some s) ∧
        ((∀ F, seen name file = some F → Matches T g F → ∀ f < F.sets.length, ¬ Fits (2 * F.minL * 2 ^ f) (T.width / 2 ^ l)) →
          ∃ a, pp l = some (gen a) ∧ ArgsFor T g (T.width / 2 ^ l) a ∧ ((∀ F, seen name file = some F → ¬ Matches T g F) → a.L1 = T.width / 2 ^ l)) := by
  rcases header_cases hw g (seen name file) hm with ⟨F, κ, hF, hM, hH, ha⟩ | ⟨hN, hH⟩
  · refine ⟨_, _, idFile_run hw g gen name file hH ha, ?_, ?_⟩
    · intro l hl
      unfold ppOf
      rw [if_neg (by omega)]
    · intro l h2 hl
      have hs1 := start_nonpos T κ
      have hs2 := start_le T κ
      have hpp : ppOf T g gen F κ l = some (pp0Of T g gen F κ (κ + 2 - l - start T κ).toNat) := by unfold ppOf; rw [if_pos ⟨h2, hl⟩]
      have hii : (((κ + 2 - l - start T κ).toNat : Nat) : Int) = κ + 2 - l - start T κ := by omega
      refine ⟨?_, ?_⟩
      · intro F' hF' _ f s hs hfit
        rw [hF, Option.some.injEq] at hF'
        subst hF'
        have hf := (fits_iff hw ha f l).1 hfit
        have hlt : f < F.sets.length := by
          by_contra hc
          rw [List.getElem?_eq_none (by omega)] at hs; simp at hs
        rw [hpp]
        unfold pp0Of
        rw [hii, if_pos (by omega), show (κ + 2 - l - start T κ + start T κ).toNat = f by omega, hs]
        rfl
      · intro hno
        refine ⟨_, ?_, argsFor hw g hg ha h2 hl, fun hN => absurd hM (hN F hF)⟩
        rw [hpp]
        unfold pp0Of
        rw [hii, if_neg]
        intro hc
        refine hno F hF hM (κ + 2 - l).toNat (by omega) ((fits_iff hw ha _ l).2 (by omega))
  · have ha := header_none_aligned (σ := σ) hw g
    refine ⟨_, _, idFile_run hw g gen name file hH ha, ?_, ?_⟩
    · intro l hl
      unfold ppOf
      rw [if_neg (by omega)]
    · intro l h2 hl
      refine ⟨fun F hF hM => absurd hM (hN F hF), fun _ => ⟨_, ?_, argsFor hw g hg ha h2 hl, fun _ => ?_⟩⟩
      · unfold ppOf pp0Of
        rw [if_pos ⟨h2, hl⟩, if_neg]
        have hs2 := start_nonpos T ((T.maxLevel : Int) - 2)
        dsimp only
        simp only [List.length_nil]
        omega
      · have hst : start T ((T.maxLevel : Int) - 2) = 0 := by unfold start; omega
        unfold genArgs indices
        dsimp only
        rw [min_self, hst]
        unfold ptMinL
        rw [show ((T.maxLevel : Int) - 2 + 2 - l - 0).toNat = T.maxLevel - l by omega]
        unfold pow2
        rw [Real.rpow_natCast]
        obtain ⟨d, hd⟩ : ∃ d, T.maxLevel = l + d := ⟨T.maxLevel - l, by omega⟩
        rw [hd, Nat.add_sub_cancel_left, pow_add]
        have e2 : (1/2 : ℝ) ^ d * 2 ^ d = 1 := by rw [← mul_pow]; norm_num
        have e1 : (1/2 : ℝ) ^ l = 1 / 2 ^ l := by rw [div_pow, one_pow]
        calc 2 * (T.width * (1 / 2) * ((1 / 2) ^ l * (1 / 2) ^ d)) * 2 ^ d = T.width * (1/2) ^ l * ((1 / 2) ^ d * 2 ^ d) := by ring
          _ = T.width / 2 ^ l := by rw [e2, e1]; ring

/-- C75: the file after a run with a file name.  Its first line has the dimension and the layers of the run and a tolerance that is not larger; the sets of a matching file
are kept, moved by a number of places, and stay the sets for the same box widths. -/
theorem C75_file {σ : Type} (T : Tree) (hw : 0 < T.width) (g : GenParam) (gen : GenArgs → σ) (file : Option (PFile σ))
    (hm : ∀ F, file = some F → 0 < F.minL) :
    ∃ pp F', idFile T g gen true file = .ok (pp, some F') ∧ F'.dim = T.dim ∧ F'.nlayer = g.nlayer ∧ F'.reltol ≤ T.reltol ∧ 0 < F'.minL ∧
      ∀ F, file = some F → Matches T g F → ∃ c : Nat, Fits (F'.minL * 2 ^ c) F.minL ∧ ∀ f < F.sets.length, F'.sets[f + c]? = F.sets[f]? := by
  rcases header_cases hw g file hm with ⟨F, κ, hF, hM, hH, ha⟩ | ⟨hN, hH⟩
  · refine ⟨_, _, idFile_run hw g gen true file hH ha, rfl, hM.2.2.1, hM.2.1, (indices_spec hw ha).1, ?_⟩
    intro F' hF' _
    rw [hF, Option.some.injEq] at hF'
    subst hF'
    have hs1 := start_nonpos T κ
    obtain ⟨i1, ⟨δ, _, hlog⟩, hneg, hzero, _⟩ := indices_spec hw ha
    refine ⟨(-start T κ).toNat, ?_, ?_⟩
    · unfold Fits
      show |log2 ((indices T F).minL * 2 ^ (-start T κ).toNat) - log2 F.minL| ≤ _
      rcases eq_or_lt_of_le hs1 with h0 | h0
      · rw [h0, neg_zero, Int.toNat_zero, pow_zero, mul_one]
        by_cases hz : κ + 2 - T.maxLevel = 0
        · obtain ⟨hmn, hk⟩ := ha
          have hk' := abs_le.1 hk
          rw [log2_div (ptMaxL_pos hw) hmn, log2_maxL hw] at hk'
          have hzr : (κ : ℝ) + 2 - T.maxLevel = 0 := by exact_mod_cast hz
          have hcases : (indices T F).minL = ptMinL T ∨ (indices T F).minL = F.minL := min_choice _ _
          rcases hcases with h | h
          · rw [h, log2_minL hw, abs_le]; constructor <;> linarith [hk'.1, hk'.2]
          · rw [h, sub_self]; norm_num
        · rw [hzero h0 hz, sub_self]; norm_num
      · rw [hneg h0, log2_mul (ptMinL_pos hw) (by positivity), log2_minL hw, show (2 : ℝ) ^ (-start T κ).toNat = pow2 ((-start T κ).toNat : ℝ) by unfold pow2; rw [Real.rpow_natCast], log2_pow2]
        obtain ⟨hmn, hk⟩ := ha
        rw [log2_div (ptMaxL_pos hw) hmn, log2_maxL hw] at hk
        have h1 : (((-start T κ).toNat : Nat) : ℝ) = T.maxLevel - κ - 2 := by
          have : (((-start T κ).toNat : Nat) : Int) = T.maxLevel - κ - 2 := by unfold start at h0 ⊢; omega
          exact_mod_cast this
        rw [h1]
        rw [abs_le] at hk ⊢
        constructor <;> linarith [hk.1, hk.2]
    · intro f hf
      unfold fileOf
      dsimp only
      rw [List.getElem?_map, List.getElem?_range (by omega), Option.map_some]
      unfold pp0Of
      rw [if_pos (by omega), show (((f + (-start T κ).toNat : Nat) : Int) + start T κ).toNat = f by omega, List.getElem?_eq_getElem hf]
      rfl
  · have ha := header_none_aligned (σ := σ) hw g
    refine ⟨_, _, idFile_run hw g gen true file hH ha, rfl, rfl, le_refl _, (indices_spec hw ha).1, ?_⟩
    intro F hF hM
    exact absurd hM (hN F hF)

theorem again_aux {σ : Type} {T T' : Tree} (hw : 0 < T.width) (hT : T'.dim = T.dim ∧ T'.maxLevel = T.maxLevel ∧ T'.width = T.width) {g : GenParam} {gen gen' : GenArgs → σ}
    {H : PFile σ} {κ : Int} (hnl : H.nlayer = g.nlayer) (ha : Aligned T H κ) (hr : H.reltol ≤ T'.reltol) :
    idFile T' g gen' true (some (fileOf T g gen H κ)) = .ok (ppOf T g gen H κ, some (fileOf T g gen H κ)) := by
  obtain ⟨hd, hml, hwd⟩ := hT
  obtain ⟨i1, ⟨δ, hδ, hlog⟩, i2, i3, _⟩ := indices_spec hw ha
  have hs1 := start_nonpos T κ
  have hs2 := start_le T κ
  set F' := fileOf T g gen H κ with hF'
  have hw' : 0 < T'.width := by rw [hwd]; exact hw
  have hM' : F'.minL = (indices T H).minL := rfl
  have hlen : (F'.sets.length : Int) = max κ (H.sets.length - 1) - start T κ + 1 := by rw [hF']; unfold fileOf; simp; omega
  have hpM : ptMaxL T' = ptMaxL T := by rw [maxL_eq, maxL_eq, hwd]
  have hpm : ptMinL T' = ptMinL T := by unfold ptMinL; rw [hwd, hml]
  have ha' : Aligned T' F' (κ - start T κ) := by
    refine ⟨i1, ?_⟩
    rw [hM', hpM, log2_div (ptMaxL_pos hw) i1, log2_maxL hw, hlog]
    push_cast
    rw [show (κ : ℝ) - start T κ - (log2 T.width - 3 - (log2 T.width - 3 - κ + start T κ + δ)) = δ by ring]
    exact hδ
  have hmat : Matches T' g F' := ⟨hd.symm, hr, hnl, κ - start T κ, by have := ha'.2; rw [maxL_eq] at this; exact this⟩
  have hrun := idFile_run hw' g gen' true (some F') (H := F') (header_of_matches i1 hmat) ha'
  rw [hrun]
  have hst : start T' (κ - start T κ) = 0 := by
    unfold start at hs2 ⊢
    rw [hml]
    omega
  have hpp0 : ∀ i : Nat, (i : Int) < F'.sets.length → pp0Of T' g gen' F' (κ - start T κ) i = pp0Of T g gen H κ i := by
    intro i hi
    rw [pp0Of, hst, if_pos (by omega), Int.add_zero, Int.toNat_natCast]
    have : F'.sets[i]? = some (pp0Of T g gen H κ i) := by
      rw [hF']
      unfold fileOf
      dsimp only
      rw [List.getElem?_map, List.getElem?_range (by omega)]
      rfl
    rw [this]
    rfl
  congr 2
  · funext l
    unfold ppOf
    rw [hml, hst]
    by_cases h : 2 ≤ l ∧ l ≤ T.maxLevel
    · rw [if_pos h, if_pos h]
      rw [hpp0 _ (by omega)]
      congr 2
      omega
    · rw [if_neg h, if_neg h]
  · rw [if_pos rfl]
    congr 1
    have hmin : (indices T' F').minL = F'.minL := by
      show min (ptMinL T') F'.minL = F'.minL
      rw [hpm, hM']
      apply min_eq_right
      exact min_le_left _ _
    have hnum : max (κ - start T κ) (F'.sets.length - 1) - 0 + 1 = F'.sets.length := by omega
    unfold fileOf
    rw [hst, hmin, hnum, hd]
    rw [hF']
    unfold fileOf
    congr 1
    apply List.ext_getElem
    · rw [List.length_map, List.length_map, List.length_range, List.length_range]
      rfl
    · intro i h1 h2
      simp only [List.getElem_map, List.getElem_range]
      refine hpp0 i ?_
      rw [hF']; unfold fileOf
      simpa using h1

/-- C75: a second run with the file of a run, for the same points and any tolerance that is not smaller than the one in the first line of the file, reads all sets from the
file, computes none (`gen'` is arbitrary), returns the same sets and leaves the file as it is. -/
theorem C75_again {σ : Type} (T T' : Tree) (hw : 0 < T.width) (hT : T'.dim = T.dim ∧ T'.maxLevel = T.maxLevel ∧ T'.width = T.width) (g : GenParam) (gen gen' : GenArgs → σ)
    (file : Option (PFile σ)) (hm : ∀ F, file = some F → 0 < F.minL) (pp : Nat → Option σ) (F' : PFile σ) (h : idFile T g gen true file = .ok (pp, some F'))
    (hr : F'.reltol ≤ T'.reltol) : idFile T' g gen' true (some F') = .ok (pp, some F') := by
  rcases header_cases hw g file hm with ⟨F, κ, hF, hM, hH, ha⟩ | ⟨hN, hH⟩
  · have hrun := idFile_run hw g gen true file hH ha
    rw [h, Res.ok.injEq, Prod.mk.injEq, if_pos rfl, Option.some.injEq] at hrun
    obtain ⟨rfl, rfl⟩ := hrun
    exact again_aux hw hT hM.2.2.1 ha hr
  · have ha := header_none_aligned (σ := σ) hw g
    have hrun := idFile_run hw g gen true file hH ha
    rw [h, Res.ok.injEq, Prod.mk.injEq, if_pos rfl, Option.some.injEq] at hrun
    obtain ⟨rfl, rfl⟩ := hrun
    exact again_aux hw hT rfl ha hr

/-- C75: the first line keeps the tolerance of the old file although sets computed with the larger tolerance of the run are added.  So a later run that asks for the smaller
tolerance gets them: for every matching file with `reltol0 < reltol` that lacks a level, the sets that were computed with `reltol` are returned to a run with the
tolerance `reltol0`, and nothing is computed. -/
theorem C75_loose {σ : Type} (T : Tree) (hw : 0 < T.width) (g : GenParam) (hg : 2 ≤ g.nlayer ∧ g.nlayer ≤ 1000) (gen gen' : GenArgs → σ) (F : PFile σ) (hm : 0 < F.minL)
    (hM : Matches T g F) (l : Nat) (h2 : 2 ≤ l) (hl : l ≤ T.maxLevel) (hno : ∀ f < F.sets.length, ¬ Fits (2 * F.minL * 2 ^ f) (T.width / 2 ^ l)) :
    ∃ pp F' a, idFile T g gen true (some F) = .ok (pp, some F') ∧ idFile { T with reltol := F.reltol } g gen' true (some F') = .ok (pp, some F') ∧
      pp l = some (gen a) ∧ a.reltol = T.reltol := by
  obtain ⟨κ, hκ⟩ := hM.2.2.2
  have ha : Aligned T F κ := ⟨hm, by rw [maxL_eq]; exact hκ⟩
  have hrun := idFile_run hw g gen true (some F) (header_of_matches hm hM) ha
  rw [if_pos rfl] at hrun
  obtain ⟨pp, file', e1, _, e2⟩ := C75_levels T hw g hg gen true (some F) (fun F' hF' => by cases hF'; exact hm)
  rw [e1, Res.ok.injEq, Prod.mk.injEq] at hrun
  obtain ⟨rfl, rfl⟩ := hrun
  obtain ⟨a, a1, a2, _⟩ := (e2 l h2 hl).2 (fun F' hF' _ => by cases hF'; exact hno)
  exact ⟨_, _, a, e1, again_aux (T' := { T with reltol := F.reltol }) hw ⟨rfl, rfl, rfl⟩ hM.2.2.1 ha (le_refl _), a1, a2.1⟩

/-- C75: the text of the file has twelve digits after the point for `minL`.  When half of the width of the smallest box is below `5e-13`, zero is written, and the next run with
this file converts an infinity to `int`. -/
theorem C75_tiny {σ : Type} (T : Tree) (hw : 0 < T.width) (g : GenParam) (gen : GenArgs → σ) (F : PFile σ) (hd : F.dim = T.dim) (hr : F.reltol ≤ T.reltol) (hn : F.nlayer = g.nlayer)
    (h0 : 0 < F.minL) (h1 : F.minL < 1 / (2 * 10 ^ 12)) : idFile T g gen true (some { F with minL := textMinL F.minL }) = .ub := by
  have ht : textMinL F.minL = 0 := by
    unfold textMinL
    rw [dround_near (n := 0)]
    · simp
    · rw [Int.cast_zero, zero_sub, abs_neg, abs_of_pos (by positivity)]
      rw [lt_div_iff₀ (by norm_num)] at h1
      linarith
  have hu : usable T g { F with minL := textMinL F.minL } = true := by
    unfold usable
    dsimp only
    rw [ht]
    simp [hd, hr, hn]
  have hh : header T g (if true = true then some { F with minL := textMinL F.minL } else none) = { F with minL := textMinL F.minL } := by
    unfold header
    rw [if_pos rfl]
    dsimp only
    rw [if_pos hu]
  unfold idFile
  refine if_pos (Or.inl ?_)
  rw [hh, ht]

/-- C75: values of `minL` with at most twelve digits after the point are written exactly. -/
theorem C75_text (x : ℝ) (n : Int) (hx : x = n / 10 ^ 12) : textMinL x = x := by
  unfold textMinL
  rw [hx, div_mul_cancel₀ _ (by norm_num), dround_near (n := n) (by simp)]

/-! ## An example: a tree with the levels 0 to 3 over a box of width 2, a file with one set, for boxes of width 1/2, computed with the tolerance 1e-8 -/

noncomputable def exT : Tree := ⟨3, 3, 1 / 10 ^ 6, 2⟩
def exP : GenParam := ⟨0, 1000, 4000, 8, 4⟩
noncomputable def exF : PFile Nat := ⟨3, 1 / 10 ^ 8, 8, 1 / 4, [77]⟩

theorem exF_matches : Matches exT exP exF := by
  refine ⟨rfl, ?_, rfl, 0, ?_⟩
  · unfold exF exT; norm_num
  · unfold exF exT log2; norm_num

theorem exF_fits : Fits (2 * exF.minL * 2 ^ 0) (exT.width / 2 ^ 2) := by
  unfold Fits exF exT; norm_num

theorem exF_not_fits : ∀ f < exF.sets.length, ¬ Fits (2 * exF.minL * 2 ^ f) (exT.width / 2 ^ 3) := by
  intro f hf
  have hf : f = 0 := by change f < 1 at hf; omega
  subst hf
  unfold Fits
  have e : (2 * exF.minL * 2 ^ 0) = (exT.width / 2 ^ 3) * 2 := by unfold exF exT; norm_num
  have hp : 0 < exT.width / 2 ^ 3 := by unfold exT; norm_num
  rw [e, log2_mul hp (by norm_num), add_sub_cancel_left]
  have : log2 2 = 1 := by unfold log2; norm_num
  rw [this]
  norm_num

/-- Level 2 gets the set of the file, level 3 one that is computed for boxes of width 1/4. -/
example (gen : GenArgs → Nat) : ∃ pp file' a, idFile exT exP gen true (some exF) = .ok (pp, file') ∧ pp 1 = none ∧ pp 2 = some 77 ∧ pp 3 = some (gen a) ∧ Fits a.L1 (2 / 2 ^ 3) := by
  obtain ⟨pp, file', h, h1, h2⟩ := C75_levels exT (by unfold exT; norm_num) exP (by decide) gen true (some exF) (by intro F h; cases h; unfold exF; norm_num)
  obtain ⟨a, ha, hb, _⟩ := (h2 3 (by decide) (le_refl 3)).2 (fun F hF _ => by cases hF; exact exF_not_fits)
  exact ⟨pp, file', a, h, h1 1 (by decide), (h2 2 (le_refl 2) (by decide)).1 exF rfl exF_matches 0 77 rfl exF_fits, ha, hb.2.1⟩

/-- The set that was computed with the tolerance 1e-6 is used for the tolerance 1e-8. -/
example (gen gen' : GenArgs → Nat) : ∃ pp F' a, idFile exT exP gen true (some exF) = .ok (pp, some F') ∧ idFile { exT with reltol := 1 / 10 ^ 8 } exP gen' true (some F') = .ok (pp, some F') ∧
    pp 3 = some (gen a) ∧ a.reltol = 1 / 10 ^ 6 :=
  C75_loose exT (by unfold exT; norm_num) exP (by decide) gen gen' exF (by unfold exF; norm_num) exF_matches 3 (by decide) (le_refl 3) exF_not_fits

/-- Without a file all levels are computed. -/
example (gen : GenArgs → Nat) : ∃ pp file' a b, idFile exT exP gen false none = .ok (pp, file') ∧ pp 2 = some (gen a) ∧ a.L1 = 2 / 2 ^ 2 ∧ pp 3 = some (gen b) ∧ b.L1 = 2 / 2 ^ 3 := by
  obtain ⟨pp, file', h, h1, h2⟩ := C75_levels exT (by unfold exT; norm_num) exP (by decide) gen false none (by intro F h; cases h)
  obtain ⟨a, ha, _, hc⟩ := (h2 2 (le_refl 2) (by decide)).2 (fun F hF _ => by cases hF)
  obtain ⟨b, hb, _, hd⟩ := (h2 3 (by decide) (le_refl 3)).2 (fun F hF _ => by cases hF)
  exact ⟨pp, file', a, b, h, ha, hc (fun F hF => by cases hF), hb, hd (fun F hF => by cases hF)⟩

/-- A first run that writes a file and a second run that reads it. -/
example (gen gen' : GenArgs → Nat) : ∃ pp F', idFile exT exP gen true none = .ok (pp, some F') ∧ idFile exT exP gen' true (some F') = .ok (pp, some F') := by
  obtain ⟨pp, F', h, _, _, h3, _⟩ := C75_file exT (by unfold exT; norm_num) exP gen none (by intro F h; cases h)
  exact ⟨pp, F', h, C75_again exT exT (by unfold exT; norm_num) ⟨rfl, rfl, rfl⟩ exP gen gen' none (by intro F h; cases h) pp F' h h3⟩

/-- A file for boxes of width `2e-13`. -/
example (gen : GenArgs → Nat) : idFile exT exP gen true (some { exF with minL := textMinL (1 / 10 ^ 13) }) = .ub := by
  have := C75_tiny exT (by unfold exT; norm_num) exP gen { exF with minL := 1 / 10 ^ 13 } rfl exF_matches.2.1 rfl (by norm_num) (by norm_num)
  exact this

end H2Pack.Proxy
