import Verif.Proof.RankEst3
import Verif.Props.Nystrom
import Verif.Props.FSAI
import Mathlib.Tactic.NormNum
import Mathlib.Tactic.FinCases
import Mathlib.Tactic.IntervalCases
import Mathlib.Analysis.Matrix.Spectrum

/-! # C78: the estimated rank, and the whole construction of the AFN preconditioner -/

namespace H2Pack.AFN
open Matrix
open H2Pack.ULV (lapack_exists)
open H2Pack.Utils (sampleLoop sampleLoop_ok sampleLoop_mono sampleLoop_fair sampleLoop_not_ub)

theorem bindR {α β : Type} {x : Res α} {f : α → Res β} {b : β} (h : x.bind f = .ok b) : ∃ a, x = .ok a ∧ f a = .ok b := by
  cases x with
  | ok a => exact ⟨a, rfl, h⟩
  | ub => exact absurd h (by simp [Res.bind])
  | diverge => exact absurd h (by simp [Res.bind])

theorem SampleRank.range {I : RankIn} {ρ : Nat} (h : SampleRank I ρ) : 1 ≤ ρ ∧ ρ ≤ I.ss := by
  obtain ⟨s, p, _, _, x, _, h, _⟩ := h
  exact ⟨h.1, h.2.choose⟩

theorem rankScaled_ok {I : RankIn} (hI : RankOk I) {fr u : Nat} {a : Nat × Nat} (h : rankScaled I fr u = .ok a) : MaxScaled (SampleRank I) I.nRep I.npt I.ss a.1 := by
  unfold rankScaled at h
  rw [if_neg (by have := hI.ss1; have := hI.ssn; omega)] at h
  obtain ⟨b, hb, hc⟩ := bindR h
  obtain ⟨ρ, h1, h2⟩ := repLoop_ok (P := SampleRank I) (fun rep u a h => scaledRep_ok hI h) _ _ _ _ _ hb
  rw [Res.ok.injEq] at hc
  subst hc
  exact ⟨ρ, h1, by rw [Nat.zero_max] at h2; simp only [scaleUp, h2]⟩

theorem rankNys_ok {I : RankIn} (hI : RankOk I) (hr : 1 ≤ I.nRep) {fr u : Nat} {a : Nat × Nat} (h : rankNys I fr u = .ok a) :
    I.ss ≤ I.maxK ∧ MaxScaled (SampleCount I) I.nRep I.maxK I.ss a.1 := by
  unfold rankNys at h
  rw [if_neg (by have := hI.ss1; omega)] at h
  obtain ⟨b, hb, hc⟩ := bindR h
  obtain ⟨ρ, h1, h2⟩ := repLoop_ok (P := fun c => I.ss ≤ I.maxK ∧ SampleCount I c) (fun rep u a h => ⟨(nysRep_ok hI h).1, (nysRep_ok hI h).2.1⟩) _ _ _ _ _ hb
  rw [Res.ok.injEq] at hc
  subst hc
  have hm := (h1 ⟨0, hr⟩).1
  refine ⟨hm, ρ, fun i => (h1 i).2, ?_⟩
  rw [Nat.zero_max] at h2
  simp only [scaleUp, h2, max_eq_left hm]

theorem MaxScaled.le {P : Nat → Prop} {n a b r : Nat} (h : MaxScaled P n a b r) (hb : 1 ≤ b) {t : Nat} (hP : ∀ c, P c → c * a ≤ t * b) : r ≤ t := by
  obtain ⟨ρ, h1, h2⟩ := h
  rw [h2]
  apply Nat.ceil_le.2
  have hs : (Finset.univ.sup ρ) * a ≤ t * b := by
    rcases Nat.eq_zero_or_pos n with h0 | h0
    · subst h0; simp
    · obtain ⟨i, _, hi⟩ := Finset.exists_mem_eq_sup (Finset.univ : Finset (Fin n)) ⟨⟨0, h0⟩, Finset.mem_univ _⟩ ρ
      rw [hi]
      exact hP _ (h1 i)
  have hb' : (0 : ℝ) < b := by exact_mod_cast hb
  rw [div_le_iff₀ hb']
  exact_mod_cast hs

theorem MaxScaled.gt {P : Nat → Prop} {n a b r : Nat} (h : MaxScaled P n a b r) (hn : 1 ≤ n) (hb : 1 ≤ b) {t : Nat} (hP : ∀ c, P c → t * b < c * a) : t < r := by
  obtain ⟨ρ, h1, h2⟩ := h
  rw [h2]
  apply Nat.lt_ceil.2
  have hs : t * b < (Finset.univ.sup ρ) * a := lt_of_lt_of_le (hP _ (h1 ⟨0, hn⟩)) (Nat.mul_le_mul_right _ (Finset.le_sup (f := ρ) (Finset.mem_univ _)))
  have hb' : (0 : ℝ) < b := by exact_mod_cast hb
  rw [lt_div_iff₀ hb']
  exact_mod_cast hs

/-- **C78** The binary search, for any kernel and any behaviour of LAPACK: the result is a number of landmarks between 1 and `ss_npt` for which the test succeeds (or it
is `ss_npt`) and for which one landmark less fails (or it is 1). -/
theorem C78_search (Lp : H2Pack.ULV.Lapack ℝ) (n : Nat) (hn : 1 ≤ n) (ks : Nat → Nat → ℝ) :
    ∃ r, r = bsearch (rankTest Lp n ks) 1 n ∧ 1 ≤ r ∧ r ≤ n ∧ (r = n ∨ rankTest Lp n ks r = true) ∧ (r = 1 ∨ rankTest Lp n ks (r - 1) = false) :=
  ⟨_, rfl, bsearch_spec (rankTest Lp n ks) _ 1 n rfl hn⟩

/-- **C78** (the estimate).  For a positive semidefinite kernel: if the rank estimation returns `est`, then either `est` is larger than `max_k` and it is the maximum, over the
repetitions, of the smallest number of farthest points of a scaled random sample whose Nyström approximation has a relative error below 0.1, scaled from the sample to all points;
or that number is at most `max_k`, and `est` is the maximal number of eigenvalues of the kernel matrix of a random sample that are above `mu / 10`, scaled from the sample to
`max_k`. -/
theorem C78_rank {I : RankIn} (hI : RankOk I) (hr : 1 ≤ I.nRep) {fr est : Nat} (h : rankEst I fr 0 = .ok est) :
    (I.maxK < est ∧ MaxScaled (SampleRank I) I.nRep I.npt I.ss est) ∨
    (∃ s ≤ I.maxK, MaxScaled (SampleRank I) I.nRep I.npt I.ss s) ∧ I.ss ≤ I.maxK ∧ MaxScaled (SampleCount I) I.nRep I.maxK I.ss est := by
  unfold rankEst at h
  obtain ⟨a, ha, hb⟩ := bindR h
  have h1 := rankScaled_ok hI ha
  by_cases hc : a.1 > I.maxK
  · rw [if_pos hc, Res.ok.injEq] at hb
    subst hb
    exact Or.inl ⟨hc, h1⟩
  · rw [if_neg hc] at hb
    obtain ⟨b, hb', hd⟩ := bindR hb
    rw [Res.ok.injEq] at hd
    subst hd
    obtain ⟨h2, h3⟩ := rankNys_ok hI hr hb'
    exact Or.inr ⟨⟨a.1, by omega, h1⟩, h2, h3⟩

theorem count_le {I : RankIn} (hI : RankOk I) {c : Nat} (h : SampleCount I c) : c ≤ I.ss := by
  obtain ⟨s, hs, hc⟩ := h
  rw [kmat_zero_mf, ← count_above hI.lq I.ss _ (fun i _ j _ => hI.psd.symm _ _) I.mu] at hc
  rw [hc]
  exact le_trans List.countP_le_length (by rw [List.length_range])

/-- **C78** (range).  The estimate is at most the number of points or at most `max_k`, and if it is not above `max_k` it is at most `max_k`. -/
theorem C78_range {I : RankIn} (hI : RankOk I) (hr : 1 ≤ I.nRep) {fr est : Nat} (h : rankEst I fr 0 = .ok est) : (I.maxK < est ∧ est ≤ I.npt) ∨ est ≤ I.maxK := by
  rcases C78_rank hI hr h with ⟨h1, h2⟩ | ⟨_, _, h2⟩
  · exact Or.inl ⟨h1, h2.le hI.ss1 fun c hc => by rw [Nat.mul_comm]; exact Nat.mul_le_mul_left _ hc.range.2⟩
  · exact Or.inr (h2.le hI.ss1 fun c hc => by rw [Nat.mul_comm]; exact Nat.mul_le_mul_left _ (count_le hI hc))

theorem scaled_returns {I : RankIn} (hI : RankOk I) (hfair : ∀ m < I.npt, ∀ N, ∃ t ≥ N, I.rb t % I.npt = m) (u : Nat) : ∃ F a, ∀ fr ≥ F, rankScaled I fr u = .ok a := by
  obtain ⟨F, a, _, h⟩ := repLoop_spec (f := scaledRep I) (P := SampleRank I) (by
    intro rep u
    obtain ⟨F, s, hs⟩ := sample_returns hI hfair u
    obtain ⟨ρ, h1, h2⟩ := scaledRep_of hI (rep := rep) (hs F (le_refl _))
    exact ⟨F, (ρ, s.2), h1, fun fr hfr => h2 fr (hs fr hfr)⟩) I.nRep 0 0 u
  refine ⟨F, (scaleUp a.1 I.npt I.ss, a.2), fun fr hfr => ?_⟩
  unfold rankScaled
  rw [if_neg (by have := hI.ss1; have := hI.ssn; omega), h fr hfr]
  rfl

theorem nys_returns {I : RankIn} (hI : RankOk I) (hm : I.ss ≤ I.maxK) (hfair : ∀ m < I.npt, ∀ N, ∃ t ≥ N, I.rb t % I.npt = m) (u : Nat) : ∃ F a, ∀ fr ≥ F, rankNys I fr u = .ok a := by
  obtain ⟨F, a, _, h⟩ := repLoop_spec (f := nysRep I (max I.maxK I.ss)) (P := fun _ => True) (by
    intro rep u
    obtain ⟨F, s, hs⟩ := sample_returns hI hfair u
    obtain ⟨ρ, _, _, h2⟩ := nysRep_of hI hm (rep := rep) (hs F (le_refl _))
    exact ⟨F, (ρ, s.2), trivial, fun fr hfr => h2 fr (hs fr hfr)⟩) I.nRep 0 0 u
  refine ⟨F, (scaleUp a.1 (max I.maxK I.ss) I.ss, a.2), fun fr hfr => ?_⟩
  unfold rankNys
  rw [if_neg (by have := hI.ss1; omega)]
  dsimp only
  rw [h fr hfr]
  rfl

/-- **C78** (termination).  If `ss_npt ≤ max_k` and the random numbers hit every residue again and again, the estimation returns. -/
theorem C78_returns {I : RankIn} (hI : RankOk I) (hm : I.ss ≤ I.maxK) (hfair : ∀ m < I.npt, ∀ N, ∃ t ≥ N, I.rb t % I.npt = m) : ∃ est, Returns (fun fr => rankEst I fr 0) est := by
  obtain ⟨F, a, h⟩ := scaled_returns hI hfair 0
  obtain ⟨F', b, h'⟩ := nys_returns hI hm hfair a.2
  by_cases hc : a.1 > I.maxK
  · refine ⟨a.1, F, fun fr hfr => ?_⟩
    show rankEst I fr 0 = _
    unfold rankEst
    rw [h fr hfr, Res.bind_ok, if_pos hc]
  · refine ⟨b.1, max F F', fun fr hfr => ?_⟩
    show rankEst I fr 0 = _
    unfold rankEst
    rw [h fr (le_trans (le_max_left _ _) hfr), Res.bind_ok, if_neg hc, h' fr (le_trans (le_max_right _ _) hfr)]
    rfl

/-- **C78** (buffer overflow).  If `ss_npt > max_k`, and the ranks found in the first step give an estimate of at most `max_k`, the second step stores `ss_npt` eigenvalues in an
array with `max_k` entries: undefined behaviour for every sequence of random numbers that lets the sampling end. -/
theorem C78_overflow {I : RankIn} (hI : RankOk I) (hr : 1 ≤ I.nRep) (hm : I.maxK < I.ss) (hfair : ∀ m < I.npt, ∀ N, ∃ t ≥ N, I.rb t % I.npt = m)
    (hs : ∀ ρ, SampleRank I ρ → ρ * I.npt ≤ I.maxK * I.ss) : ∃ F, ∀ fr ≥ F, rankEst I fr 0 = .ub := by
  obtain ⟨F, a, h⟩ := scaled_returns hI hfair 0
  obtain ⟨F', s, h'⟩ := sample_returns hI hfair a.2
  refine ⟨max F F', fun fr hfr => ?_⟩
  have ha := h fr (le_trans (le_max_left _ _) hfr)
  have hle : a.1 ≤ I.maxK := (rankScaled_ok hI ha).le hI.ss1 hs
  unfold rankEst
  rw [ha, Res.bind_ok, if_neg (by omega)]
  unfold rankNys
  rw [if_neg (by have := hI.ss1; omega)]
  obtain ⟨k, hk⟩ : ∃ k, I.nRep = k + 1 := ⟨I.nRep - 1, by omega⟩
  dsimp only
  rw [hk, repLoop]
  have : nysRep I (max I.maxK I.ss) fr 0 a.2 = .ub := by
    unfold nysRep
    rw [h' fr (le_trans (le_max_right _ _) hfr), Res.bind_ok]
    dsimp only
    rw [if_pos hm]
  rw [this]
  rfl

/-- **C78** (too few points).  With `ss_npt` larger than the number of points the first random sampling never ends. -/
theorem C78_too_few_points (I : RankIn) (hr : 1 ≤ I.nRep) (hn : 1 ≤ I.npt) (hs : I.npt < I.ss) (fr : Nat) : rankEst I fr 0 = .diverge := by
  have hd : sampleLoop I.rb I.npt fr I.ss (fun _ => false) 0 = .diverge := by
    cases h : sampleLoop I.rb I.npt fr I.ss (fun _ => false) 0 with
    | diverge => rfl
    | ub => exact absurd h (sampleLoop_not_ub hn)
    | ok s =>
      have := (sample_facts h).le
      omega
  unfold rankEst rankScaled
  rw [if_neg (by omega)]
  obtain ⟨k, hk⟩ : ∃ k, I.nRep = k + 1 := ⟨I.nRep - 1, by omega⟩
  rw [hk, repLoop]
  unfold scaledRep
  rw [hd]
  rfl

/-! ## The whole construction -/

theorem kmat_psd {kf : (Nat → ℝ) → (Nat → ℝ) → ℝ} (h : PSDKernel kf) (n : Nat) (x : Nat → Nat → ℝ) : (kmat kf 0 n x).PosSemidef := by
  have := h n fun i d => x d i
  have e : kmat kf 0 n x = Matrix.of fun i j : Fin n => kf (fun d => x d i) (fun d => x d j) := by
    ext i j
    simp [kmat]
  rw [e]
  exact this

theorem nAbove_eq {n : Nat} {A : Matrix (Fin n) (Fin n) ℝ} (hA : A.IsHermitian) (t : ℝ) : nAbove A t = (Finset.univ.filter fun i => t < hA.eigenvalues i).card := by
  unfold nAbove
  rw [hA.roots_charpoly_eq_eigenvalues, Multiset.filter_map, Multiset.card_map]
  rfl

/-- A positive semidefinite matrix with small trace has no large eigenvalue. -/
theorem nAbove_zero {n : Nat} {A : Matrix (Fin n) (Fin n) ℝ} (hA : A.PosSemidef) {t : ℝ} (h : A.trace ≤ t) : nAbove A t = 0 := by
  rw [nAbove_eq hA.1, Finset.card_eq_zero, Finset.filter_eq_empty_iff]
  intro i _ hi
  have h1 := hA.1.trace_eq_sum_eigenvalues
  have h2 : hA.1.eigenvalues i ≤ ∑ j, hA.1.eigenvalues j := Finset.single_le_sum (f := hA.1.eigenvalues) (fun j _ => hA.eigenvalues_nonneg j) (Finset.mem_univ i)
  simp only [RCLike.ofReal_real_eq_id, id_eq] at h1
  linarith

/-- A matrix with large trace has a large eigenvalue. -/
theorem nAbove_pos {n : Nat} {A : Matrix (Fin n) (Fin n) ℝ} (hA : A.IsHermitian) {t : ℝ} (h : n * t < A.trace) : 1 ≤ nAbove A t := by
  rw [nAbove_eq hA, Nat.one_le_iff_ne_zero, Ne, Finset.card_eq_zero, Finset.filter_eq_empty_iff]
  intro hc
  have h1 := hA.trace_eq_sum_eigenvalues
  simp only [RCLike.ofReal_real_eq_id, id_eq] at h1
  have h2 : ∑ j, hA.eigenvalues j ≤ ∑ _j : Fin n, t := Finset.sum_le_sum fun j hj => not_lt.1 (hc hj)
  simp at h2
  linarith

theorem kmat_trace (kf : (Nat → ℝ) → (Nat → ℝ) → ℝ) (n : Nat) (x : Nat → Nat → ℝ) : (kmat kf 0 n x).trace = ∑ i : Fin n, kf (fun d => x d i) (fun d => x d i) := by
  simp [Matrix.trace, kmat]

theorem count_zero {I : RankIn} (hI : RankOk I) (h : ∀ x, I.ss * I.kf x x ≤ I.mu / 10) (c : Nat) (hc : SampleCount I c) : c = 0 := by
  obtain ⟨s, _, rfl⟩ := hc
  apply nAbove_zero (kmat_psd hI.psd _ _)
  rw [kmat_trace]
  have hs : (0 : ℝ) < I.ss := by exact_mod_cast hI.ss1
  have : ∀ x, I.kf x x ≤ I.mu / 10 / I.ss := fun x => by rw [le_div_iff₀ hs, mul_comm]; exact h x
  refine le_trans (Finset.sum_le_sum fun i _ => this _) ?_
  simp only [Finset.sum_const, Finset.card_univ, Fintype.card_fin, nsmul_eq_mul]
  rw [mul_div_cancel₀ _ hs.ne']

theorem count_pos {I : RankIn} (hI : RankOk I) (h : ∀ x, I.mu / 10 < I.kf x x) (c : Nat) (hc : SampleCount I c) : 1 ≤ c := by
  obtain ⟨s, _, rfl⟩ := hc
  apply nAbove_pos (kmat_psd hI.psd _ _).1
  rw [kmat_trace]
  have : ∑ _i : Fin I.ss, I.mu / 10 < ∑ i : Fin I.ss, I.kf (fun d => scaledPts I.coord s (((I.ss : ℝ) / I.maxK) ^ (1 / (I.dim : ℝ))) d i) (fun d => scaledPts I.coord s (((I.ss : ℝ) / I.maxK) ^ (1 / (I.dim : ℝ))) d i) :=
    Finset.sum_lt_sum_of_nonempty ⟨⟨0, hI.ss1⟩, Finset.mem_univ _⟩ fun i _ => h _
  simp only [Finset.sum_const, Finset.card_univ, Fintype.card_fin, nsmul_eq_mul] at this
  exact this

/-- **C78** (zero rank).  If no sample has an eigenvalue above `mu / 10` (a large diagonal shift) and the first step does not ask for AFN, the estimate is 0 and the construction
reads `S[-1]`. -/
theorem C78_rank_zero {I : RankIn} (hI : RankOk I) (hr : 1 ≤ I.nRep) (hm : 1 ≤ I.maxK) {fr est : Nat} (h : rankEst I fr 0 = .ok est) (he : est ≤ I.maxK) (h0 : ∀ c, SampleCount I c → c = 0)
    (orders : Nat → List Nat) (ho : ∀ i, (orders i).Perm (List.range I.nThread)) (st : FpsSt ℝ) (fsai : Nat) (order : List Nat) (ev : CsrEnv) (fuel : Nat) :
    est = 0 ∧ buildAll I orders st fsai order ev fr fuel = .ub := by
  have e0 : est = 0 := by
    rcases C78_rank hI hr h with ⟨h1, _⟩ | ⟨_, _, h2⟩
    · omega
    · have := h2.le hI.ss1 (t := 0) fun c hc => by rw [h0 c hc]; simp
      omega
  refine ⟨e0, ?_⟩
  subst e0
  obtain ⟨perm, hp, -⟩ := C65_order (⟨I.npt, I.dim, I.coord, I.nThread, I.big⟩ : FpsIn ℝ) hI.t1 (hI.t2.trans hI.ssn) hI.big 0 (Nat.zero_le _) (Nat.zero_le _) orders ho st
  have hl : landmarks 0 I.maxK = 0 := by rw [landmarks, if_pos (by omega)]
  unfold buildAll
  rw [h, Res.bind_ok, hl, if_neg (by omega), hp, Res.bind_ok, if_pos (by omega), Res.bind_ok]
  exact C69_rank_zero _ _ _ _ _ _ (by omega) _ _ _ _

/-- **C78** (large shift).  If the diagonal of the kernel is at most `mu / (10 ss_npt)` and `max_k` is not smaller than the number of points or the sample, the construction has
undefined behaviour for every sequence of random numbers that lets the sampling end, and every schedule. -/
theorem C78_large_shift {I : RankIn} (hI : RankOk I) (hr : 1 ≤ I.nRep) (hm : I.npt ≤ I.maxK) (hk : ∀ x, I.ss * I.kf x x ≤ I.mu / 10)
    (hfair : ∀ m < I.npt, ∀ N, ∃ t ≥ N, I.rb t % I.npt = m) (orders : Nat → List Nat) (ho : ∀ i, (orders i).Perm (List.range I.nThread)) (st : FpsSt ℝ) (fsai : Nat)
    (order : List Nat) (ev : CsrEnv) : ∃ F, ∀ fr ≥ F, ∀ fuel, buildAll I orders st fsai order ev fr fuel = .ub := by
  have h1 := hI.ss1
  have h2 := hI.ssn
  obtain ⟨est, F, h⟩ := C78_returns hI (by omega) hfair
  refine ⟨F, fun fr hfr fuel => ?_⟩
  have he : rankEst I fr 0 = .ok est := h fr hfr
  have hle : est ≤ I.maxK := by
    rcases C78_range hI hr he with ⟨a, b⟩ | h
    · omega
    · exact h
  exact (C78_rank_zero hI hr (by omega) he hle (count_zero hI hk) orders ho st fsai order ev fuel).2

/-- **C78** (`max_k` above the number of points).  If every sample has so many large eigenvalues that the scaled count exceeds the number of points, the number of landmarks is larger
than the number of points. -/
theorem C78_maxk_too_large {I : RankIn} (hI : RankOk I) (hr : 1 ≤ I.nRep) (hm : I.npt < I.maxK) {fr est : Nat} (h : rankEst I fr 0 = .ok est)
    (hc : ∀ c, SampleCount I c → I.npt * I.ss < c * I.maxK) (orders : Nat → List Nat) (st : FpsSt ℝ) (fsai : Nat) (order : List Nat) (ev : CsrEnv) (fuel : Nat) :
    I.npt < est ∧ buildAll I orders st fsai order ev fr fuel = .ub := by
  have e0 : I.npt < est := by
    rcases C78_rank hI hr h with ⟨h1, _⟩ | ⟨_, _, h2⟩
    · omega
    · exact h2.gt hr hI.ss1 hc
  refine ⟨e0, ?_⟩
  unfold buildAll
  rw [h, Res.bind_ok, if_pos]
  unfold landmarks
  split <;> omega

/-- **C78** (the whole construction).  For a positive semidefinite kernel with positive diagonal, `mu > 0`, `ss_npt ≤ max_k ≤` number of different points, fair random numbers and
samples with at least one eigenvalue above `mu / 10`, for every schedule of the threads: the construction returns a preconditioner with at most `max_k` landmarks, and applying it
multiplies with a symmetric positive definite matrix. -/
theorem C78_build {I : RankIn} (hI : RankOk I) (hr : 1 ≤ I.nRep) (hD : I.env.lp.Definite) (hQa : Ascending I.env.lq) (heps : 0 < I.env.eps) (hmu : 0 < I.mu)
    (hpos : ∀ x, 0 < I.kf x x) (hs : I.ss ≤ I.maxK) (hd : I.maxK ≤ nDistinct (⟨I.npt, I.dim, I.coord, I.nThread, I.big⟩ : FpsIn ℝ))
    (hfair : ∀ m < I.npt, ∀ N, ∃ t ≥ N, I.rb t % I.npt = m) (h0 : ∀ c, SampleCount I c → 1 ≤ c)
    (orders : Nat → List Nat) (ho : ∀ i, (orders i).Perm (List.range I.nThread)) (st : FpsSt ℝ) {fsai : Nat} (hf : 1 ≤ fsai) (order : List Nat)
    (hor : order.Perm (List.range (I.npt - I.maxK))) (ev : CsrEnv) (h1 : ev.ordG.Perm (List.range (I.npt - I.maxK))) (h2 : ev.ordGT.Perm (List.range (I.npt - I.maxK))) :
    ∃ (P : Precond) (B : Matrix (Fin I.npt) (Fin I.npt) ℝ), Returns (fun fuel => buildAll I orders st fsai order ev fuel fuel) (some P) ∧
      Applies P I.npt B ∧ B.PosDef ∧ 1 ≤ P.n1 ∧ P.n1 ≤ I.maxK := by
  have hdn : nDistinct (⟨I.npt, I.dim, I.coord, I.nThread, I.big⟩ : FpsIn ℝ) ≤ I.npt := by
    unfold nDistinct
    exact le_trans Finset.card_image_le (by simp)
  have hm : I.maxK ≤ I.npt := hd.trans hdn
  have hss := hI.ss1
  obtain ⟨est, F, hest'⟩ := C78_returns hI hs hfair
  have hest : ∀ fuel ≥ F, rankEst I fuel 0 = .ok est := hest'
  have he1 : 1 ≤ est := by
    rcases C78_rank hI hr (hest F (le_refl _)) with ⟨h1, _⟩ | ⟨_, _, h2⟩
    · omega
    · exact h2.gt hr hI.ss1 (t := 0) fun c hc => by have := h0 c hc; nlinarith
  have hl : landmarks est I.maxK ≤ I.maxK ∧ 1 ≤ landmarks est I.maxK := by unfold landmarks; split <;> omega
  obtain ⟨perm, hp, hord, -, -⟩ := C65_order (⟨I.npt, I.dim, I.coord, I.nThread, I.big⟩ : FpsIn ℝ) hI.t1 (hI.t2.trans hI.ssn) hI.big (landmarks est I.maxK)
    (hl.1.trans hm) (hl.1.trans hd) orders ho st
  have hk := hI.psd.symm
  by_cases hc : est < I.maxK
  · have hle : landmarks est I.maxK = est := by rw [landmarks, if_pos hc]
    have hn : (0 : ℝ) < Real.sqrt I.npt := Real.sqrt_pos.2 (by exact_mod_cast (by omega : 0 < I.npt))
    have hord' := order_facts hord
    obtain ⟨P, lo, hi, B, r, ap, _, _, _, pd⟩ := C69_nystrom I.env hI.lp hD hI.lq hQa heps hk (mu := I.mu) (n := I.npt) (coord := I.coord) hord hc he1 (by omega) rfl
      (hI.psd.posDef (mul_pos hn (hI.ulp _)) est fun d j => I.coord d (perm j)) (by
        intro hz
        have hp0 : perm 0 < I.npt := hord'.1 0 (by show 0 < I.npt; omega)
        have := congrFun (congrFun hz ⟨0, he1⟩) ⟨perm 0, hp0⟩
        exact absurd this (hpos _).ne') (fun _ => []) ev
    obtain ⟨F', hF'⟩ := r
    refine ⟨P, B, ⟨max F F', fun fuel hfu => ?_⟩, ap, (pd hmu).1, ?_⟩
    · show buildAll I orders st fsai order ev fuel fuel = _
      unfold buildAll
      rw [hest fuel (le_trans (le_max_left _ _) hfu), Res.bind_ok, if_neg (by omega), hp, Res.bind_ok, if_pos hc, Res.bind_ok]
      exact hF' fuel (le_trans (le_max_right _ _) hfu)
    · have := hF' F' (le_refl _)
      unfold precondBuild at this
      dsimp only at this
      rw [if_pos hc, if_pos hc] at this
      obtain ⟨N, _, hN⟩ := bindR this
      rw [Res.ok.injEq] at hN
      cases N with
      | none => simp at hN
      | some N =>
        simp only [Option.map_some, Option.some.injEq] at hN
        rw [← hN]
        exact ⟨he1, hc.le⟩
  · have hle : landmarks est I.maxK = I.maxK := by rw [landmarks, if_neg hc]
    rw [hle] at hp hl
    obtain ⟨nn, r, hnn⟩ := C66_exact_knn I.dim (fun d j => I.coord d (perm (I.maxK + j))) (I.npt - I.maxK) fsai hf
    obtain ⟨P, B, T, G, a1, a2, a3, -⟩ := C68_afn I.env hI.lp hD hk (hI.psd.posDef hmu I.npt I.coord) hord (not_lt.1 hc) hm (fun i hi => (hnn i hi).lower) ev h1 h2
    obtain ⟨F1, hF1⟩ := r order hor
    obtain ⟨F2, hF2⟩ := a1
    refine ⟨P, B, ⟨max F (max F1 F2), fun fuel hfu => ?_⟩, a2, a3, ?_⟩
    · show buildAll I orders st fsai order ev fuel fuel = _
      unfold buildAll
      rw [hest fuel (by omega), Res.bind_ok, hle, if_neg (by omega), hp, Res.bind_ok, if_neg hc, hF1 fuel (by omega), Res.bind_ok]
      exact hF2 fuel (by omega)
    · have := hF2 F2 (le_refl _)
      unfold precondBuild at this
      dsimp only at this
      rw [if_neg hc, if_neg hc] at this
      obtain ⟨N, _, hN⟩ := bindR this
      rw [Res.ok.injEq] at hN
      cases N with
      | none => simp at hN
      | some N =>
        simp only [Option.map_some, Option.some.injEq] at hN
        rw [← hN]
        exact ⟨hl.2, le_refl _⟩

/-! ## Non-vacuity -/

theorem psd_const : PSDKernel fun _ _ => (1 : ℝ) := by
  intro n x
  have e : (Matrix.of fun _ _ : Fin n => (1 : ℝ)) = Matrix.vecMulVec (fun _ => 1) (star fun _ => 1) := by
    ext i j
    simp [Matrix.vecMulVec]
  rw [e]
  exact Matrix.posSemidef_vecMulVec_self_star _

/-- Two points on a line, one thread. -/
noncomputable def exI (E : Env) (mu : ℝ) (maxK ss : Nat) : RankIn :=
  ⟨E, fun _ _ => 1, 2, 1, fun _ j => j, mu, maxK, ss, 3, 1, 100, fun _ _ => [0], fun _ => ⟨fun _ => 7, fun _ => -3, fun _ => 9, fun _ => 2, fun _ => 42, 17⟩, fun t => t⟩

theorem exI_ok {E : Env} (h1 : E.lp.Correct) (h2 : E.lq.Correct) (h3 : ∀ x, 0 < E.ulp x) (mu : ℝ) (maxK ss : Nat) (hs : 1 ≤ ss) (hs' : ss ≤ 2) : RankOk (exI E mu maxK ss) where
  lp := h1
  lq := h2
  ulp := h3
  psd := psd_const
  ss1 := hs
  ssn := hs'
  t1 := le_refl _
  t2 := hs
  orders := fun _ _ => List.Perm.refl _
  big := by
    intro i hi j hj
    have hi : i < 2 := hi
    have hj : j < 2 := hj
    unfold sqDist pos exI
    interval_cases i <;> interval_cases j <;> norm_num [Finset.sum_range_succ]

theorem exI_fair (E : Env) (mu : ℝ) (maxK ss : Nat) : ∀ m < (exI E mu maxK ss).npt, ∀ N, ∃ t ≥ N, (exI E mu maxK ss).rb t % (exI E mu maxK ss).npt = m := by
  intro m hm N
  have hm : m < 2 := hm
  exact ⟨2 * N + m, by omega, by show (2 * N + m) % 2 = m; omega⟩

/-- The construction works. -/
example : ∃ (E : Env) (P : Precond) (B : Matrix (Fin 2) (Fin 2) ℝ),
    Returns (fun fuel => buildAll (exI E 1 2 2) (fun _ => [0]) ⟨fun _ => 7, fun _ => -3, fun _ => 9, fun _ => 2, fun _ => 42, 17⟩ 1 [] ⟨fun _ => 7, fun _ => 7, [], []⟩ fuel fuel) (some P) ∧
      Applies P 2 B ∧ B.PosDef := by
  obtain ⟨Lp, hL, hD⟩ := lapack_exists
  obtain ⟨Lq, hQ, hA⟩ := ascending_exists
  have hI := exI_ok (E := ⟨Lp, Lq, fun _ => 1 / 1000, 1 / 1000⟩) hL hQ (fun _ => by norm_num) 1 2 2 (by omega) (le_refl _)
  obtain ⟨P, B, h1, h2, h3, -⟩ := C78_build hI (by show 1 ≤ 3; omega) hD hA (by show (0 : ℝ) < 1 / 1000; norm_num) (by show (0 : ℝ) < 1; norm_num) (fun _ => by show (0 : ℝ) < 1; norm_num)
    (le_refl _) (by
      show 2 ≤ ((Finset.range 2).image fun j => fun _ : Fin 1 => ((j : Nat) : ℝ)).card
      rw [Finset.card_image_of_injective _ fun a b hab => by have := congrFun hab 0; exact_mod_cast this]
      simp) (exI_fair _ _ _ _) (count_pos hI fun x => by show (1 : ℝ) / 10 < 1; norm_num) (fun _ => [0]) (fun _ => List.Perm.refl _)
      ⟨fun _ => 7, fun _ => -3, fun _ => 9, fun _ => 2, fun _ => 42, 17⟩ (le_refl 1) [] (List.Perm.refl _) ⟨fun _ => 7, fun _ => 7, [], []⟩ (List.Perm.refl _) (List.Perm.refl _)
  exact ⟨_, P, B, h1, h2, h3⟩

/-- A large shift. -/
example : ∃ E : Env, ∃ F, ∀ fr ≥ F, ∀ fuel,
    buildAll (exI E 100 2 2) (fun _ => [0]) ⟨fun _ => 7, fun _ => -3, fun _ => 9, fun _ => 2, fun _ => 42, 17⟩ 1 [] ⟨fun _ => 7, fun _ => 7, [], []⟩ fr fuel = .ub := by
  obtain ⟨Lp, hL, hD⟩ := lapack_exists
  obtain ⟨Lq, hQ, hA⟩ := ascending_exists
  have hI := exI_ok (E := ⟨Lp, Lq, fun _ => 1 / 1000, 1 / 1000⟩) hL hQ (fun _ => by norm_num) 100 2 2 (by omega) (le_refl _)
  exact ⟨_, C78_large_shift hI (by show 1 ≤ 3; omega) (le_refl _) (fun x => by show ((2 : ℕ) : ℝ) * 1 ≤ 100 / 10; norm_num) (exI_fair _ _ _ _) _ (fun _ => List.Perm.refl _) _ _ _ _⟩

/-- `max_k` is 3 for two points. -/
example : ∃ E : Env, ∃ F, ∀ fr ≥ F, ∀ fuel,
    buildAll (exI E 1 3 1) (fun _ => [0]) ⟨fun _ => 7, fun _ => -3, fun _ => 9, fun _ => 2, fun _ => 42, 17⟩ 1 [] ⟨fun _ => 7, fun _ => 7, [], []⟩ fr fuel = .ub := by
  obtain ⟨Lp, hL, hD⟩ := lapack_exists
  obtain ⟨Lq, hQ, hA⟩ := ascending_exists
  have hI := exI_ok (E := ⟨Lp, Lq, fun _ => 1 / 1000, 1 / 1000⟩) hL hQ (fun _ => by norm_num) 1 3 1 (by omega) (by omega)
  obtain ⟨est, F, h⟩ := C78_returns hI (by show 1 ≤ 3; omega) (exI_fair _ _ _ _)
  refine ⟨_, F, fun fr hfr fuel => (C78_maxk_too_large hI (by show 1 ≤ 3; omega) (by show 2 < 3; omega) (h fr hfr) (fun c hc => ?_) _ _ _ _ _ _).2⟩
  have := count_pos hI (fun x => by show (1 : ℝ) / 10 < 1; norm_num) c hc
  show 2 * 1 < c * 3
  omega

theorem const_rank {nu : ℝ} (n0 : 0 < nu) (n1 : nu ≤ 1 / 500) (x : Nat → Nat → ℝ) :
    frob (kmat (fun _ _ => (1 : ℝ)) nu 2 x - nysLead (kmat (fun _ _ => (1 : ℝ)) nu 2 x) 1 (by omega)) < 1 / 10 * frob (kmat (fun _ _ => (1 : ℝ)) nu 2 x) := by
  have hA : kmat (fun _ _ => (1 : ℝ)) nu 2 x = !![1 + nu, 1; 1, 1 + nu] := by
    ext i j
    fin_cases i <;> fin_cases j <;> simp [kmat]
  rw [hA]
  have hN : !![1 + nu, 1; 1, 1 + nu] - nysLead !![1 + nu, 1; 1, 1 + nu] 1 (by omega) = !![0, 0; 0, (1 + nu) - (1 + nu)⁻¹] := by
    have n2 : (1 + nu) ≠ 0 := by positivity
    have hi : ((!![1 + nu, 1; 1, 1 + nu] : Matrix (Fin 2) (Fin 2) ℝ).submatrix (Fin.castLE (by omega : 1 ≤ 2)) (Fin.castLE (by omega : 1 ≤ 2)))⁻¹ = !![(1 + nu)⁻¹] := by
      apply Matrix.inv_eq_right_inv
      ext i j
      fin_cases i
      fin_cases j
      simp [Matrix.mul_apply, n2]
    unfold nysLead
    rw [hi]
    ext i j
    fin_cases i <;> fin_cases j <;> simp [Matrix.mul_apply, n2]
  rw [hN]
  have b1 : frob !![0, 0; 0, (1 + nu) - (1 + nu)⁻¹] ≤ 3 * nu := by
    unfold frob
    apply Real.sqrt_le_iff.2
    refine ⟨by positivity, ?_⟩
    simp [Fin.sum_univ_two]
    have c1 : 1 - nu ≤ (1 + nu)⁻¹ := by
      rw [le_inv_comm₀ (by linarith) (by linarith), ← one_div, le_div_iff₀ (by linarith)]
      nlinarith
    have c2 : (1 + nu)⁻¹ ≤ 1 := inv_le_one_of_one_le₀ (by linarith)
    nlinarith
  have b2 : 1 ≤ frob !![1 + nu, 1; 1, 1 + nu] := by
    unfold frob
    apply Real.le_sqrt_of_sq_le
    simp [Fin.sum_univ_two]
    nlinarith
  linarith

/-- `max_k` is 1 for a sample of two points. -/
example : ∃ E : Env, ∃ F, ∀ fr ≥ F, rankEst (exI E 1 1 2) fr 0 = .ub := by
  obtain ⟨Lp, hL, hD⟩ := lapack_exists
  obtain ⟨Lq, hQ, hA⟩ := ascending_exists
  have hI := exI_ok (E := ⟨Lp, Lq, fun _ => 1 / 1000, 1 / 1000⟩) hL hQ (fun _ => by norm_num) 1 1 2 (by omega) (le_refl _)
  refine ⟨_, C78_overflow hI (by show 1 ≤ 3; omega) (by show 1 < 2; omega) (exI_fair _ _ _ _) fun ρ hρ => ?_⟩
  show ρ * 2 ≤ 1 * 2
  have : ρ ≤ 1 := by
    obtain ⟨s, p, _, _, x, _, h⟩ := hρ
    refine h.2 ⟨le_refl 1, (by show 1 ≤ 2; omega), ?_⟩
    refine const_rank (nu := Real.sqrt ((2 : ℕ) : ℝ) * (1 / 1000)) ?_ ?_ x
    · have hs0 : 0 < Real.sqrt ((2 : ℕ) : ℝ) := Real.sqrt_pos.2 (by norm_num)
      positivity
    · have hs2 : Real.sqrt ((2 : ℕ) : ℝ) ≤ 2 := Real.sqrt_le_iff.2 (by norm_num)
      generalize Real.sqrt ((2 : ℕ) : ℝ) = q at *
      linarith
  omega

/-- Three sample points of two. -/
example (E : Env) (fr : Nat) : rankEst (exI E 1 5 3) fr 0 = .diverge := C78_too_few_points _ (by show 1 ≤ 3; omega) (by show 1 ≤ 2; omega) (by show 2 < 3; omega) fr

end H2Pack.AFN
