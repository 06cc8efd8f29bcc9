import Verif.Proof.RankEst2
import Verif.Props.AFN

/-! # Samples and repetitions -/

namespace H2Pack.AFN
open Matrix
open H2Pack.ULV (Lapack mf)
open H2Pack.Utils (sampleLoop sampleLoop_ok sampleLoop_mono sampleLoop_fair)

/-- The situation: libraries that do what they should, a positive semidefinite kernel, at least one sample point and not more than there are points, at least one thread and not
more than sample points. -/
structure RankOk (I : RankIn) : Prop where
  lp : I.env.lp.Correct
  lq : I.env.lq.Correct
  ulp : ∀ x, 0 < I.env.ulp x
  psd : PSDKernel I.kf
  ss1 : 1 ≤ I.ss
  ssn : I.ss ≤ I.npt
  t1 : 1 ≤ I.nThread
  t2 : I.nThread ≤ I.ss
  orders : ∀ rep i, (I.orders rep i).Perm (List.range I.nThread)
  big : ∀ i < I.npt, ∀ j < I.npt, sqDist (⟨I.npt, I.dim, I.coord, I.nThread, I.big⟩ : FpsIn ℝ) j (pos ⟨I.npt, I.dim, I.coord, I.nThread, I.big⟩ i) ≤ I.big

theorem PSDKernel.symm {kf : (Nat → ℝ) → (Nat → ℝ) → ℝ} (h : PSDKernel kf) (x y : Nat → ℝ) : kf x y = kf y x := by
  have h1 := (h 2 ![x, y]).1
  have := congrFun (congrFun h1 1) 0
  simpa [Matrix.conjTranspose_apply] using this

theorem PSDKernel.posDef {kf : (Nat → ℝ) → (Nat → ℝ) → ℝ} (h : PSDKernel kf) {nu : ℝ} (hn : 0 < nu) (n : Nat) (x : Nat → Nat → ℝ) : (kmat kf nu n x).PosDef := by
  have e : kmat kf nu n x = (Matrix.of fun i j : Fin n => kf (fun d => x d i) (fun d => x d j)) + nu • (1 : Matrix (Fin n) (Fin n) ℝ) := by
    ext i j
    simp [kmat, Matrix.one_apply]
  rw [e]
  exact Matrix.PosDef.posSemidef_add (h n fun i d => x d i) (Matrix.PosDef.one.smul hn)

theorem scaleFac_le {a b : Nat} (h : a ≤ b) (dim : Nat) : 0 ≤ scaleFac a b dim ∧ scaleFac a b dim ≤ 1 := by
  unfold scaleFac
  constructor
  · positivity
  · apply Real.rpow_le_one (by positivity)
    · exact div_le_one_of_le₀ (by exact_mod_cast h) (by positivity)
    · positivity

theorem kmat_zero_mf (kf : (Nat → ℝ) → (Nat → ℝ) → ℝ) (n : Nat) (x : Nat → Nat → ℝ) : kmat kf 0 n x = mf n n fun i j => kf (fun d => x d i) (fun d => x d j) := by
  ext i j
  simp [kmat, mf]

theorem shiftedK_mf (I : RankIn) (x : Nat → Nat → ℝ) : mf I.ss I.ss (shiftedK I x) = kmat I.kf (Real.sqrt I.ss * I.env.ulp (frob (kmat I.kf 0 I.ss x) ^ 2)) I.ss x := by
  have e : frob (kmat I.kf 0 I.ss x) ^ 2 = sumSq I.ss fun i j => I.kf (fun d => x d i) (fun d => x d j) := by
    rw [kmat_zero_mf, ← sqrt_sumSq, Real.sq_sqrt]
    rw [sumSq_frob]
    exact Finset.sum_nonneg fun i _ => Finset.sum_nonneg fun j _ => sq_nonneg _
  rw [e]
  ext i j
  simp only [mf, shiftedK, kmat, Fin.val_inj]

theorem sample_facts {I : RankIn} {fr u : Nat} {s : List Nat × Nat} (h : sampleLoop I.rb I.npt fr I.ss (fun _ => false) u = .ok s) : IsSample I.npt I.ss s.1 := by
  obtain ⟨h1, h2, h3⟩ := sampleLoop_ok (l := s.1) (t' := s.2) h
  exact ⟨h1, h2, fun x hx => (h3 x hx).1⟩

theorem IsSample.lt {npt ss : Nat} {s : List Nat} (h : IsSample npt ss s) {j : Nat} (hj : j < ss) : s.getD j 0 < npt := by
  have hj' : j < s.length := by rw [h.1]; exact hj
  have e : s.getD j 0 = s[j] := by simp [List.getD, List.getElem?_eq_getElem hj']
  rw [e]
  exact h.2.2 _ (List.getElem_mem hj')

theorem IsSample.le {npt ss : Nat} {s : List Nat} (h : IsSample npt ss s) : ss ≤ npt := by
  rw [← h.1]
  have : s ⊆ List.range npt := fun x hx => List.mem_range.2 (h.2.2 x hx)
  have := (h.2.1.subperm this).length_le
  simpa using this

/-- `AFNi_FPS` of the scaled sample. -/
theorem sample_fps {I : RankIn} (hI : RankOk I) {s : List Nat} (hs : IsSample I.npt I.ss s) (rep : Nat) :
    ∃ st', fps ⟨I.ss, I.dim, scaledPts I.coord s (scaleFac I.ss I.npt I.dim), I.nThread, I.big⟩ I.ss I.ss (I.orders rep) (I.st rep) = .ok st' ∧
      Farthest (⟨I.ss, I.dim, scaledPts I.coord s (scaleFac I.ss I.npt I.dim), I.nThread, I.big⟩ : FpsIn ℝ) I.ss st'.idx := by
  obtain ⟨c0, c1⟩ := scaleFac_le hI.ssn I.dim
  obtain ⟨st', h1, h2, _⟩ := C64_fps (⟨I.ss, I.dim, scaledPts I.coord s (scaleFac I.ss I.npt I.dim), I.nThread, I.big⟩ : FpsIn ℝ) hI.t1 hI.t2 (by
    intro i hi j hj
    have hb := hI.big (s.getD i 0) (hs.lt hi) (s.getD j 0) (hs.lt hj)
    refine le_trans ?_ hb
    unfold sqDist pos scaledPts
    dsimp only
    apply Finset.sum_le_sum
    intro d _
    rw [← sub_mul, mul_pow]
    have : scaleFac I.ss I.npt I.dim ^ 2 ≤ 1 := pow_le_one₀ c0 c1
    nlinarith [sq_nonneg (I.coord d (s.getD j 0) - I.coord d (s.getD i 0))]) I.ss I.ss (le_refl _) hI.ss1 (I.orders rep) (hI.orders rep) (I.st rep)
  exact ⟨st', h1, h2⟩

theorem scaledRep_of {I : RankIn} (hI : RankOk I) {fr rep u : Nat} {s : List Nat × Nat} (h : sampleLoop I.rb I.npt fr I.ss (fun _ => false) u = .ok s) :
    ∃ ρ, SampleRank I ρ ∧ ∀ fr', sampleLoop I.rb I.npt fr' I.ss (fun _ => false) u = .ok s → scaledRep I fr' rep u = .ok (ρ, s.2) := by
  have hs := sample_facts h
  obtain ⟨st', e1, e2⟩ := sample_fps hI hs rep
  refine ⟨bsearch (rankTest I.env.lp I.ss (shiftedK I fun d j => scaledPts I.coord s.1 (scaleFac I.ss I.npt I.dim) d (st'.idx j))) 1 I.ss, ⟨s.1, st'.idx, hs, e2, _, fun _ _ => rfl, ?_⟩, ?_⟩
  · rw [show (((I.ss : ℝ) / I.npt) ^ (1 / (I.dim : ℝ))) = scaleFac I.ss I.npt I.dim from rfl, ← shiftedK_mf]
    apply bsearch_rank hI.lp hI.ss1
    rw [shiftedK_mf]
    apply hI.psd.posDef
    apply mul_pos _ (hI.ulp _)
    apply Real.sqrt_pos.2
    exact_mod_cast hI.ss1
  · intro fr' h'
    unfold scaledRep
    rw [h', Res.bind_ok]
    show Res.bind (fps ⟨I.ss, I.dim, scaledPts I.coord s.1 (scaleFac I.ss I.npt I.dim), I.nThread, I.big⟩ I.ss I.ss (I.orders rep) (I.st rep)) _ = _
    rw [e1]
    rfl

theorem nysRep_of {I : RankIn} (hI : RankOk I) (hm : I.ss ≤ I.maxK) {fr rep u : Nat} {s : List Nat × Nat} (h : sampleLoop I.rb I.npt fr I.ss (fun _ => false) u = .ok s) :
    ∃ c, SampleCount I c ∧ c ≤ I.ss ∧ ∀ fr', sampleLoop I.rb I.npt fr' I.ss (fun _ => false) u = .ok s → nysRep I (max I.maxK I.ss) fr' rep u = .ok (c, s.2) := by
  have hs := sample_facts h
  set sc : ℝ := if max I.maxK I.ss > I.ss then scaleFac I.ss (max I.maxK I.ss) I.dim else 1 with hsc
  have e : sc = ((I.ss : ℝ) / I.maxK) ^ (1 / (I.dim : ℝ)) := by
    rw [hsc, max_eq_left hm]
    rcases eq_or_lt_of_le hm with h | h
    · rw [if_neg (by omega), ← h, div_self (by have := hI.ss1; positivity), Real.one_rpow]
    · rw [if_pos h]; rfl
  have hk := count_above hI.lq I.ss (fun i j => I.kf (fun d => scaledPts I.coord s.1 sc d i) (fun d => scaledPts I.coord s.1 sc d j)) (fun i _ j _ => hI.psd.symm _ _) I.mu
  refine ⟨nAbove (kmat I.kf 0 I.ss (scaledPts I.coord s.1 sc)) (I.mu / 10), ⟨s.1, hs, by rw [e]⟩, ?_, ?_⟩
  · rw [kmat_zero_mf, ← hk]
    exact le_trans List.countP_le_length (by rw [List.length_range])
  · intro fr' h'
    unfold nysRep
    rw [h', Res.bind_ok]
    rw [kmat_zero_mf, ← hk]
    dsimp only
    rw [if_neg (by omega)]
    rfl

/-! ## Repetitions -/

/-- The result of the loop, when every repetition has a result with the property `P`. -/
theorem repLoop_spec {f : Nat → Nat → Nat → Res (Nat × Nat)} {P : Nat → Prop}
    (hf : ∀ rep u, ∃ F a, P a.1 ∧ ∀ fr ≥ F, f fr rep u = .ok a) : ∀ (k rep m u : Nat),
    ∃ F a, (∃ ρ : Fin k → Nat, (∀ i, P (ρ i)) ∧ a.1 = max m (Finset.univ.sup ρ)) ∧ ∀ fr ≥ F, repLoop (f fr) k rep m u = .ok a := by
  intro k
  induction k with
  | zero => intro rep m u; exact ⟨0, (m, u), ⟨fun i => i.elim0, fun i => i.elim0, by simp⟩, fun _ _ => rfl⟩
  | succ k ih =>
    intro rep m u
    obtain ⟨F, a, hP, ha⟩ := hf rep u
    obtain ⟨F', b, ⟨ρ, hρ, hb⟩, hb'⟩ := ih (rep + 1) (if a.1 > m then a.1 else m) a.2
    refine ⟨max F F', b, ⟨Fin.cons a.1 ρ, fun i => ?_, ?_⟩, ?_⟩
    · refine Fin.cases ?_ (fun i => ?_) i
      · exact hP
      · exact hρ i
    · rw [hb, Fin.univ_succ, Finset.sup_cons, Finset.sup_map]
      have : ((Fin.cons a.1 ρ : Fin (k+1) → Nat) ∘ (⟨Fin.succ, Fin.succ_injective k⟩ : Fin k ↪ Fin (k+1))) = ρ := by funext i; simp
      rw [this]
      show max (if a.1 > m then a.1 else m) (Finset.univ.sup ρ) = max m (max a.1 (Finset.univ.sup ρ))
      rw [← max_assoc]
      congr 1
      split <;> omega
    · intro fr hfr
      rw [repLoop, ha fr (le_trans (le_max_left _ _) hfr), Res.bind_ok]
      exact hb' fr (le_trans (le_max_right _ _) hfr)

/-- The same when the loop has returned. -/
theorem repLoop_ok {f : Nat → Nat → Res (Nat × Nat)} {P : Nat → Prop} (hf : ∀ rep u a, f rep u = .ok a → P a.1) : ∀ (k rep m u : Nat) (a : Nat × Nat),
    repLoop f k rep m u = .ok a → ∃ ρ : Fin k → Nat, (∀ i, P (ρ i)) ∧ a.1 = max m (Finset.univ.sup ρ) := by
  intro k
  induction k with
  | zero =>
    intro rep m u a h
    rw [repLoop, Res.ok.injEq] at h
    subst h
    exact ⟨fun i => i.elim0, fun i => i.elim0, by simp⟩
  | succ k ih =>
    intro rep m u a h
    rw [repLoop] at h
    cases hc : f rep u with
    | ub => rw [hc, Res.bind_ub] at h; simp at h
    | diverge => rw [hc] at h; simp at h
    | ok b =>
      rw [hc, Res.bind_ok] at h
      obtain ⟨ρ, hρ, hb⟩ := ih _ _ _ _ h
      refine ⟨Fin.cons b.1 ρ, fun i => ?_, ?_⟩
      · refine Fin.cases ?_ (fun i => ?_) i
        · exact hf rep u b hc
        · exact hρ i
      · rw [hb, Fin.univ_succ, Finset.sup_cons, Finset.sup_map]
        have : ((Fin.cons b.1 ρ : Fin (k+1) → Nat) ∘ (⟨Fin.succ, Fin.succ_injective k⟩ : Fin k ↪ Fin (k+1))) = ρ := by funext i; simp
        rw [this]
        show max (if b.1 > m then b.1 else m) (Finset.univ.sup ρ) = max m (max b.1 (Finset.univ.sup ρ))
        rw [← max_assoc]
        congr 1
        split <;> omega

theorem scaledRep_ok {I : RankIn} (hI : RankOk I) {fr rep u : Nat} {a : Nat × Nat} (h : scaledRep I fr rep u = .ok a) : SampleRank I a.1 := by
  cases hs : sampleLoop I.rb I.npt fr I.ss (fun _ => false) u with
  | ub => unfold scaledRep at h; rw [hs] at h; simp at h
  | diverge => unfold scaledRep at h; rw [hs] at h; simp at h
  | ok s =>
    obtain ⟨ρ, h1, h2⟩ := scaledRep_of hI (rep := rep) hs
    rw [h2 fr hs, Res.ok.injEq] at h
    subst h
    exact h1

theorem nysRep_ok {I : RankIn} (hI : RankOk I) {fr rep u : Nat} {a : Nat × Nat} (h : nysRep I (max I.maxK I.ss) fr rep u = .ok a) : I.ss ≤ I.maxK ∧ SampleCount I a.1 ∧ a.1 ≤ I.ss := by
  cases hs : sampleLoop I.rb I.npt fr I.ss (fun _ => false) u with
  | ub => unfold nysRep at h; rw [hs] at h; simp at h
  | diverge => unfold nysRep at h; rw [hs] at h; simp at h
  | ok s =>
    have hm : I.ss ≤ I.maxK := by
      by_contra hc
      unfold nysRep at h
      rw [hs, Res.bind_ok, if_pos (by omega)] at h
      simp at h
    obtain ⟨c, h1, h2, h3⟩ := nysRep_of hI hm (rep := rep) hs
    rw [h3 fr hs, Res.ok.injEq] at h
    subst h
    exact ⟨hm, h1, h2⟩

/-- When the random numbers hit every residue again and again, every repetition returns. -/
theorem sample_returns {I : RankIn} (hI : RankOk I) (hfair : ∀ m < I.npt, ∀ N, ∃ t ≥ N, I.rb t % I.npt = m) (u : Nat) :
    ∃ F s, ∀ fr ≥ F, sampleLoop I.rb I.npt fr I.ss (fun _ => false) u = .ok s := by
  obtain ⟨F, s, h⟩ := sampleLoop_fair I.rb I.npt I.ss hI.ssn hfair u
  exact ⟨F, s, fun fr hfr => sampleLoop_mono hfr h⟩

end H2Pack.AFN
