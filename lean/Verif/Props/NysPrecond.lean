import Verif.Model.NysPrecond
import Verif.Props.Nystrom
import Verif.Props.Utils

/-! # C94: the randomized Nyström preconditioner -/

namespace H2Pack.AFN
open H2Pack.ULV Finset Matrix H2Pack.Utils

/-- The order of the points: first the sampled ones, then the others ascending. -/
theorem C94_order {n k : Nat} (hkn : k ≤ n) {s : List Nat} (hl : s.length = k) (hnd : s.Nodup) (hlt : ∀ x ∈ s, x < n) (junk : Nat → Nat) :
    ∃ perm, sampleOrder n k s junk = .ok perm ∧ IsOrder n perm ∧ (List.range k).map perm = s ∧ ∀ i j, k ≤ i → i < j → j < n → perm i < perm j := by
  obtain ⟨p0, hp0⟩ : ∃ p0 : Nat → Nat, (fun i => if i < k then s.getD i 0 else junk i) = p0 := ⟨_, rfl⟩
  have hso : sampleOrder n k s junk = ((List.range n).foldl (appendRest n ((List.range k).foldl (fun (f : Nat → Bool) i => Function.update f (p0 i) true) (fun _ => false)))
      (.ok (p0, k))).bind fun p => .ok p.1 := by rw [← hp0]; rfl
  rw [hso]
  have hm : (List.range k).map p0 = s := by
    apply List.ext_getElem
    · simp [hl]
    · intro i h1 h2
      rw [List.getElem_map, List.getElem_range, ← hp0]
      have : i < k := by simpa using h1
      dsimp only
      rw [if_pos this, List.getD_eq_getElem s 0 h2]
  have hplt : ∀ i < k, p0 i < n := fun i hi => hlt _ (by rw [← hm]; exact List.mem_map_of_mem (List.mem_range.2 hi))
  have inj : ∀ i < k, ∀ j < k, p0 i = p0 j → i = j := fun i hi j hj e =>
    List.inj_on_of_nodup_map (by rw [hm]; exact hnd) (List.mem_range.2 hi) (List.mem_range.2 hj) e
  generalize hfl : (List.range k).foldl (fun (f : Nat → Bool) i => Function.update f (p0 i) true) (fun _ => false) = flag
  have hf : ∀ j, flag j = true ↔ ∃ i < k, p0 i = j := by intro j; rw [← hfl]; exact flag_spec p0 k j
  have hcard := unflagged n k p0 hplt flag hf
  have hc : ((range k).image p0).card = k := by
    rw [Finset.card_image_of_injOn, Finset.card_range]
    intro a ha b hb e
    exact inj a (by simpa using ha) b (by simpa using hb) e
  obtain ⟨p, e, a1, a2⟩ := (appendRest_spec n flag (List.range n) p0 k hkn).2 (by omega)
  refine ⟨p, by rw [e]; rfl, ?_, ?_, ?_⟩
  · have hsplit : (List.range n).map p = (List.range k).map p0 ++ (List.range n).filter (fun i => !flag i) := by
      have : List.range n = List.range k ++ List.range' k (n - k) := by
        have := List.range'_append_1 (s := 0) (m := k) (n := n - k)
        rw [Nat.zero_add] at this
        rw [List.range_eq_range', List.range_eq_range', this]
        congr 1; omega
      rw [← a2]
      conv_lhs => rw [this]
      rw [List.map_append]
      congr 1
      · exact List.map_congr_left (fun i hi => a1 i (List.mem_range.1 hi))
      · congr 2; omega
    show ((List.range n).map p).Perm (List.range n)
    rw [hsplit]
    have nd1 : ((List.range k).map p0).Nodup := by rw [hm]; exact hnd
    have nd : ((List.range k).map p0 ++ (List.range n).filter (fun i => !flag i)).Nodup := by
      refine List.Nodup.append nd1 (List.nodup_range.filter _) ?_
      intro x hx hx'
      obtain ⟨i, hi, rfl⟩ := List.mem_map.1 hx
      have := (List.mem_filter.1 hx').2
      rw [(hf _).2 ⟨i, List.mem_range.1 hi, rfl⟩] at this
      simp at this
    refine (nd.subperm ?_).perm_of_length_le ?_
    · intro x hx
      rcases List.mem_append.1 hx with h | h
      · obtain ⟨i, hi, rfl⟩ := List.mem_map.1 h
        exact List.mem_range.2 (hplt i (List.mem_range.1 hi))
      · exact (List.mem_filter.1 h).1
    · rw [List.length_append, List.length_map, List.length_range, List.length_range]; omega
  · rw [← hm]
    exact List.map_congr_left (fun i hi => a1 i (List.mem_range.1 hi))
  · intro i j hi hij hj
    have hlen : ((List.range n).filter (fun i => !flag i)).length = n - k := by omega
    have hsorted : ((List.range' k (n - k)).map p).Pairwise (· < ·) := by
      rw [← hlen, a2]
      exact List.pairwise_lt_range.filter _
    rw [List.pairwise_map] at hsorted
    have := List.pairwise_iff_getElem.1 hsorted (i - k) (j - k) (by simp; omega) (by simp; omega) (by omega)
    rw [List.getElem_range', List.getElem_range'] at this
    have e1 : k + 1 * (i - k) = i := by omega
    have e2 : k + 1 * (j - k) = j := by omega
    rwa [e1, e2] at this

/-- **C94** For any kernel, points, number `1 <= k <= n` of landmarks and any sequence of random numbers for which the sampling ends: `k` different points are
chosen, and if their shifted kernel matrix is positive definite, the preconditioner is built.  Applying it multiplies with the function of the Nyström
approximation described in C69, whatever the output vector held before; for `mu > 0` it is symmetric positive definite with no eigenvalue above one. -/
theorem C94_random_nystrom (E : Env) (hL : E.lp.Correct) (hD : E.lp.Definite) (hQ : E.lq.Correct) (hQa : Ascending E.lq) (heps : 0 < E.eps)
    {kf : (Nat → ℝ) → (Nat → ℝ) → ℝ} (hk : ∀ x y, kf x y = kf y x) {mu : ℝ} {n : Nat} {coord : Nat → Nat → ℝ} {k : Nat} (h1 : 1 ≤ k) (h2 : k ≤ n)
    {r : Nat → Nat} {s : List Nat} {t : Nat} (hr : Returns (fun fuel => randSample r n k fuel) (s, t)) (junk : Nat → Nat) :
    s.length = k ∧ s.Nodup ∧ (∀ x ∈ s, x < n) ∧ ∃ perm, IsOrder n perm ∧ (List.range k).map perm = s ∧
    ∀ nu, nu = Real.sqrt n * E.ulp (∑ a, ∑ j, lmRows kf k n coord perm a j ^ 2) → (lmBlock kf k coord perm nu).PosDef → lmRows kf k n coord perm ≠ 0 →
    ∃ (P : Precond) (lo hi : ℝ) (B : Matrix (Fin n) (Fin n) ℝ), Returns (nysPrecondBuild E kf mu n coord k r junk) (some P) ∧ Applies P n B ∧
      IsLeast (lmEig kf k n coord perm nu) lo ∧ IsGreatest (lmEig kf k n coord perm nu) hi ∧
      FunOf (fun w => if ¬ Real.sqrt w < Real.sqrt hi * E.eps * 10 then (max (lo - nu) 0 + mu) / (max (w - nu) 0 + mu) else 1) (nysHat kf k n coord perm nu) B ∧
      (0 < mu → B.PosDef ∧ (1 - B).PosSemidef) := by
  obtain ⟨F, hF⟩ := hr
  obtain ⟨s1, s2, s3⟩ := C38_rand_sample r n k F s t (hF F (le_refl _))
  obtain ⟨perm, hp, ho, hs, -⟩ := C94_order h2 s1 s2 s3 junk
  refine ⟨s1, s2, s3, perm, ho, hs, fun nu hnu hW hC => ?_⟩
  obtain ⟨P, lo, hi, B, ⟨F', hF'⟩, b, c, d, e, f⟩ := C69_nystrom E hL hD hQ hQa heps hk (mu := mu) ho (Nat.lt_succ_self k) h1 h2 hnu hW hC (fun _ => []) ⟨fun _ => 0, fun _ => 0, [], []⟩
  refine ⟨P, lo, hi, B, ⟨F, fun fuel hfuel => ?_⟩, b, c, d, e, f⟩
  have h3 := hF' F' (le_refl _)
  unfold precondBuild at h3
  dsimp only at h3
  rw [if_pos (Nat.lt_succ_self k), if_pos (Nat.lt_succ_self k)] at h3
  unfold nysPrecondBuild
  have hb : randSample r n k fuel = .ok (s, t) := hF fuel hfuel
  rw [hb]
  simp only [Res.bind_ok]
  show (sampleOrder n k s junk).bind _ = _
  rw [hp]
  exact h3

/-- **C94** (limits).  More landmarks than points: the sampling never ends.  No landmarks: an entry before the array of eigenvalues is read. -/
theorem C94_limits (E : Env) (kf : (Nat → ℝ) → (Nat → ℝ) → ℝ) (mu : ℝ) (n : Nat) (coord : Nat → Nat → ℝ) (r : Nat → Nat) (junk : Nat → Nat) :
    (∀ k, 0 < n → n < k → Diverges (nysPrecondBuild E kf mu n coord k r junk)) ∧ ∀ fuel, nysPrecondBuild E kf mu n coord 0 r junk fuel = .ub := by
  constructor
  · intro k hn hk fuel
    unfold nysPrecondBuild
    have : randSample r n k fuel = .diverge := C38_too_many_diverges r n k hn hk fuel
    rw [this]
    rfl
  · intro fuel
    unfold nysPrecondBuild
    have : randSample r n 0 fuel = .ok ([], 0) := rfl
    rw [this]
    show (sampleOrder n 0 [] junk).bind _ = .ub
    obtain ⟨perm, hp, -⟩ := C94_order (Nat.zero_le n) (s := []) rfl List.nodup_nil (by simp) junk
    rw [hp]
    rfl

/-! ## Non-vacuity -/

/-- Three points on a line, two landmarks; the random numbers draw the third point, once more the third point, and the first. -/
example : ∃ (E : Env) (P : Precond) (B : Matrix (Fin 3) (Fin 3) ℝ),
    Returns (nysPrecondBuild E (fun x y => x 0 * y 0 + if x 0 = y 0 then 1 else 0) 2 3 exLine.coord 2 (fun t => [5, 2, 3].getD t 0) (fun _ => 8)) (some P) ∧
    Applies P 3 B ∧ B.PosDef := by
  obtain ⟨Lp, hL, hD⟩ := lapack_exists
  obtain ⟨Lq, hQ, hA⟩ := ascending_exists
  have hr : Returns (fun fuel => randSample (fun t => [5, 2, 3].getD t 0) 3 2 fuel) ([2, 0], 3) := by
    refine ⟨2, fun fuel hf => ?_⟩
    obtain ⟨f, rfl⟩ : ∃ f, fuel = f + 2 := ⟨fuel - 2, by omega⟩
    simp [randSample, sampleLoop, drawLoop, Function.update_apply]
  obtain ⟨-, -, -, perm, ho, hs, H⟩ := C94_random_nystrom ⟨Lp, Lq, fun _ => 0, 1 / 100⟩ hL hD hQ hA (by norm_num) (kf := fun x y => x 0 * y 0 + if x 0 = y 0 then 1 else 0)
    (fun x y => by rw [mul_comm]; congr 1; exact if_congr eq_comm rfl rfl) (mu := 2) (n := 3) (coord := exLine.coord) (k := 2) (by decide) (by decide) hr (fun _ => 8)
  have e0 : perm 0 = 2 := by
    have : [perm 0, perm 1] = [2, 0] := hs
    exact (List.cons.inj this).1
  have e1 : perm 1 = 0 := by
    have : [perm 0, perm 1] = [2, 0] := hs
    exact (List.cons.inj (List.cons.inj this).2).1
  have hW : (lmBlock (fun x y => x 0 * y 0 + if x 0 = y 0 then 1 else 0) 2 exLine.coord perm (0 : ℝ)).PosDef := by
    have e : lmBlock (fun x y => x 0 * y 0 + if x 0 = y 0 then 1 else 0) 2 exLine.coord perm (0 : ℝ) =
        (1 : Matrix (Fin 2) (Fin 2) ℝ) + vecMulVec (fun i : Fin 2 => ((perm i : Nat) : ℝ) + 1) (star fun i : Fin 2 => ((perm i : Nat) : ℝ) + 1) := by
      refine Matrix.ext fun (i j : Fin 2) => ?_
      show (((perm i : Nat) : ℝ) + 1) * (((perm j : Nat) : ℝ) + 1) + (if ((perm i : Nat) : ℝ) + 1 = ((perm j : Nat) : ℝ) + 1 then (1 : ℝ) else 0) + (if i = j then (0 : ℝ) else 0) =
        (1 : Matrix (Fin 2) (Fin 2) ℝ) i j + (((perm i : Nat) : ℝ) + 1) * (((perm j : Nat) : ℝ) + 1)
      fin_cases i <;> fin_cases j <;> norm_num [Matrix.one_apply, e0, e1]
    rw [e]
    exact Matrix.PosDef.one.add_posSemidef (posSemidef_vecMulVec_self_star _)
  obtain ⟨P, lo, hi, B, a, b, _, _, _, c⟩ := H 0 (by simp) hW
    (by
      intro h
      have := congrFun (congrFun h (1 : Fin 2)) (0 : Fin 3)
      have : (((perm 1 : Nat) : ℝ) + 1) * (((0 : Nat) : ℝ) + 1) + (if ((perm 1 : Nat) : ℝ) + 1 = ((0 : Nat) : ℝ) + 1 then (1 : ℝ) else 0) = 0 := this
      rw [e1] at this
      norm_num at this)
  exact ⟨_, P, B, a, b, (c (by norm_num)).1⟩

end H2Pack.AFN
