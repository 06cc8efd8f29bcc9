import Verif.Proof.QR3

/-!
# QR with column blocks in exact arithmetic: the loop
-/

namespace H2Pack.ID
open Finset (range sum_congr mem_range mul_sum sum_mul sum_add_distrib)

variable {e f t : ℝ}

/-- Squared norm of the rows `i*kdim ..` of block `j`. -/
def btail (nrow kdim i j : Nat) (R : Nat → Nat → ℝ) : ℝ := ∑ k ∈ range kdim, tail nrow (i * kdim) (R (j * kdim + k))

theorem btail_nonneg (nrow kdim i j : Nat) (R : Nat → Nat → ℝ) : 0 ≤ btail nrow kdim i j R := Finset.sum_nonneg fun _ _ => tail_nonneg _ _ _

theorem tail_add {nrow b c : Nat} (h : b + c ≤ nrow) (x : Nat → ℝ) : tail nrow b x = ∑ k ∈ range c, x (b + k) ^ 2 + tail nrow (b + c) x := by
  unfold tail
  rw [show nrow - b = c + (nrow - (b + c)) by omega, Finset.sum_range_add]
  congr 1
  apply sum_congr rfl; intro k _
  rw [Nat.add_assoc]

theorem foldl_sub_sum (g : Nat → ℝ) (n : Nat) (z : ℝ) : (List.range n).foldl (fun s k => (realOps e f t).sub s (g k)) z = z - ∑ k ∈ range n, g k := by
  induction n with
  | zero => simp
  | succ n ih =>
    rw [List.range_succ, List.foldl_append, ih, Finset.sum_range_succ]
    show z - _ - g n = _
    ring

theorem foldl_add_sum (g : Nat → ℝ) (n : Nat) : (List.range n).foldl (fun s k => (realOps e f t).add s (g k)) (realOps e f t).zero = ∑ k ∈ range n, g k := by
  induction n with
  | zero => rfl
  | succ n ih =>
    rw [List.range_succ, List.foldl_append, ih, Finset.sum_range_succ]
    rfl

theorem foldl_sub_sum2 (g : Nat → Nat → ℝ) (m : Nat) (n : Nat) (z : ℝ) :
    (List.range n).foldl (fun s k => (List.range m).foldl (fun s l => (realOps e f t).sub s (g k l)) s) z = z - ∑ k ∈ range n, ∑ l ∈ range m, g k l := by
  induction n with
  | zero => simp
  | succ n ih =>
    rw [List.range_succ, List.foldl_append, ih, Finset.sum_range_succ]
    simp only [List.foldl_cons, List.foldl_nil]
    rw [foldl_sub_sum]
    ring

theorem newBlkNorm_real {nrow kdim i j : Nat} (hi : (i + 1) * kdim ≤ nrow) {stop bn : ℝ} {R R' : Nat → Nat → ℝ} (hR : btail nrow kdim i j R' = btail nrow kdim i j R)
    (h : 0 ≤ bn ∧ (bn = Real.sqrt (btail nrow kdim i j R) ∨ bn = 0 ∧ Real.sqrt (btail nrow kdim i j R) < stop)) :
    0 ≤ newBlkNorm (realOps e f t) nrow kdim i j stop bn R' ∧
    (newBlkNorm (realOps e f t) nrow kdim i j stop bn R' = Real.sqrt (btail nrow kdim (i + 1) j R') ∨
      newBlkNorm (realOps e f t) nrow kdim i j stop bn R' = 0 ∧ Real.sqrt (btail nrow kdim (i + 1) j R') < stop) := by
  have hst : btail nrow kdim i j R' = ∑ k0 ∈ range kdim, ∑ k1 ∈ range kdim, R' (j * kdim + k0) (i * kdim + k1) * R' (j * kdim + k0) (i * kdim + k1) +
      btail nrow kdim (i + 1) j R' := by
    unfold btail
    rw [← sum_add_distrib]
    apply sum_congr rfl; intro k _
    rw [tail_add (c := kdim) (by rw [Nat.add_mul] at hi; omega), show i * kdim + kdim = (i + 1) * kdim by ring]
    simp only [pow_two]
  have hpos : 0 ≤ ∑ k0 ∈ range kdim, ∑ k1 ∈ range kdim, R' (j * kdim + k0) (i * kdim + k1) * R' (j * kdim + k0) (i * kdim + k1) :=
    Finset.sum_nonneg fun _ _ => Finset.sum_nonneg fun _ _ => mul_self_nonneg _
  have hle : Real.sqrt (btail nrow kdim (i + 1) j R') ≤ Real.sqrt (btail nrow kdim i j R) := by
    rw [← hR]; apply Real.sqrt_le_sqrt; linarith
  have hdef : newBlkNorm (realOps e f t) nrow kdim i j stop bn R' = if bn < stop then 0 else
      if bn * bn - ∑ k0 ∈ range kdim, ∑ k1 ∈ range kdim, R' (j * kdim + k0) (i * kdim + k1) * R' (j * kdim + k0) (i * kdim + k1) ≤ f then
        Real.sqrt (btail nrow kdim (i + 1) j R')
      else Real.sqrt (bn * bn - ∑ k0 ∈ range kdim, ∑ k1 ∈ range kdim, R' (j * kdim + k0) (i * kdim + k1) * R' (j * kdim + k0) (i * kdim + k1)) := by
    unfold newBlkNorm
    dsimp only
    rw [foldl_add_sum (fun k => (realOps e f t).mul ((realOps e f t).nrm2 (nrow - (i + 1) * kdim) (fun u => R' (j * kdim + k) ((i + 1) * kdim + u)))
      ((realOps e f t).nrm2 (nrow - (i + 1) * kdim) (fun u => R' (j * kdim + k) ((i + 1) * kdim + u))))]
    rw [foldl_sub_sum2 (fun k0 k1 => (realOps e f t).mul (R' (j * kdim + k0) (i * kdim + k1)) (R' (j * kdim + k0) (i * kdim + k1)))]
    have hb : btail nrow kdim (i + 1) j R' = ∑ k ∈ range kdim, (realOps e f t).mul ((realOps e f t).nrm2 (nrow - (i + 1) * kdim) (fun u => R' (j * kdim + k) ((i + 1) * kdim + u)))
      ((realOps e f t).nrm2 (nrow - (i + 1) * kdim) (fun u => R' (j * kdim + k) ((i + 1) * kdim + u))) := by
      unfold btail
      apply sum_congr rfl; intro k _
      show _ = Real.sqrt (∑ u ∈ range (nrow - (i + 1) * kdim), R' (j * kdim + k) ((i + 1) * kdim + u) ^ 2) * Real.sqrt (∑ u ∈ range (nrow - (i + 1) * kdim), R' (j * kdim + k) ((i + 1) * kdim + u) ^ 2)
      rw [Real.mul_self_sqrt (Finset.sum_nonneg fun _ _ => sq_nonneg _)]
      rfl
    rw [← hb]
    simp only [realOps, decide_eq_true_eq]
  rw [hdef]
  by_cases hc : bn < stop
  · rw [if_pos hc]
    refine ⟨le_refl _, Or.inr ⟨rfl, ?_⟩⟩
    rcases h.2 with h' | h'
    · rw [← h'] at hle; linarith
    · linarith [h'.2]
  · rw [if_neg hc]
    have hbn : bn = Real.sqrt (btail nrow kdim i j R) := by
      rcases h.2 with h' | h'
      · exact h'
      · exfalso; have := Real.sqrt_nonneg (btail nrow kdim i j R); linarith [h'.1, h'.2]
    have htmp : bn * bn - ∑ k0 ∈ range kdim, ∑ k1 ∈ range kdim, R' (j * kdim + k0) (i * kdim + k1) * R' (j * kdim + k0) (i * kdim + k1) = btail nrow kdim (i + 1) j R' := by
      rw [hbn, Real.mul_self_sqrt (btail_nonneg _ _ _ _ _), ← hR, hst]; ring
    rw [htmp]
    simp only [ite_self]
    exact ⟨Real.sqrt_nonneg _, Or.inl trivial⟩

/-! ## The invariant -/

structure InvK (nrow ncol kdim : Nat) (stop : ℝ) (M : Nat → Nat → ℝ) (i : Nat) (s : QRSt ℝ) : Prop where
  perm : BlkPerm kdim ncol s.p
  gram : ∀ j < ncol, ∀ k < ncol, ∑ u ∈ range nrow, s.R j u * s.R k u = ∑ u ∈ range nrow, M (s.p j) u * M (s.p k) u
  upper : ∀ j < i * kdim, ∀ u, j < u → u < nrow → s.R j u = 0
  diag : ∀ j < i * kdim, s.R j j ≠ 0
  norm : ∀ j, i ≤ j → j < ncol / kdim → 0 ≤ s.cn j ∧ (s.cn j = Real.sqrt (btail nrow kdim i j s.R) ∨ s.cn j = 0 ∧ Real.sqrt (btail nrow kdim i j s.R) < stop)
  piv : i < ncol / kdim → i ≤ s.pivot ∧ s.pivot < ncol / kdim ∧ s.cn s.pivot = s.normp
  max : ∀ j, i ≤ j → j < ncol / kdim → s.cn j ≤ s.normp

theorem swapBlk_eq {α : Type} (g : Nat → α) (kdim a b u : Nat) : swapBlk kdim g a b u = g (swapBlk kdim (fun j => j) a b u) := by
  unfold swapBlk; split
  · rfl
  · split <;> rfl

theorem swapBlk_lt {kdim ncol a b : Nat} (ha : a < ncol / kdim) (hb : b < ncol / kdim) {j : Nat} (hj : j < ncol) :
    swapBlk kdim (fun j => j) a b j < ncol := by
  have hle : ncol / kdim * kdim ≤ ncol := Nat.div_mul_le_self _ _
  have h1 := Nat.mul_le_mul_right kdim (show a + 1 ≤ ncol / kdim by omega)
  have h2 := Nat.mul_le_mul_right kdim (show b + 1 ≤ ncol / kdim by omega)
  rw [Nat.add_mul] at h1 h2
  unfold swapBlk
  beta_reduce
  split
  · omega
  · split
    · omega
    · exact hj

theorem InvK.swap {nrow ncol kdim : Nat} {stop : ℝ} {M : Nat → Nat → ℝ} {i : Nat} {s : QRSt ℝ} (h : InvK nrow ncol kdim stop M i s) (hi : i < ncol / kdim) :
    ∃ s1, (if i ≠ s.pivot then { s with p := swapBlk kdim s.p i s.pivot, cn := ID.swap s.cn i s.pivot, R := swapBlk kdim s.R i s.pivot } else s) = s1 ∧
      BlkPerm kdim ncol s1.p ∧
      (∀ j < ncol, ∀ k < ncol, ∑ u ∈ range nrow, s1.R j u * s1.R k u = ∑ u ∈ range nrow, M (s1.p j) u * M (s1.p k) u) ∧
      (∀ j < i * kdim, s1.R j = s.R j) ∧
      (∀ j, i ≤ j → j < ncol / kdim → 0 ≤ s1.cn j ∧ (s1.cn j = Real.sqrt (btail nrow kdim i j s1.R) ∨ s1.cn j = 0 ∧ Real.sqrt (btail nrow kdim i j s1.R) < stop)) := by
  obtain ⟨p1, p2, p3⟩ := h.piv hi
  by_cases hc : i = s.pivot
  · exact ⟨s, by rw [if_neg (by simpa using hc)], h.perm, h.gram, fun _ _ => rfl, h.norm⟩
  · refine ⟨_, if_pos hc, h.perm.swap hi p2, ?_, ?_, ?_⟩
    · intro j hj k hk
      dsimp only
      rw [swapBlk_eq s.R, swapBlk_eq s.R, swapBlk_eq s.p, swapBlk_eq s.p]
      exact h.gram _ (swapBlk_lt hi p2 hj) _ (swapBlk_lt hi p2 hk)
    · intro j hj
      dsimp only
      have := Nat.mul_le_mul_right kdim p1
      unfold swapBlk
      rw [if_neg (by omega), if_neg (by omega)]
    · intro j hj hj'
      dsimp only
      have hb : btail nrow kdim i j (swapBlk kdim s.R i s.pivot) = btail nrow kdim i (ID.swap (fun j => j) i s.pivot j) s.R := by
        unfold btail
        apply sum_congr rfl; intro k hk
        rw [swapBlk_at s.R (mem_range.1 hk)]
      rw [swap_eq s.cn, hb]
      refine h.norm _ ?_ ((isPerm_swap_id hi p2).lt j hj')
      unfold ID.swap
      split
      · exact p1
      · split
        · exact le_refl _
        · exact hj

theorem qrkStep_inv {nrow ncol kdim sz : Nat} {stop : ℝ} {M : Nat → Nat → ℝ} {V0 : Nat → Nat → ℝ} {fuel i : Nat} {s : QRSt ℝ}
    (h : InvK nrow ncol kdim stop M i s) (hi : (i + 1) * kdim ≤ ncol) (hi' : i < ncol / kdim) (hr : (i + 1) * kdim ≤ nrow) (hf : ncol < fuel) :
    (∀ s', qrkStep (realOps e f t) sz nrow ncol kdim stop V0 fuel i s = .ok s' → InvK nrow ncol kdim stop M (i + 1) s') ∧
    qrkStep (realOps e f t) sz nrow ncol kdim stop V0 fuel i s ≠ .diverge := by
  obtain ⟨s1, e1, g1, g2, g3, g4⟩ := h.swap hi'
  rw [Nat.add_mul, Nat.one_mul] at hi hr
  obtain ⟨p1, p2⟩ := panel_real (e := e) (f := f) (t := t) hr kdim 0 s1.R V0 (by omega)
  have hdef : qrkStep (realOps e f t) sz nrow ncol kdim stop V0 fuel i s = panel (realOps e f t) nrow kdim (i * kdim) kdim 0 s1.R V0 >>= fun q =>
      let R := fun j => if i * kdim + kdim ≤ j ∧ j < ncol then reflFrom e f t nrow (i * kdim) q.2 0 kdim (q.1 j) else q.1 j
      let cn := fun j => if i < j ∧ j < ncol / kdim then newBlkNorm (realOps e f t) nrow kdim i j stop (s1.cn j) R else s1.cn j
      let g := findPivot (realOps e f t) cn (i + 1) (ncol / kdim)
      .ok ⟨s1.p, cn, R, g.1, g.2⟩ := by
    unfold qrkStep
    dsimp only
    rw [e1]
    congr 1; funext q
    rw [chunks_eq _ _ _ _ _ _ _ _ _ _ _ _ (by omega)]
    simp only [Res.bind_ok]
    have : (fun j => if i * kdim + kdim + 0 ≤ j ∧ j < i * kdim + kdim + (ncol - (i * kdim + kdim)) then
        wyCol (realOps e f t) kdim (nrow - i * kdim) (i * kdim) q.2 (wMat (realOps e f t) (nrow - i * kdim) q.2 kdim) (q.1 j) else q.1 j) =
        fun j => if i * kdim + kdim ≤ j ∧ j < ncol then reflFrom e f t nrow (i * kdim) q.2 0 kdim (q.1 j) else q.1 j := by
      funext j
      rw [wyCol_real (by omega)]
      by_cases hc : i * kdim + kdim ≤ j ∧ j < ncol
      · rw [if_pos hc, if_pos (by omega)]
      · rw [if_neg hc, if_neg (by omega)]
    rw [this]
  constructor
  · intro s' hs'
    rw [hdef] at hs'
    cases hh : panel (realOps e f t) nrow kdim (i * kdim) kdim 0 s1.R V0 with
    | ok q =>
      rw [hh] at hs'
      simp only [Res.bind_ok, Res.ok.injEq] at hs'
      obtain ⟨_, q2, q3, q4⟩ := p2 q hh
      set R' : Nat → Nat → ℝ := fun j => if i * kdim + kdim ≤ j ∧ j < ncol then reflFrom e f t nrow (i * kdim) q.2 0 kdim (q.1 j) else q.1 j with hR'
      set cn' : Nat → ℝ := fun j => if i < j ∧ j < ncol / kdim then newBlkNorm (realOps e f t) nrow kdim i j stop (s1.cn j) R' else s1.cn j with hcn'
      have hunit : ∀ l, 0 ≤ l → l < 0 + kdim → ∑ k ∈ range (nrow - i * kdim), q.2 l k ^ 2 = 1 := fun l _ hl => (q2 l (Nat.zero_le _) (by omega)).1
      have hR : ∀ j < ncol, R' j = reflFrom e f t nrow (i * kdim) q.2 0 kdim (s1.R j) := by
        intro j hj
        rw [hR']; dsimp only
        by_cases c1 : i * kdim + kdim ≤ j
        · rw [if_pos ⟨c1, hj⟩, q3 j (Or.inr c1)]
        · rw [if_neg (by omega)]
          by_cases c2 : i * kdim ≤ j
          · exact (q4 j (by omega) (by omega)).1
          · rw [q3 j (Or.inl (by omega))]
            rw [reflFrom_zero (c := 0)]
            · intro l _ _ k hk; omega
            · intro k hk hk'
              rw [g3 j (by omega)]
              exact h.upper j (by omega) k (by omega) hk'
      have hbt : ∀ j, j < ncol / kdim → btail nrow kdim i j R' = btail nrow kdim i j s1.R := by
        intro j hj
        unfold btail
        apply sum_congr rfl; intro k hk
        rw [mem_range] at hk
        have : j * kdim + k < ncol := by
          have h1 := Nat.mul_le_mul_right kdim (show j + 1 ≤ ncol / kdim by omega)
          have h2 := Nat.div_mul_le_self ncol kdim
          rw [Nat.add_mul] at h1; omega
        rw [hR _ this, reflFrom_tail kdim 0 hunit]
      have hnorm : ∀ j, i + 1 ≤ j → j < ncol / kdim → 0 ≤ cn' j ∧ (cn' j = Real.sqrt (btail nrow kdim (i + 1) j R') ∨ cn' j = 0 ∧ Real.sqrt (btail nrow kdim (i + 1) j R') < stop) := by
        intro j hj hj'
        have hc : cn' j = newBlkNorm (realOps e f t) nrow kdim i j stop (s1.cn j) R' := by rw [hcn']; dsimp only; rw [if_pos ⟨by omega, hj'⟩]
        rw [hc]
        exact newBlkNorm_real (by rw [Nat.add_mul]; omega) (hbt j hj') (g4 j (by omega) hj')
      have hpiv := findPivot_real (e := e) (f := f) (t := t) cn' (i + 1) (ncol / kdim) (fun j hj hj' => (hnorm j hj hj').1)
      have hlow : ∀ j, j < (i + 1) * kdim → R' j = q.1 j := by
        intro j hj
        rw [Nat.add_mul] at hj
        rw [hR']; dsimp only
        rw [if_neg (by omega)]
      subst hs'
      refine ⟨g1, ?_, ?_, ?_, hnorm, fun hlt => ?_, hpiv.1⟩
      · intro j hj k hk
        dsimp only
        rw [← g2 j hj k hk, hR j hj, hR k hk, reflFrom_dot (by omega) kdim 0 hunit]
      · intro j hj u hu' hu''
        dsimp only
        rw [hlow j hj]
        rw [Nat.add_mul] at hj
        by_cases c2 : i * kdim ≤ j
        · exact (q4 j (by omega) (by omega)).2.2 u hu' hu''
        · rw [q3 j (Or.inl (by omega)), g3 j (by omega)]
          exact h.upper j (by omega) u hu' hu''
      · intro j hj
        dsimp only
        rw [hlow j hj]
        rw [Nat.add_mul] at hj
        by_cases c2 : i * kdim ≤ j
        · exact (q4 j (by omega) (by omega)).2.1
        · rw [q3 j (Or.inl (by omega)), g3 j (by omega)]
          exact h.diag j (by omega)
      · have := findPivot_mem (realOps e f t) cn' hlt
        exact ⟨this.1, this.2, hpiv.2.2 hlt⟩
    | ub => rw [hh] at hs'; simp at hs'
    | diverge => rw [hh] at hs'; simp at hs'
  · rw [hdef]
    cases hh : panel (realOps e f t) nrow kdim (i * kdim) kdim 0 s1.R V0 with
    | ok q => simp
    | ub => simp
    | diverge => exact absurd hh p1

theorem qrkLoop_inv {nrow ncol kdim sz : Nat} {stop : ℝ} {M : Nat → Nat → ℝ} {V0 : Nat → Nat → ℝ} {fuel : Nat} (hf : ncol < fuel) (sr : Int) :
    ∀ n i s, InvK nrow ncol kdim stop M i s → i + n = min nrow ncol / kdim →
    qrkLoop (realOps e f t) sz nrow ncol kdim stop sr V0 fuel n i s ≠ .diverge ∧
    ∀ r, qrkLoop (realOps e f t) sz nrow ncol kdim stop sr V0 fuel n i s = .ok r → ∃ b, r.1 = b * kdim ∧ InvK nrow ncol kdim stop M b r.2 ∧ b ≤ min nrow ncol / kdim ∧
      (b = min nrow ncol / kdim ∨ r.2.normp < stop ∨ sr ≤ b) := by
  intro n
  induction n with
  | zero =>
    intro i s h hn
    rw [qrkLoop]
    refine ⟨by simp, ?_⟩
    intro r hr
    simp only [Res.ok.injEq] at hr
    subst hr
    exact ⟨i, rfl, h, by omega, Or.inl (by omega)⟩
  | succ n ih =>
    intro i s h hn
    rw [qrkLoop]
    by_cases hc : (realOps e f t).lt s.normp stop = true ∨ (i : Int) ≥ sr
    · rw [if_pos hc]
      refine ⟨by simp, ?_⟩
      intro r hr
      simp only [Res.ok.injEq] at hr
      subst hr
      refine ⟨i, rfl, h, by omega, ?_⟩
      rcases hc with hc | hc
      · right; left; simpa [realOps] using hc
      · right; right; exact hc
    · rw [if_neg hc]
      have hm : (i + 1) * kdim ≤ min nrow ncol :=
        le_trans (Nat.mul_le_mul_right kdim (show i + 1 ≤ min nrow ncol / kdim by omega)) (Nat.div_mul_le_self _ _)
      have hm2 : min nrow ncol / kdim ≤ ncol / kdim := Nat.div_le_div_right (by omega)
      obtain ⟨a1, a3⟩ := qrkStep_inv (e := e) (f := f) (t := t) (sz := sz) (V0 := V0) h (by omega) (by omega) (by omega) hf
      cases hq : qrkStep (realOps e f t) sz nrow ncol kdim stop V0 fuel i s with
      | ok s' =>
        simp only [Res.bind_ok]
        exact ih (i + 1) s' (a1 s' hq) (by omega)
      | ub => exact ⟨by simp, fun r hr => by simp at hr⟩
      | diverge => exact absurd hq a3

theorem blkNorms_real {kdim : Nat} (hk : 0 < kdim) (bn : Nat → ℝ) (nblk : Nat) :
    blkNorms (realOps e f t) kdim nblk bn =
      (fun j => if j < nblk then Real.sqrt (∑ k ∈ range kdim, bn (kdim * j + k) * bn (kdim * j + k)) else bn j,
        findPivot (realOps e f t) (fun j => Real.sqrt (∑ k ∈ range kdim, bn (kdim * j + k) * bn (kdim * j + k))) 0 nblk) := by
  unfold blkNorms findPivot
  rw [Nat.sub_zero, ← List.range_eq_range']
  induction nblk with
  | zero => simp
  | succ n ih =>
    rw [List.range_succ, List.foldl_append, ih, List.foldl_append]
    set fp := (List.range n).foldl (fun s j => if (realOps e f t).lt s.2 (Real.sqrt (∑ k ∈ range kdim, bn (kdim * j + k) * bn (kdim * j + k))) then
      (j, Real.sqrt (∑ k ∈ range kdim, bn (kdim * j + k) * bn (kdim * j + k))) else s) (0, (realOps e f t).zero) with hfp
    simp only [List.foldl_cons, List.foldl_nil]
    have hv : (realOps e f t).sqrt ((List.range kdim).foldl (fun u k => (realOps e f t).add u ((realOps e f t).mul
        (if kdim * n + k < n then Real.sqrt (∑ l ∈ range kdim, bn (kdim * (kdim * n + k) + l) * bn (kdim * (kdim * n + k) + l)) else bn (kdim * n + k))
        (if kdim * n + k < n then Real.sqrt (∑ l ∈ range kdim, bn (kdim * (kdim * n + k) + l) * bn (kdim * (kdim * n + k) + l)) else bn (kdim * n + k)))) (realOps e f t).zero) =
        Real.sqrt (∑ k ∈ range kdim, bn (kdim * n + k) * bn (kdim * n + k)) := by
      rw [foldl_add_sum]
      show Real.sqrt _ = _
      congr 1
      apply sum_congr rfl; intro k _
      have : n ≤ kdim * n := Nat.le_mul_of_pos_left n hk
      rw [if_neg (by omega)]; rfl
    rw [hv]
    have hu : Function.update (fun j => if j < n then Real.sqrt (∑ k ∈ range kdim, bn (kdim * j + k) * bn (kdim * j + k)) else bn j) n
        (Real.sqrt (∑ k ∈ range kdim, bn (kdim * n + k) * bn (kdim * n + k))) =
        fun j => if j < n + 1 then Real.sqrt (∑ k ∈ range kdim, bn (kdim * j + k) * bn (kdim * j + k)) else bn j := by
      funext j
      by_cases hj : j = n
      · subst hj; rw [Function.update_self, if_pos (by omega)]
      · rw [Function.update_of_ne hj]
        by_cases hj' : j < n
        · rw [if_pos hj', if_pos (by omega)]
        · rw [if_neg hj', if_neg (by omega)]
    rw [hu]
    split <;> rfl

theorem partialPivotQRk_real {nrow ncol kdim sz : Nat} (hk : 0 < kdim) (tolRank : Int) (tol : ℝ) (rel : Bool) (M : Nat → Nat → ℝ) (p0 : Nat → Nat) (cn0 : Nat → ℝ)
    (V0 : Nat → Nat → ℝ) {fuel : Nat} (hf : ncol < fuel) :
    ∃ m : ℝ, (∀ j < ncol / kdim, Real.sqrt (btail nrow kdim 0 j M) ≤ m) ∧ 0 ≤ m ∧ (0 < ncol / kdim → ∃ j < ncol / kdim, m = Real.sqrt (btail nrow kdim 0 j M)) ∧
    partialPivotQRk (realOps e f t) sz nrow ncol kdim tolRank tol rel M p0 cn0 V0 fuel ≠ .diverge ∧
    ∀ q, partialPivotQRk (realOps e f t) sz nrow ncol kdim tolRank tol rel M p0 cn0 V0 fuel = .ok q → QRRes nrow ncol M q ∧
      ∃ b, q.1 = b * kdim ∧ ((b : Int) < tolRank.tdiv kdim → b < min nrow ncol / kdim → ∀ j, b ≤ j → j < ncol / kdim →
        Real.sqrt (btail nrow kdim b j q.2.2) < stopR e nrow tol rel m) := by
  set cn : Nat → ℝ := fun j => if j < ncol then Real.sqrt (tail nrow 0 (M j)) else cn0 j with hcn
  set bn : Nat → ℝ := fun j => Real.sqrt (∑ k ∈ range kdim, cn (kdim * j + k) * cn (kdim * j + k)) with hbn
  have hbt : ∀ j < ncol / kdim, bn j = Real.sqrt (btail nrow kdim 0 j M) := by
    intro j hj
    rw [hbn]; dsimp only; congr 1
    unfold btail
    apply sum_congr rfl; intro k hk'
    rw [mem_range] at hk'
    have : kdim * j + k < ncol := by
      have h1 := Nat.mul_le_mul_right kdim (show j + 1 ≤ ncol / kdim by omega)
      have h2 := Nat.div_mul_le_self ncol kdim
      rw [Nat.add_mul, Nat.mul_comm j] at h1; omega
    rw [hcn]; dsimp only; rw [if_pos this, Real.mul_self_sqrt (tail_nonneg _ _ _), Nat.mul_comm kdim j, Nat.zero_mul]
  set fp := findPivot (realOps e f t) bn 0 (ncol / kdim) with hfp
  have hdef : partialPivotQRk (realOps e f t) sz nrow ncol kdim tolRank tol rel M p0 cn0 V0 fuel =
      (qrkLoop (realOps e f t) sz nrow ncol kdim (stopR e nrow tol rel fp.2) (min ((min nrow ncol / kdim : Nat) : Int) (tolRank.tdiv kdim)) V0 fuel (min nrow ncol / kdim) 0
        ⟨fun j => if j < ncol then j else p0 j, fun j => if j < ncol / kdim then bn j else cn j, M, fp.1, fp.2⟩) >>= fun r => .ok (r.1, r.2.p, r.2.R) := by
    have : (fun j => if j < ncol then (realOps e f t).nrm2 nrow (M j) else cn0 j) = cn := by
      rw [hcn]; funext j
      show (if j < ncol then Real.sqrt (∑ k ∈ range nrow, M j k ^ 2) else cn0 j) = _
      unfold tail
      simp
    unfold partialPivotQRk
    dsimp only
    rw [this, blkNorms_real hk, stopNorm_real]
  have h0 : ∀ j, 0 ≤ j → j < ncol / kdim → 0 ≤ bn j := fun j _ _ => Real.sqrt_nonneg _
  have hp := findPivot_real (e := e) (f := f) (t := t) bn 0 (ncol / kdim) h0
  rw [← hfp] at hp
  have hinv : InvK nrow ncol kdim (stopR e nrow tol rel fp.2) M 0 ⟨fun j => if j < ncol then j else p0 j, fun j => if j < ncol / kdim then bn j else cn j, M, fp.1, fp.2⟩ := by
    refine ⟨⟨fun j => j, IsPerm.id _, ?_, ?_⟩, ?_, fun j hj => by omega, fun j hj => by omega, ?_, ?_, ?_⟩
    · intro j hj k hk'
      have : j * kdim + k < ncol := by
        have h1 := Nat.mul_le_mul_right kdim (show j + 1 ≤ ncol / kdim by omega)
        have h2 := Nat.div_mul_le_self ncol kdim
        rw [Nat.add_mul] at h1; omega
      dsimp only; rw [if_pos this]
    · intro u _ hu; dsimp only; rw [if_pos hu]
    · intro j hj k hk'
      dsimp only
      rw [if_pos hj, if_pos hk']
    · intro j hj hj'
      dsimp only
      rw [if_pos hj']
      exact ⟨h0 j hj hj', Or.inl (hbt j hj')⟩
    · intro hlt
      have := findPivot_mem (realOps e f t) bn hlt
      rw [← hfp] at this
      refine ⟨this.1, this.2, ?_⟩
      dsimp only
      rw [if_pos this.2]
      exact hp.2.2 hlt
    · intro j hj hj'
      dsimp only
      rw [if_pos hj']
      exact hp.1 j hj hj'
  obtain ⟨l1, l3⟩ := qrkLoop_inv (e := e) (f := f) (t := t) (sz := sz) (V0 := V0) hf (min ((min nrow ncol / kdim : Nat) : Int) (tolRank.tdiv kdim)) (min nrow ncol / kdim) 0 _ hinv (by omega)
  refine ⟨fp.2, ?_, hp.2.1, ?_, ?_, ?_⟩
  · intro j hj
    rw [← hbt j hj]; exact hp.1 j (Nat.zero_le _) hj
  · intro hn
    have h1 := findPivot_mem (realOps e f t) bn hn
    rw [← hfp] at h1
    refine ⟨fp.1, h1.2, ?_⟩
    rw [← hbt _ h1.2]; exact (hp.2.2 hn).symm
  · rw [hdef]
    cases hl : qrkLoop (realOps e f t) sz nrow ncol kdim (stopR e nrow tol rel fp.2) (min ((min nrow ncol / kdim : Nat) : Int) (tolRank.tdiv kdim)) V0 fuel (min nrow ncol / kdim) 0
        ⟨fun j => if j < ncol then j else p0 j, fun j => if j < ncol / kdim then bn j else cn j, M, fp.1, fp.2⟩ with
    | ok r => simp
    | ub => simp
    | diverge => exact absurd hl l1
  · intro q hq
    rw [hdef] at hq
    cases hl : qrkLoop (realOps e f t) sz nrow ncol kdim (stopR e nrow tol rel fp.2) (min ((min nrow ncol / kdim : Nat) : Int) (tolRank.tdiv kdim)) V0 fuel (min nrow ncol / kdim) 0
        ⟨fun j => if j < ncol then j else p0 j, fun j => if j < ncol / kdim then bn j else cn j, M, fp.1, fp.2⟩ with
    | ok r =>
      rw [hl] at hq
      simp only [Res.bind_ok, Res.ok.injEq] at hq
      obtain ⟨b, i0, i1, i2, i3⟩ := l3 r hl
      subst hq
      have hb : b * kdim ≤ min nrow ncol := le_trans (Nat.mul_le_mul_right kdim i2) (Nat.div_mul_le_self _ _)
      refine ⟨⟨i1.perm.isPerm hk, by dsimp only; omega, i1.gram, by dsimp only; rw [i0]; exact i1.upper, by dsimp only; rw [i0]; exact i1.diag⟩, b, i0, ?_⟩
      intro hlt hlt' j hj hj'
      dsimp only at *
      have hst : r.2.normp < stopR e nrow tol rel fp.2 := by
        rcases i3 with h | h | h
        · omega
        · exact h
        · omega
      rcases (i1.norm j hj hj').2 with h | h
      · rw [← h]; exact lt_of_le_of_lt (i1.max j hj hj') hst
      · exact h.2
    | ub => rw [hl] at hq; simp at hq
    | diverge => rw [hl] at hq; simp at hq

end H2Pack.ID
