import Verif.Proof.Proxy2

/-! # Proxy points: doubling -/

namespace H2Pack.Proxy
open H2Pack.ID H2Pack.MV Finset

theorem ptDist_eq (dim : Nat) (x y : Pt) : ptDist dim x y = dist2 dim x y := by
  unfold ptDist dist2
  rw [foldl_sum]
  congr 1
  apply sum_congr rfl; intro j _; ring

theorem dist2_comm (dim : Nat) (x y : Pt) : dist2 dim x y = dist2 dim y x := by
  unfold dist2
  congr 1
  apply sum_congr rfl; intro j _; ring

theorem minDist_fold (dim : Nat) (Y : List Pt) : ∀ (l : List (Nat × Nat)) (m : Nat → ℝ) (i : Nat),
    (l.foldl (fun m p =>
      let d := ptDist dim (at' Y p.1) (at' Y p.2)
      let m1 := Function.update m p.1 (min (m p.1) d)
      Function.update m1 p.2 (min (m1 p.2) d)) m) i ≤ m i ∧
    (∀ p ∈ l, p.1 ≠ p.2 → (p.1 = i ∨ p.2 = i) → (l.foldl (fun m p =>
      let d := ptDist dim (at' Y p.1) (at' Y p.2)
      let m1 := Function.update m p.1 (min (m p.1) d)
      Function.update m1 p.2 (min (m1 p.2) d)) m) i ≤ dist2 dim (at' Y p.1) (at' Y p.2)) ∧
    ((l.foldl (fun m p =>
      let d := ptDist dim (at' Y p.1) (at' Y p.2)
      let m1 := Function.update m p.1 (min (m p.1) d)
      Function.update m1 p.2 (min (m1 p.2) d)) m) i = m i ∨ ∃ p ∈ l, (p.1 = i ∨ p.2 = i) ∧ (l.foldl (fun m p =>
      let d := ptDist dim (at' Y p.1) (at' Y p.2)
      let m1 := Function.update m p.1 (min (m p.1) d)
      Function.update m1 p.2 (min (m1 p.2) d)) m) i = dist2 dim (at' Y p.1) (at' Y p.2)) := by
  intro l
  induction l with
  | nil => intro m i; simp
  | cons q l ih =>
    intro m i
    rw [List.foldl_cons]
    dsimp only
    set d := ptDist dim (at' Y q.1) (at' Y q.2) with hd
    set m1 := Function.update m q.1 (min (m q.1) d) with hm1
    set m2 := Function.update m1 q.2 (min (m1 q.2) d) with hm2
    have h0 : ∀ k, m1 k ≤ m k := by
      intro k
      by_cases h : k = q.1
      · rw [hm1, Function.update_apply, if_pos h, h]; exact min_le_left _ _
      · rw [hm1, Function.update_apply, if_neg h]
    have h1 : ∀ k, m2 k ≤ m k := by
      intro k
      by_cases h : k = q.2
      · rw [hm2, Function.update_apply, if_pos h, h]; exact le_trans (min_le_left _ _) (h0 _)
      · rw [hm2, Function.update_apply, if_neg h]; exact h0 k
    have h2 : (q.1 = i ∨ q.2 = i) → m2 i ≤ d := by
      rintro (h | h)
      · rw [hm2, Function.update_apply]
        split
        · exact min_le_right _ _
        · rw [hm1, Function.update_apply, if_pos h.symm]; exact min_le_right _ _
      · rw [hm2, Function.update_apply, if_pos h.symm]; exact min_le_right _ _
    have h3 : m2 i = m i ∨ ((q.1 = i ∨ q.2 = i) ∧ m2 i = d) := by
      rw [hm2, Function.update_apply]
      split
      · next h =>
        subst h
        rcases min_choice (m1 q.2) d with h | h <;> rw [h]
        · rw [hm1, Function.update_apply]
          split
          · next h' =>
            rcases min_choice (m q.1) d with h'' | h'' <;> rw [h'']
            · left; rw [h']
            · exact Or.inr ⟨Or.inr rfl, rfl⟩
          · exact Or.inl rfl
        · exact Or.inr ⟨Or.inr rfl, rfl⟩
      · rw [hm1, Function.update_apply]
        split
        · next h =>
          subst h
          rcases min_choice (m q.1) d with h'' | h'' <;> rw [h'']
          · exact Or.inl rfl
          · exact Or.inr ⟨Or.inl rfl, rfl⟩
        · exact Or.inl rfl
    obtain ⟨a1, a2, a3⟩ := ih m2 i
    dsimp only at a1 a2 a3
    refine ⟨le_trans a1 (h1 i), ?_, ?_⟩
    · intro p hp hne hpi
      rcases List.mem_cons.1 hp with rfl | hp
      · rw [← ptDist_eq]; exact le_trans a1 (h2 hpi)
      · exact a2 p hp hne hpi
    · rcases a3 with a3 | ⟨p, hp, hpi, a3⟩
      · rcases h3 with h3 | ⟨hq, h3⟩
        · exact Or.inl (a3.trans h3)
        · exact Or.inr ⟨q, by simp, hq, by rw [a3, h3, hd, ptDist_eq]⟩
      · exact Or.inr ⟨p, List.mem_cons_of_mem _ hp, hpi, a3⟩

theorem minDist_spec (dim : Nat) (Y : List Pt) (i : Nat) (hi : i < Y.length) :
    (∀ j < Y.length, j ≠ i → minDist dim Y i ≤ dist2 dim (at' Y i) (at' Y j)) ∧
    (minDist dim Y i = 10 ^ 99 ∨ ∃ j < Y.length, j ≠ i ∧ minDist dim Y i = dist2 dim (at' Y i) (at' Y j)) := by
  have hmem : ∀ p : Nat × Nat, p ∈ ((List.range Y.length).flatMap fun i => (List.range i).map fun j => (i, j)) ↔ p.1 < Y.length ∧ p.2 < p.1 := by
    intro p
    obtain ⟨a, b⟩ := p
    simp [List.mem_flatMap]
  obtain ⟨_, h2, h3⟩ := minDist_fold dim Y ((List.range Y.length).flatMap fun i => (List.range i).map fun j => (i, j)) (fun _ => 10 ^ 99) i
  unfold minDist
  refine ⟨fun j hj hji => ?_, ?_⟩
  · rcases Nat.lt_or_gt_of_ne hji with h | h
    · exact h2 (i, j) ((hmem _).2 ⟨hi, h⟩) (by dsimp only; omega) (Or.inl rfl)
    · have := h2 (j, i) ((hmem _).2 ⟨hj, h⟩) (by dsimp only; omega) (Or.inr rfl)
      dsimp only at this
      rw [dist2_comm]; exact this
  · rcases h3 with h3 | ⟨p, hp, hpi, h3⟩
    · exact Or.inl h3
    · right
      obtain ⟨q1, q2⟩ := (hmem p).1 hp
      rcases hpi with rfl | rfl
      · exact ⟨p.2, by omega, by omega, h3⟩
      · exact ⟨p.1, by omega, by omega, by rw [dist2_comm]; exact h3⟩

theorem nearDraw_spec {G : Gen} {x : Pt} {rad : ℝ} (hr : 0 ≤ rad) : ∀ fr t {y : Pt} {t' : Nat}, nearDraw G x rad fr t = .ok (y, t') →
    InBox G.dim G.L3 y ∧ ¬ InBox G.dim G.L2 y ∧ dist2 G.dim y x = rad := by
  intro fr
  induction fr with
  | zero => intro t y t' h; simp [nearDraw] at h
  | succ fr ih =>
    intro t y t' h
    rw [nearDraw] at h
    split at h
    · next hc =>
      rw [Res.ok.injEq, Prod.mk.injEq] at h
      obtain ⟨c1, c2, c3⟩ := hc
      rw [← h.1]
      refine ⟨(pointInBox_iff _ _ _).1 c3, (pointInBox_false _ _ _).1 c2, ?_⟩
      have hfs := foldl_sum G.dim (fun j => (G.rnd (t + j) - 1/2) * (G.rnd (t + j) - 1/2))
      beta_reduce at hfs
      rw [hfs] at c1 ⊢
      set r1 := ∑ j ∈ range G.dim, (G.rnd (t + j) - 1/2) * (G.rnd (t + j) - 1/2) with hr1
      have hpos : 0 < r1 := lt_of_le_of_ne (sum_nonneg fun j _ => mul_self_nonneg _) (Ne.symm c1)
      unfold dist2
      have : ∑ j ∈ range G.dim, ((if j < G.dim then (G.rnd (t + j) - 1/2) * (1 / Real.sqrt r1) * rad + x j else 0) - x j) ^ 2 = rad ^ 2 := by
        have : ∀ j ∈ range G.dim, ((if j < G.dim then (G.rnd (t + j) - 1/2) * (1 / Real.sqrt r1) * rad + x j else 0) - x j) ^ 2 =
            ((G.rnd (t + j) - 1/2) * (G.rnd (t + j) - 1/2)) * ((1 / Real.sqrt r1) ^ 2 * rad ^ 2) := by
          intro j hj
          rw [if_pos (Finset.mem_range.1 hj)]; ring
        rw [sum_congr rfl this, ← sum_mul, ← hr1, one_div, inv_pow, Real.sq_sqrt hpos.le]
        field_simp
      rw [this, Real.sqrt_sq hr]
    · exact ih _ h

theorem densify_spec {G : Gen} {m : Nat → ℝ} {fr : Nat} : ∀ (Y : List Pt) (i t : Nat) {pp : List Pt}, (∀ k < Y.length, 0 ≤ m (i + k)) → densify G m fr Y i t = .ok pp →
    pp.length = 2 * Y.length ∧ ∀ k < Y.length, at' pp (2 * k) = at' Y k ∧ InBox G.dim G.L3 (at' pp (2 * k + 1)) ∧ ¬ InBox G.dim G.L2 (at' pp (2 * k + 1)) ∧
      dist2 G.dim (at' pp (2 * k + 1)) (at' Y k) = m (i + k) * (33 / 100) := by
  intro Y
  induction Y with
  | nil =>
    intro i t pp _ h
    rw [densify, Res.ok.injEq] at h
    subst h
    simp
  | cons x Y ih =>
    intro i t pp hm h
    rw [densify] at h
    cases ha : nearDraw G x (m i * (33 / 100)) fr t with
    | ub => rw [ha] at h; simp at h
    | diverge => rw [ha] at h; simp at h
    | ok a =>
      rw [ha, Res.bind_ok] at h
      cases hb : densify G m fr Y (i + 1) a.2 with
      | ub => rw [hb] at h; simp at h
      | diverge => rw [hb] at h; simp at h
      | ok b =>
        rw [hb, Res.bind_ok, Res.ok.injEq] at h
        subst h
        have h0 := hm 0 (by simp)
        obtain ⟨h1, h2⟩ := ih (i + 1) a.2 (fun k hk => by have := hm (k + 1) (by simp; omega); rwa [show i + (k + 1) = i + 1 + k by ring] at this) hb
        refine ⟨by simp [h1]; ring, fun k hk => ?_⟩
        cases k with
        | zero => exact ⟨rfl, nearDraw_spec (y := a.1) (t' := a.2) (mul_nonneg h0 (by norm_num)) fr t ha⟩
        | succ k =>
          have := h2 k (by simp at hk; omega)
          rw [show i + 1 + k = i + (k + 1) by ring] at this
          exact this

theorem dist2_nonneg (dim : Nat) (x y : Pt) : 0 ≤ dist2 dim x y := Real.sqrt_nonneg _

theorem doubled {G : Gen} {fr t : Nat} {Y pp : List Pt} (h : densify G (minDist G.dim Y) fr Y 0 t = .ok pp) : Doubled G.dim G.L2 G.L3 Y pp := by
  have hnn : ∀ k < Y.length, 0 ≤ minDist G.dim Y (0 + k) := by
    intro k hk
    rw [Nat.zero_add]
    rcases (minDist_spec G.dim Y k hk).2 with h | ⟨j, _, _, h⟩
    · rw [h]; positivity
    · rw [h]; exact dist2_nonneg _ _ _
  obtain ⟨h1, h2⟩ := densify_spec Y 0 t hnn h
  refine ⟨h1, fun i hi => ?_⟩
  obtain ⟨a1, a2, a3, a4⟩ := h2 i hi
  obtain ⟨b1, b2⟩ := minDist_spec G.dim Y i hi
  rw [Nat.zero_add] at a4
  exact ⟨a1, a2, a3, _, b1, b2, a4⟩

/-- Two points of a box are not far from each other. -/
theorem dist2_box {dim : Nat} {L : ℝ} {x y : Pt} (hL : 0 ≤ L) (hx : InBox dim L x) (hy : InBox dim L y) : dist2 dim x y ≤ Real.sqrt dim * L := by
  unfold dist2
  rw [← Real.sqrt_sq hL, ← Real.sqrt_mul (Nat.cast_nonneg dim)]
  apply Real.sqrt_le_sqrt
  calc ∑ j ∈ range dim, (x j - y j) ^ 2 ≤ ∑ j ∈ range dim, L ^ 2 := by
        apply sum_le_sum; intro j hj; rw [Finset.mem_range] at hj
        have h1 := abs_le.1 (hx j hj)
        have h2 := abs_le.1 (hy j hj)
        nlinarith [h1.1, h1.2, h2.1, h2.2]
    _ = dim * L ^ 2 := by rw [sum_const, card_range, nsmul_eq_mul]

end H2Pack.Proxy
