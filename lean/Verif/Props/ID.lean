import Verif.Proof.ID3

/-!
# C28, C29, C47: interpolative decomposition and pivoted QR
-/

namespace H2Pack.ID

open Finset

variable {K : Type}

/-! ## C29 -/

/-- C29: the rank is at most the number of rows, of columns and the given maximal rank; the columns are permuted in groups of `kdim`
and the rank is a number of whole groups.  For every arithmetic. -/
theorem C29_rank (O : Ops K) (sz nrow ncol kdim : Nat) (hk : 0 < kdim) (st : Stop K) (R : Nat → Nat → K) (E : IDEnv K) (fuel : Nat) (r : Nat) (p : Nat → Nat) (R' : Nat → Nat → K)
    (h : idQR O sz nrow ncol kdim st R E fuel = .ok (r, p, R')) :
    r ≤ nrow ∧ r ≤ ncol ∧ (∀ n, st = .rank n → (r : Int) ≤ max 0 n) ∧ kdim ∣ r ∧ IsPerm ncol p ∧
      ∀ j < ncol / kdim, ∃ g < ncol / kdim, ∀ k < kdim, p (j * kdim + k) = g * kdim + k := by
  obtain ⟨a, b, c, d, g⟩ := idQR_perm hk h
  refine ⟨a, b, ?_, d, g.isPerm hk, ?_⟩
  · rintro n rfl; exact c
  · obtain ⟨σ, s1, s2, _⟩ := g
    exact fun j hj => ⟨σ j, s1.lt j hj, s2 j hj⟩

/-- C29: with an arithmetic whose divisions all have results, the factorization always ends with a result. -/
theorem C29_ends (O : Ops K) (hO : O.Total) (sz nrow ncol kdim : Nat) (st : Stop K) (R : Nat → Nat → K) (E : IDEnv K) :
    ∃ q, Returns (fun fuel => idQR O sz nrow ncol kdim st R E fuel) q := by
  have hf := idQR_fine (tot := True) (O := O) (fun a b => by obtain ⟨c, hc⟩ := hO a b; rw [hc]; exact Fine.ok _) sz nrow ncol kdim st R E (show ncol < ncol + 1 by omega)
  cases hq : idQR O sz nrow ncol kdim st R E (ncol + 1) with
  | ok q =>
    refine ⟨q, ncol + 1, fun fuel hfu => ?_⟩
    dsimp only
    rw [idQR_fuel sz nrow ncol kdim st R E (show ncol < fuel by omega) (show ncol < ncol + 1 by omega), hq]
  | ub => exact absurd hq (hf.2 trivial)
  | diverge => exact absurd hq hf.1

/-! ## C28 -/

theorem Parts.selected {O : Ops K} {nrow kdim : Nat} (hk : 0 < kdim) {q : Nat × (Nat → Nat) × (Nat → Nat → K)} {J0 i0 : Nat → Nat} {X : Nat → Nat → K}
    {J : Nat → Nat} {len : Nat} {U : H2Pack.Dense.Mat K} (h : Parts O nrow kdim true q J0 i0 X ((J, len), U)) (hr : q.1 ≤ nrow) (hd : kdim ∣ q.1) (hb : BlkPerm kdim nrow q.2.1)
    (h0 : q.1 = 0 → U.nrow * U.ld ≤ U.size ∧ U.ncol ≤ U.ld) :
    Selected O.zero O.one nrow kdim J len U := by
  obtain ⟨s1, s2, s3, s4⟩ := h.skel hk hr hd hb
  dsimp only at s1 s2 s3 s4
  refine ⟨s3, s4, h.rows rfl, by rw [h.cols rfl, s1], ?_, ?_⟩
  · by_cases hz : q.1 = 0
    · exact h0 hz
    · exact ⟨(h.wf rfl hz).2, (h.wf rfl hz).1⟩
  · rw [s1]
    intro i hi t ht
    rw [s2 i hi]; exact h.low rfl i hi t ht

/-- C28: for every arithmetic the decomposition of a matrix with at least one row either stops at a division that has no result, or
returns increasing row (group) numbers in range and `U` with the identity in those rows. -/
theorem C28_selection (O : Ops K) (hO : ∀ a b, O.div a b ≠ .diverge) (sz nrow ncol kdim : Nat) (hk : 0 < kdim) (hn : 1 ≤ nrow) (st : Stop K) (A : Nat → Nat → K) (E : IDEnv K) :
    Fails (fun fuel => idCompress O sz nrow ncol kdim st A true E fuel) ∨
    ∃ J len U, Returns (fun fuel => idCompress O sz nrow ncol kdim st A true E fuel) ((J, len), U) ∧ Selected O.zero O.one nrow kdim J len U ∧
      len * kdim ≤ nrow ∧ len * kdim ≤ ncol ∧ ∀ n, st = .rank n → ((len * kdim : Nat) : Int) ≤ max 0 n := by
  have hfine := idQR_fine (tot := False) (O := O) (fun a b => ⟨hO a b, False.elim⟩) sz ncol nrow kdim st A E (show nrow < nrow + 1 by omega)
  cases hq : idQR O sz ncol nrow kdim st A E (nrow + 1) with
  | ub =>
    left
    refine ⟨nrow + 1, fun fuel hf => ?_⟩
    dsimp only
    unfold idCompress
    rw [idQR_fuel sz ncol nrow kdim st A E (show nrow < fuel by omega) (show nrow < nrow + 1 by omega), hq, Res.bind_ub]
  | diverge => exact absurd hq hfine.1
  | ok q =>
    rcases idCompress_of_qr (wantU := true) hk hn hq with ⟨_, _, _, h⟩ | ⟨_, h0, h1⟩ | ⟨J0, i0, X, ⟨⟨J, len⟩, U⟩, h1, h2⟩
    · left; exact h
    · exfalso
      revert h1
      have : ∀ n j R, trsm O q.1 n j R ≠ .diverge := by
        have hc : ∀ n (D : Nat → Nat → K) b, trsmCol O D n b ≠ .diverge := by
          intro n D
          induction n with
          | zero => intro b; simp [trsmCol]
          | succ n ih =>
            intro b
            rw [trsmCol]
            cases hd : O.div (b n) (D n n) with
            | ok c => rw [Res.bind_ok]; exact ih _
            | ub => simp
            | diverge => exact absurd hd (hO _ _)
        intro n
        induction n with
        | zero => intro j R; simp [trsm]
        | succ n ih =>
          intro j R
          rw [trsm]
          cases hd : trsmCol O R q.1 (R j) with
          | ok c => rw [Res.bind_ok]; exact ih _ _
          | ub => simp
          | diverge => exact absurd hd (hc _ _ _)
      exact this _ _ _
    · right
      obtain ⟨r1, r2, r3, r4, r5⟩ := idQR_perm hk hq
      have s1 := (h2.skel hk r2 r4 r5).1
      dsimp only at s1
      refine ⟨J, len, U, h1, h2.selected hk r2 r4 r5 ?_, by omega, by omega, ?_⟩
      · intro h0
        obtain ⟨F, hF⟩ := h1
        have hU : U = ⟨nrow, 0, 0, 0, E.u0⟩ := by
          have h3 := hF (max F (nrow + 1)) (le_max_left _ _)
          beta_reduce at h3
          unfold idCompress at h3
          rw [idQR_fuel sz ncol nrow kdim st A E (show nrow < max F (nrow + 1) by omega) (show nrow < nrow + 1 by omega), hq, Res.bind_ok] at h3
          dsimp only at h3
          cases hs : H2Pack.CSR.qsort (κ := Int) (ν := Int) nrow (max F (nrow + 1)) ⟨fun k => q.2.1 k.toNat, fun k => k⟩ 0 ((q.1 : Int) - 1) with
          | ok kv =>
            rw [hs, Res.bind_ok, if_pos h0, Res.bind_ok, Res.ok.injEq, Prod.mk.injEq] at h3
            exact h3.2.symm
          | ub => rw [hs] at h3; simp at h3
          | diverge => rw [hs] at h3; simp at h3
        rw [hU]; simp
      · rintro n rfl; rw [s1]; exact r3

/-- C28: with an arithmetic whose divisions all have results (IEEE), the decomposition always returns. -/
theorem C28_returns (O : Ops K) (hO : O.Total) (sz nrow ncol kdim : Nat) (hk : 0 < kdim) (hn : 1 ≤ nrow) (st : Stop K) (A : Nat → Nat → K) (E : IDEnv K) :
    ∃ J len U, Returns (fun fuel => idCompress O sz nrow ncol kdim st A true E fuel) ((J, len), U) ∧ Selected O.zero O.one nrow kdim J len U := by
  rcases C28_selection O (fun a b => by obtain ⟨c, hc⟩ := hO a b; rw [hc]; simp) sz nrow ncol kdim hk hn st A E with ⟨F, hF⟩ | ⟨J, len, U, h1, h2, _⟩
  · exfalso
    obtain ⟨q, G, hG⟩ := C29_ends O hO sz ncol nrow kdim st A E
    have hq : idQR O sz ncol nrow kdim st A E (nrow + 1) = .ok q := by
      rw [idQR_fuel sz ncol nrow kdim st A E (show nrow < nrow + 1 by omega) (show nrow < max G (nrow + 1) by omega)]
      exact hG _ (le_max_left _ _)
    obtain ⟨X, hX⟩ := trsm_total (O := O) (r := q.1) (nrow - q.1) q.1 q.2.2 (le_refl _) fun b => trsmCol_total (fun n b => hO b _) q.1 b
    rcases idCompress_of_qr (wantU := true) hk hn hq with ⟨_, _, h, _⟩ | ⟨_, _, h⟩ | ⟨_, _, _, res, ⟨G, hG⟩, _⟩
    · rw [hX] at h; simp at h
    · rw [hX] at h; simp at h
    · have h1 := hF (max F G) (le_max_left _ _)
      have h2 := hG (max F G) (le_max_right _ _)
      rw [h1] at h2; simp at h2
  · exact ⟨J, len, U, h1, h2⟩

variable {e f t : ℝ}

/-- C28: in exact arithmetic the rows of `U` are the best coefficients: no other combination of the selected rows is closer to any row
of the matrix. -/
theorem C28_best (sz nrow ncol kdim : Nat) (hk : 0 < kdim) (hn : 1 ≤ nrow) (st : Stop ℝ) (A : Nat → Nat → ℝ) (E : IDEnv ℝ) (J : Nat → Nat) (len : Nat) (U : H2Pack.Dense.Mat ℝ)
    (h : Returns (fun fuel => idCompress (realOps e f t) sz nrow ncol kdim st A true E fuel) ((J, len), U)) (j : Nat) (hj : j < nrow) (x : Nat → ℝ) :
    rowErr ncol (len * kdim) A U.entry (skel kdim J) j ≤ ∑ c ∈ range ncol, (A j c - ∑ i ∈ range (len * kdim), x i * A (skel kdim J i) c) ^ 2 := by
  obtain ⟨p, R, _, hF⟩ := real_facts hk hn h
  rcases hF.row hj with ⟨i, hi, rfl⟩ | ⟨a, ha, ha', rfl⟩
  · rw [hF.err_sel hi]; exact sum_nonneg fun _ _ => sq_nonneg _
  · rw [hF.err a ha ha']
    obtain ⟨i0, s1, s2, s3⟩ := hF.sel
    set y : Nat → ℝ := fun u => x (invPerm (len * kdim) i0 (fun _ => 0) u) with hy
    have hsum : ∀ c, ∑ i ∈ range (len * kdim), x i * A (skel kdim J i) c = ∑ u ∈ range (len * kdim), y u * A (p u) c := by
      intro c
      rw [← sum_perm s1 s2 (fun u => y u * A (p u) c)]
      apply sum_congr rfl; intro i hi; rw [mem_range] at hi
      rw [s3 i hi, hy]; dsimp only; rw [invPerm_spec s2 _ hi]
    have hd := QRRes.dist hF.res ha' y
    dsimp only at hd
    have : ∑ c ∈ range ncol, (A (p a) c - ∑ i ∈ range (len * kdim), x i * A (skel kdim J i) c) ^ 2 = ∑ c ∈ range ncol, (A (p a) c - ∑ u ∈ range (len * kdim), y u * A (p u) c) ^ 2 :=
      sum_congr rfl fun c _ => by rw [hsum c]
    rw [this, hd]
    have : 0 ≤ ∑ k ∈ range (len * kdim), (R a k - ∑ u ∈ range (len * kdim), y u * (if k ≤ u then R u k else 0)) ^ 2 := sum_nonneg fun _ _ => sq_nonneg _
    linarith

/-- C28: in exact arithmetic the selected rows are linearly independent. -/
theorem C28_independent (sz nrow ncol kdim : Nat) (hk : 0 < kdim) (hn : 1 ≤ nrow) (st : Stop ℝ) (A : Nat → Nat → ℝ) (E : IDEnv ℝ) (J : Nat → Nat) (len : Nat) (U : H2Pack.Dense.Mat ℝ)
    (h : Returns (fun fuel => idCompress (realOps e f t) sz nrow ncol kdim st A true E fuel) ((J, len), U)) (x : Nat → ℝ)
    (hx : ∀ c < ncol, ∑ i ∈ range (len * kdim), x i * A (skel kdim J i) c = 0) : ∀ i < len * kdim, x i = 0 := by
  obtain ⟨p, R, _, hF⟩ := real_facts hk hn h
  exact hF.indep x hx

/-- C28: in exact arithmetic, when the rank of the matrix is at most the reported rank (the matrix is a product with `len * kdim`
inner columns), the matrix is `U` times its selected rows. -/
theorem C28_exact (sz nrow ncol kdim : Nat) (hk : 0 < kdim) (hn : 1 ≤ nrow) (st : Stop ℝ) (A : Nat → Nat → ℝ) (E : IDEnv ℝ) (J : Nat → Nat) (len : Nat) (U : H2Pack.Dense.Mat ℝ)
    (h : Returns (fun fuel => idCompress (realOps e f t) sz nrow ncol kdim st A true E fuel) ((J, len), U))
    (P Q : Nat → Nat → ℝ) (hA : ∀ j < nrow, ∀ c < ncol, A j c = ∑ k ∈ range (len * kdim), P j k * Q k c) :
    ∀ j < nrow, ∀ c < ncol, A j c = ∑ i ∈ range (len * kdim), U.entry j i * A (skel kdim J i) c := by
  obtain ⟨p, R, _, hF⟩ := real_facts hk hn h
  have hlt : ∀ i < len * kdim, skel kdim J i < nrow := by
    obtain ⟨i0, s1, _, s3⟩ := hF.sel
    intro i hi
    rw [s3 i hi]
    have hle := hF.res.le
    have := s1 i hi
    dsimp only at hle
    exact hF.res.perm.lt _ (by omega)
  have hind := hF.indep
  have hbest := C28_best sz nrow ncol kdim hk hn st A E J len U h
  set r := len * kdim with hr
  set s := skel kdim J with hs
  let PJ : Matrix (Fin r) (Fin r) ℝ := fun i k => P (s i) k
  have hdet : PJ.det ≠ 0 := by
    intro h0
    obtain ⟨v, hv, hv0⟩ := Matrix.exists_vecMul_eq_zero_iff.2 h0
    apply hv
    set x : Nat → ℝ := fun i => if hi : i < r then v ⟨i, hi⟩ else 0 with hx
    have hxv : ∀ i : Fin r, x i = v i := fun i => by rw [hx]; simp
    have := hind x (by
      intro c hc
      have h1 : ∑ i ∈ range r, x i * A (s i) c = ∑ i ∈ range r, ∑ k ∈ range r, x i * P (s i) k * Q k c := by
        apply sum_congr rfl; intro i hi; rw [mem_range] at hi
        rw [hA _ (hlt i hi) c hc, mul_sum]
        apply sum_congr rfl; intro k _; ring
      rw [h1, sum_comm]
      apply sum_eq_zero; intro k hk'; rw [mem_range] at hk'
      rw [← sum_mul]
      have h2 : ∑ i ∈ range r, x i * P (s i) k = 0 := by
        have h3 := congrFun hv0 ⟨k, hk'⟩
        rw [Matrix.vecMul, dotProduct] at h3
        rw [← Fin.sum_univ_eq_sum_range (fun i => x i * P (s i) k)]
        simp only [Pi.zero_apply] at h3
        rw [← h3]
        apply sum_congr rfl; intro i _; rw [hxv i]
      rw [h2, zero_mul])
    funext i
    rw [← hxv i]; exact this i i.2
  have hunit : IsUnit PJ.det := isUnit_iff_ne_zero.2 hdet
  intro j hj c hc
  let y : Fin r → ℝ := Matrix.vecMul (fun k : Fin r => P j k) PJ⁻¹
  have hy : Matrix.vecMul y PJ = fun k : Fin r => P j k := by
    show Matrix.vecMul (Matrix.vecMul _ _) _ = _
    rw [Matrix.vecMul_vecMul, Matrix.nonsing_inv_mul _ hunit, Matrix.vecMul_one]
  set x : Nat → ℝ := fun i => if hi : i < r then y ⟨i, hi⟩ else 0 with hx
  have hxv : ∀ i : Fin r, x i = y i := fun i => by rw [hx]; simp
  have hcomb : ∀ c < ncol, ∑ i ∈ range r, x i * A (s i) c = A j c := by
    intro c hc
    have h1 : ∑ i ∈ range r, x i * A (s i) c = ∑ i ∈ range r, ∑ k ∈ range r, x i * P (s i) k * Q k c := by
      apply sum_congr rfl; intro i hi; rw [mem_range] at hi
      rw [hA _ (hlt i hi) c hc, mul_sum]
      apply sum_congr rfl; intro k _; ring
    rw [h1, sum_comm, hA j hj c hc]
    apply sum_congr rfl; intro k hk'; rw [mem_range] at hk'
    rw [← sum_mul]
    congr 1
    have h3 := congrFun hy ⟨k, hk'⟩
    rw [Matrix.vecMul, dotProduct] at h3
    rw [← Fin.sum_univ_eq_sum_range (fun i => x i * P (s i) k)]
    rw [← h3]
    apply sum_congr rfl; intro i _; rw [hxv i]
  have hb := hbest j hj x
  have hz : ∑ c ∈ range ncol, (A j c - ∑ i ∈ range r, x i * A (s i) c) ^ 2 = 0 := by
    apply sum_eq_zero; intro c hc; rw [mem_range] at hc
    rw [hcomb c hc]; ring
  rw [hz] at hb
  have hzero : rowErr ncol r A U.entry s j = 0 := le_antisymm hb (sum_nonneg fun _ _ => sq_nonneg _)
  have := (sum_eq_zero_iff_of_nonneg (fun c _ => sq_nonneg _)).1 hzero c (mem_range.2 hc)
  have := pow_eq_zero_iff (two_ne_zero) |>.1 this
  linarith

/-! ## C47 -/

theorem grpErr_le {nrow ncol kdim : Nat} (hk : 0 < kdim) (hdr : kdim ∣ nrow) (hdc : kdim ∣ ncol) {A : Nat → Nat → ℝ} {J : Nat → Nat} {len : Nat} {U : H2Pack.Dense.Mat ℝ}
    {p : Nat → Nat} {R : Nat → Nat → ℝ} (hF : Facts nrow ncol kdim A J len U p R) {S : ℝ} (hS : 0 ≤ S)
    (h : len < min ncol nrow / kdim → ∀ j, len ≤ j → j < nrow / kdim → Real.sqrt (btail ncol kdim len j R) < S) :
    ∀ j < nrow / kdim, grpErr ncol kdim (len * kdim) A U.entry (skel kdim J) j ≤ S := by
  intro j hj
  obtain ⟨σ, b1, b2, _⟩ := hF.blk
  obtain ⟨g, hg, rfl⟩ := b1.surj hj
  have hnm : nrow / kdim * kdim = nrow := Nat.div_mul_cancel hdr
  have hle := hF.res.le
  dsimp only at hle
  by_cases hgl : g < len
  · have : grpErr ncol kdim (len * kdim) A U.entry (skel kdim J) (σ g) = 0 := by
      unfold grpErr
      rw [sum_eq_zero, Real.sqrt_zero]
      intro k hk'; rw [mem_range] at hk'
      rw [← b2 g hg k hk']
      have hlt : g * kdim + k < len * kdim := by
        have := Nat.mul_le_mul_right kdim (show g + 1 ≤ len by omega)
        rw [Nat.add_mul] at this; omega
      obtain ⟨i0, s1, s2, s3⟩ := hF.sel
      obtain ⟨i, hi, hi'⟩ := (⟨s1, s2⟩ : IsPerm _ i0).surj hlt
      rw [← hi', ← s3 i hi]
      exact hF.err_sel hi
    rw [this]; exact hS
  · have hb : grpErr ncol kdim (len * kdim) A U.entry (skel kdim J) (σ g) = Real.sqrt (btail ncol kdim len g R) := by
      unfold grpErr btail
      congr 1
      apply sum_congr rfl; intro k hk'; rw [mem_range] at hk'
      rw [← b2 g hg k hk']
      have h1 := Nat.mul_le_mul_right kdim (show len ≤ g by omega)
      have h2 := Nat.mul_le_mul_right kdim (show g + 1 ≤ nrow / kdim by omega)
      rw [Nat.add_mul, hnm] at h2
      exact hF.err _ (by omega) (by omega)
    rw [hb]
    by_cases hlen : len < min ncol nrow / kdim
    · exact le_of_lt (h hlen g (by omega) hg)
    · have hlen' : min ncol nrow / kdim ≤ len := by omega
      have h3 : ncol ≤ len * kdim := by
        rcases Nat.le_total ncol nrow with hc | hc
        · rw [min_eq_left hc] at hlen'
          have := Nat.mul_le_mul_right kdim hlen'
          rwa [Nat.div_mul_cancel hdc] at this
        · rw [min_eq_right hc] at hlen'
          omega
      have : btail ncol kdim len g R = 0 := by
        unfold btail
        apply sum_eq_zero; intro k _
        unfold tail
        rw [show ncol - len * kdim = 0 by omega]; rfl
      rw [this, Real.sqrt_zero]; exact hS

theorem btail_zero (ncol kdim : Nat) (A : Nat → Nat → ℝ) (j : Nat) : Real.sqrt (btail ncol kdim 0 j A) = grpNorm ncol kdim A j := by
  unfold btail grpNorm tail
  congr 1
  apply sum_congr rfl; intro k _
  simp

/-- C47: with the relative criterion, the error of every group of rows is at most the tolerance times the largest norm of a group. -/
theorem C47_relative (he : 0 ≤ e) (sz nrow ncol kdim : Nat) (hk : 0 < kdim) (hn : 1 ≤ nrow) (hdr : kdim ∣ nrow) (hdc : kdim ∣ ncol) (tol : ℝ) (A : Nat → Nat → ℝ) (E : IDEnv ℝ)
    (J : Nat → Nat) (len : Nat) (U : H2Pack.Dense.Mat ℝ)
    (h : Returns (fun fuel => idCompress (realOps e f t) sz nrow ncol kdim (.rel tol) A true E fuel) ((J, len), U)) :
    ∀ j < nrow / kdim, ∃ i < nrow / kdim, grpErr ncol kdim (len * kdim) A U.entry (skel kdim J) j ≤ max (Real.sqrt ncol * e) (tol * Real.sqrt kdim) * grpNorm ncol kdim A i := by
  obtain ⟨p, R, hq, hF⟩ := real_facts hk hn h
  obtain ⟨_, m, m1, m2, b, hb, hb'⟩ := idQR0_real hk (by omega) hq
  intro j hj
  obtain ⟨i, hi, hmi⟩ := m2 (by omega)
  refine ⟨i, hi, ?_⟩
  rw [← btail_zero, ← hmi]
  have hbl : b = len := Nat.eq_of_mul_eq_mul_right hk (show b * kdim = len * kdim from hb.symm)
  subst hbl
  apply grpErr_le hk hdr hdc hF (mul_nonneg (le_trans (mul_nonneg (Real.sqrt_nonneg _) he) (le_max_left _ _)) m1) _ j hj
  intro hlt
  refine hb' ?_ hlt
  show (b : Int) < (((min ncol nrow : Nat) : Int)).tdiv kdim
  rw [Int.tdiv_eq_ediv_of_nonneg (by omega)]
  exact_mod_cast hlt

/-- C47: with the absolute criterion, the error of every group of rows is at most the tolerance. -/
theorem C47_absolute (he : 0 ≤ e) (sz nrow ncol kdim : Nat) (hk : 0 < kdim) (hn : 1 ≤ nrow) (hdr : kdim ∣ nrow) (hdc : kdim ∣ ncol) (tol : ℝ) (A : Nat → Nat → ℝ) (E : IDEnv ℝ)
    (J : Nat → Nat) (len : Nat) (U : H2Pack.Dense.Mat ℝ)
    (h : Returns (fun fuel => idCompress (realOps e f t) sz nrow ncol kdim (.abs tol) A true E fuel) ((J, len), U)) :
    ∀ j < nrow / kdim, grpErr ncol kdim (len * kdim) A U.entry (skel kdim J) j ≤ max (Real.sqrt ncol * e) tol := by
  obtain ⟨p, R, hq, hF⟩ := real_facts hk hn h
  obtain ⟨_, m, m1, m2, b, hb, hb'⟩ := idQR0_real hk (by omega) hq
  intro j hj
  have hbl : b = len := Nat.eq_of_mul_eq_mul_right hk (show b * kdim = len * kdim from hb.symm)
  subst hbl
  apply grpErr_le hk hdr hdc hF (le_trans (mul_nonneg (Real.sqrt_nonneg _) he) (le_max_left _ _)) _ j hj
  intro hlt
  refine hb' ?_ hlt
  show (b : Int) < (((min ncol nrow : Nat) : Int)).tdiv kdim
  rw [Int.tdiv_eq_ediv_of_nonneg (by omega)]
  exact_mod_cast hlt

theorem returns_of_qr {sz nrow ncol kdim : Nat} (hk : 0 < kdim) (hn : 1 ≤ nrow) {st : Stop ℝ} {A : Nat → Nat → ℝ} {E : IDEnv ℝ} {q0 : Nat × (Nat → Nat) × (Nat → Nat → ℝ)}
    (hq0 : idQR0 (realOps e f t) sz ncol nrow kdim st A E (nrow + 1) = .ok q0) :
    ∃ J len U, Returns (fun fuel => idCompress (realOps e f t) sz nrow ncol kdim st A true E fuel) ((J, len), U) := by
  have hq : ∃ q, idQR (realOps e f t) sz ncol nrow kdim st A E (nrow + 1) = .ok q := by
    rw [idQR_of, hq0, Res.bind_ok]
    split <;> exact ⟨_, rfl⟩
  obtain ⟨q, hq⟩ := hq
  obtain ⟨p, hp, _⟩ := idQR_split hq
  have hd := (idQR0_real hk (by omega) hp).1.diag
  obtain ⟨X, hX⟩ := trsm_total (O := realOps e f t) (nrow - q.1) q.1 q.2.2 (le_refl _) fun b =>
    let ⟨x, hx, _⟩ := trsmCol_real (e := e) (f := f) (t := t) q.2.2 q.1 b hd; ⟨x, hx⟩
  rcases idCompress_of_qr (wantU := true) hk hn hq with ⟨_, _, h, _⟩ | ⟨_, _, h⟩ | ⟨_, _, _, ⟨⟨J, len⟩, U⟩, h, _⟩
  · rw [hX] at h; simp at h
  · rw [hX] at h; simp at h
  · exact ⟨J, len, U, h⟩

/-- C47: single rows, absolute criterion: the decomposition always returns. -/
theorem C47_absolute_returns (sz nrow ncol : Nat) (hn : 1 ≤ nrow) (tol : ℝ) (htol : 0 < tol) (A : Nat → Nat → ℝ) (E : IDEnv ℝ) :
    ∃ J len U, Returns (fun fuel => idCompress (realOps e f t) sz nrow ncol 1 (.abs tol) A true E fuel) ((J, len), U) := by
  obtain ⟨m, _, _, _, _, m5, _⟩ := partialPivotQR_real (e := e) (f := f) (t := t) (nrow := ncol) (ncol := nrow) ((min ncol nrow : Nat) : Int) tol false A E.p0 E.cn0
  obtain ⟨q, hq⟩ := m5 (by unfold stopR; simp [htol])
  exact returns_of_qr (by omega) hn (q0 := q) (by unfold idQR0; rw [if_pos rfl]; exact hq)

/-- C47: single rows, relative criterion: the decomposition of a matrix that is not zero always returns. -/
theorem C47_relative_returns (sz nrow ncol : Nat) (hn : 1 ≤ nrow) (tol : ℝ) (htol : 0 < tol) (A : Nat → Nat → ℝ) (E : IDEnv ℝ)
    (hA : ∃ j < nrow, ∃ c < ncol, A j c ≠ 0) :
    ∃ J len U, Returns (fun fuel => idCompress (realOps e f t) sz nrow ncol 1 (.rel tol) A true E fuel) ((J, len), U) := by
  obtain ⟨m, m1, _, _, _, m5, _⟩ := partialPivotQR_real (e := e) (f := f) (t := t) (nrow := ncol) (ncol := nrow) ((min ncol nrow : Nat) : Int) (tol * Real.sqrt (1 : Nat)) true A E.p0 E.cn0
  obtain ⟨j, hj, c, hc, hne⟩ := hA
  have hm : 0 < m := by
    refine lt_of_lt_of_le (Real.sqrt_pos.2 ?_) (m1 j hj)
    unfold tail
    apply lt_of_lt_of_le (show 0 < A j (0 + c) ^ 2 by rw [Nat.zero_add]; positivity)
    exact single_le_sum (f := fun k => A j (0 + k) ^ 2) (fun _ _ => sq_nonneg _) (mem_range.2 (by omega))
  obtain ⟨q, hq⟩ := m5 (by
    unfold stopR; rw [if_pos rfl]
    apply mul_pos _ hm
    apply lt_of_lt_of_le _ (le_max_right _ _)
    simp [htol])
  exact returns_of_qr (by omega) hn (q0 := q) (by unfold idQR0; rw [if_pos rfl]; exact hq)

/-- C47 (finding): the zero matrix with the relative criterion divides by zero. -/
theorem C47_zero_matrix_fails (sz nrow ncol : Nat) (hn : 1 ≤ nrow) (hc : 1 ≤ ncol) (tol : ℝ) (E : IDEnv ℝ) :
    Fails (fun fuel => idCompress (realOps e f t) sz nrow ncol 1 (.rel tol) (fun _ _ => 0) true E fuel) := by
  refine ⟨0, fun fuel _ => ?_⟩
  dsimp only
  have hq : idQR (realOps e f t) sz ncol nrow 1 (.rel tol) (fun _ _ => 0) E fuel = .ub := by
    rw [idQR_of]
    unfold idQR0
    rw [if_pos rfl]
    unfold partialPivotQR
    dsimp only
    have hn2 : ∀ i : Nat, (realOps e f t).nrm2 i (fun _ => 0) = 0 := by
      intro i
      show Real.sqrt _ = 0
      simp
    have hcn : (fun j => if j < nrow then (realOps e f t).nrm2 ncol (fun _ => 0) else E.cn0 j) = fun j => if j < nrow then 0 else E.cn0 j := by
      funext j; rw [hn2]
    rw [hcn]
    have hfp := findPivot_real (e := e) (f := f) (t := t) (fun j => if j < nrow then 0 else E.cn0 j) 0 nrow (fun j _ hj => by rw [if_pos hj])
    set fp := findPivot (realOps e f t) (fun j => if j < nrow then 0 else E.cn0 j) 0 nrow with hfpd
    have hmem := findPivot_mem (realOps e f t) (fun j => if j < nrow then (0:ℝ) else E.cn0 j) (show 0 < nrow by omega)
    rw [← hfpd] at hmem
    have hp2 : fp.2 = 0 := by
      have := hfp.2.2 (by omega)
      rw [← this]; rw [if_pos hmem.2]
    have hstop : stopNorm (realOps e f t) ncol (Stop.parse (realOps e f t) ncol nrow 1 (.rel tol)).2.1 (Stop.parse (realOps e f t) ncol nrow 1 (.rel tol)).2.2 fp.2 = 0 := by
      rw [stopNorm_real, hp2]; unfold stopR; simp [Stop.parse]
    rw [hstop]
    obtain ⟨m, hm⟩ : ∃ m, min ncol nrow = m + 1 := ⟨min ncol nrow - 1, by omega⟩
    rw [hm, qrLoop]
    have hneg : ¬ ((realOps e f t).lt fp.2 0 = true ∨ ((0 : Nat) : Int) ≥ min ((m + 1 : Nat) : Int) (Stop.parse (realOps e f t) ncol nrow 1 (.rel tol)).1) := by
      rw [hp2]
      intro h
      rcases h with h | h
      · simp [realOps] at h
      · simp only [Stop.parse] at h
        omega
    rw [if_neg hneg]
    have : qrStep (realOps e f t) ncol nrow 0 0 ⟨fun j => if j < nrow then j else E.p0 j, fun j => if j < nrow then 0 else E.cn0 j, fun _ _ => 0, fp.1, fp.2⟩ = .ub := by
      unfold qrStep
      have hc0 : ∀ (b : Prop) [Decidable b] (s s' : QRSt ℝ), s.R 0 = (fun _ => 0) → s'.R 0 = (fun _ => 0) → (if b then s else s').R 0 = fun _ => 0 := by
        intro b _ s s' h1 h2; split <;> assumption
      dsimp only
      rw [hc0 _ _ _ (by funext u; simp [swap]) rfl]
      rw [(house_real (e := e) (f := f) (t := t) ncol 0 (by omega) (fun _ => 0)).1 (by unfold tail; simp)]
      rfl
    rw [this]
    rfl
  unfold idCompress
  rw [hq]; rfl

/-- C47 (finding): with groups of `kdim` rows, a group whose rows are linearly dependent makes the decomposition divide by zero, even
when the tolerance asks for this group (here the only one). -/
theorem C47_dependent_group_fails (he : 0 ≤ e) (sz ncol kdim : Nat) (hk : 0 < kdim) (hdc : kdim ∣ ncol) (tol : ℝ) (A : Nat → Nat → ℝ) (E : IDEnv ℝ)
    (htol : max (Real.sqrt ncol * e) (tol * Real.sqrt kdim) < 1) (hA : ∃ j < kdim, ∃ c < ncol, A j c ≠ 0)
    (x : Nat → ℝ) (hx : ∃ i < kdim, x i ≠ 0) (hdep : ∀ c < ncol, ∑ i ∈ range kdim, x i * A i c = 0) :
    Fails (fun fuel => idCompress (realOps e f t) sz kdim ncol kdim (.rel tol) A true E fuel) := by
  rcases C28_selection (realOps e f t) (fun a b => by show (if b = 0 then _ else _) ≠ _; split <;> simp) sz kdim ncol kdim hk hk (.rel tol) A E with h | ⟨J, len, U, h1, h2, h3, h4, _⟩
  · exact h
  · exfalso
    have hlen : len = 0 ∨ len = 1 := by
      have : len ≤ 1 := by
        by_contra hn
        have := Nat.mul_le_mul_right kdim (show 2 ≤ len by omega)
        omega
      omega
    rcases hlen with rfl | rfl
    · obtain ⟨i, hi, hle⟩ := C47_relative he sz kdim ncol kdim hk hk (dvd_refl _) hdc tol A E J 0 U h1 0 (by rw [Nat.div_self hk]; omega)
      rw [Nat.div_self hk] at hi
      obtain rfl : i = 0 := by omega
      have heq : grpErr ncol kdim (0 * kdim) A U.entry (skel kdim J) 0 = grpNorm ncol kdim A 0 := by
        unfold grpErr grpNorm rowErr
        simp
      rw [heq] at hle
      have hpos : 0 < grpNorm ncol kdim A 0 := by
        obtain ⟨j, hj, c, hc, hne⟩ := hA
        unfold grpNorm
        apply Real.sqrt_pos.2
        apply lt_of_lt_of_le (show 0 < A (0 * kdim + j) c ^ 2 by rw [Nat.zero_mul, Nat.zero_add]; positivity)
        refine le_trans ?_ (single_le_sum (f := fun k => ∑ c ∈ range ncol, A (0 * kdim + k) c ^ 2) (fun _ _ => sum_nonneg fun _ _ => sq_nonneg _) (mem_range.2 hj))
        exact single_le_sum (f := fun c => A (0 * kdim + j) c ^ 2) (fun _ _ => sq_nonneg _) (mem_range.2 hc)
      nlinarith
    · have hJ : J 0 = 0 := by
        have := h2.inRange 0 (by omega)
        rw [Nat.div_self hk] at this; omega
      have hsk : ∀ i < kdim, skel kdim J i = i := by
        intro i hi
        unfold skel
        rw [Nat.div_eq_of_lt hi, hJ, Nat.mod_eq_of_lt hi]; omega
      obtain ⟨i, hi, hne⟩ := hx
      refine hne (C28_independent sz kdim ncol kdim hk hk (.rel tol) A E J 1 U h1 x ?_ i (by omega))
      intro c hc
      rw [← hdep c hc, Nat.one_mul]
      apply sum_congr rfl; intro i hi; rw [mem_range] at hi; rw [hsk i hi]

/-! ## Non-vacuity -/

/-- An arithmetic without laws whose divisions all have results. -/
def demoOps : Ops Int where
  zero := 0
  one := 1
  two := 2
  add := (· + ·)
  sub := (· - ·)
  mul := (· * ·)
  neg := fun x => -x
  div := fun a b => .ok (a / b)
  sqrt := fun a => a
  lt := fun a b => decide (a < b)
  le := fun a b => decide (a ≤ b)
  ofNat := fun n => n
  nrm2 := fun n x => ((List.range n).map fun k => |x k|).sum
  dot := fun n x y => ((List.range n).map fun k => x k * y k).sum
  eps := 0
  fast := 0
  tiny := 0

def demoIDEnv (K : Type) (z : K) : IDEnv K := ⟨fun _ => 7, fun _ => z, fun _ _ => z, fun _ => 9, fun _ => 5, fun _ => z, fun _ => z⟩

/-- Six rows in groups of two, at most one group: the rank is 2. -/
example : ∃ r p R', idQR demoOps 8 4 6 2 (.rank 3) (fun j k => ((j * 5 + k * 3 + 1) % 7 : Nat)) (demoIDEnv Int 0) 10 = .ok (r, p, R') ∧ r = 2 ∧ p 0 = 2 ∧ p 1 = 3 ∧ p 2 = 0 := by
  have : (match idQR demoOps 8 4 6 2 (.rank 3) (fun j k => ((j * 5 + k * 3 + 1) % 7 : Nat)) (demoIDEnv Int 0) 10 with
    | .ok (r, p, _) => decide (r = 2 ∧ p 0 = 2 ∧ p 1 = 3 ∧ p 2 = 0)
    | _ => false) = true := by decide +kernel
  cases hq : idQR demoOps 8 4 6 2 (.rank 3) (fun j k => ((j * 5 + k * 3 + 1) % 7 : Nat)) (demoIDEnv Int 0) 10 with
  | ok q => obtain ⟨r, p, R'⟩ := q; rw [hq] at this; exact ⟨r, p, R', rfl, by simpa using this⟩
  | ub => rw [hq] at this; simp at this
  | diverge => rw [hq] at this; simp at this

example (A : Nat → Nat → Int) (kdim : Nat) (hk : 0 < kdim) : ∃ J len U, Returns (fun fuel => idCompress demoOps 8 6 4 kdim (.abs 0) A true (demoIDEnv Int 0) fuel) ((J, len), U) ∧
    Selected 0 1 6 kdim J len U :=
  C28_returns demoOps (fun a b => ⟨a / b, rfl⟩) 8 6 4 kdim hk (by omega) (.abs 0) A (demoIDEnv Int 0)

/-- The rows (1,0), (0,1), (1,1): two of them are selected and give the third one. -/
example : ∃ J len U, Returns (fun fuel => idCompress (realOps 0 0 0) 8 3 2 1 (.rel (1 / 10)) (fun j c => if j = 2 ∨ j = c then 1 else 0) true (demoIDEnv ℝ 0) fuel) ((J, len), U) ∧
    len = 2 ∧ ∀ j < 3, ∀ c < 2, (if j = 2 ∨ j = c then (1 : ℝ) else 0) = ∑ i ∈ range (len * 1), U.entry j i * (if skel 1 J i = 2 ∨ skel 1 J i = c then 1 else 0) := by
  obtain ⟨J, len, U, h⟩ := C47_relative_returns (e := 0) (f := 0) (t := 0) 8 3 2 (by omega) (1 / 10) (by norm_num) (fun j c => if j = 2 ∨ j = c then 1 else 0) (demoIDEnv ℝ 0)
    ⟨0, by omega, 0, by omega, by norm_num⟩
  have hb := fun j hj => C28_best (e := 0) (f := 0) (t := 0) 8 3 2 1 (by omega) (by omega) _ _ _ J len U h j hj (fun _ => 0)
  have hrel := C47_relative (e := 0) (f := 0) (t := 0) (le_refl _) 8 3 2 1 (by omega) (by omega) (by omega) (by omega) (1 / 10) _ _ J len U h
  have hsel : len ≤ 2 ∧ Selected (0:ℝ) 1 3 1 J len U := by
    rcases C28_selection (realOps 0 0 0) (fun a b => by show (if b = 0 then _ else _) ≠ _; split <;> simp) 8 3 2 1 (by omega) (by omega) (.rel (1/10))
      (fun j c => if j = 2 ∨ j = c then 1 else 0) (demoIDEnv ℝ 0) with ⟨F, hF⟩ | ⟨J', len', U', h1, h2, h3, h4, _⟩
    · obtain ⟨G, hG⟩ := h
      have a1 := hF (max F G) (le_max_left _ _)
      have a2 := hG (max F G) (le_max_right _ _)
      rw [a1] at a2; simp at a2
    · have := returns_unique h h1
      simp only [Prod.mk.injEq] at this
      obtain ⟨⟨rfl, rfl⟩, rfl⟩ := this
      exact ⟨by omega, h2⟩
  have hnorm : ∀ i < 3, grpNorm 2 1 (fun j c => if j = 2 ∨ j = c then (1:ℝ) else 0) i ^ 2 ≤ 2 := by
    intro i hi
    unfold grpNorm
    rw [Real.sq_sqrt (sum_nonneg fun _ _ => sum_nonneg fun _ _ => sq_nonneg _)]
    simp only [sum_range_succ, sum_range_zero]
    interval_cases i <;> norm_num
  have herr : ∀ j < 3, rowErr 2 (len * 1) (fun j c => if j = 2 ∨ j = c then (1:ℝ) else 0) U.entry (skel 1 J) j ≤ 2 / 100 := by
    intro j hj
    obtain ⟨i, hi, hle⟩ := hrel j (by omega)
    have hg : grpErr 2 1 (len * 1) (fun j c => if j = 2 ∨ j = c then (1:ℝ) else 0) U.entry (skel 1 J) j ^ 2 =
        rowErr 2 (len * 1) (fun j c => if j = 2 ∨ j = c then (1:ℝ) else 0) U.entry (skel 1 J) j := by
      unfold grpErr
      rw [sum_range_one, Nat.mul_one, Nat.add_zero, Nat.mul_one]
      exact Real.sq_sqrt (by unfold rowErr; exact sum_nonneg fun _ _ => sq_nonneg _)
    rw [← hg]
    have h0 : 0 ≤ grpErr 2 1 (len * 1) (fun j c => if j = 2 ∨ j = c then (1:ℝ) else 0) U.entry (skel 1 J) j := Real.sqrt_nonneg _
    have hmax : max (Real.sqrt (2 : Nat) * 0) (1 / 10 * Real.sqrt (1 : Nat)) = 1 / 10 := by
      rw [mul_zero, Nat.cast_one, Real.sqrt_one, mul_one]; norm_num
    rw [hmax] at hle
    have h1 := pow_le_pow_left₀ h0 hle 2
    have h2 := hnorm i (by omega)
    nlinarith
  have hlen : len = 2 := by
    by_contra hne
    have hcases : len = 0 ∨ len = 1 := by omega
    have hex : ∀ (x : Nat → ℝ) (a b : ℝ), (1 - x 0 * a) ^ 2 + (0 - x 0 * b) ^ 2 ≤ 50⁻¹ → (0 - x 1 * a) ^ 2 + (1 - x 1 * b) ^ 2 ≤ 50⁻¹ → False := by
      intro x a b h1 h2
      rw [show (50:ℝ)⁻¹ = 2 / 100 by norm_num] at h1 h2
      have p1 : (9/10:ℝ) * (8/10) ≤ x 0 * a := by nlinarith [sq_nonneg (0 - x 0 * b), sq_nonneg (x 0 * a - 1/2)]
      have p2 : (9/10:ℝ) * (8/10) ≤ x 1 * b := by nlinarith [sq_nonneg (0 - x 1 * a), sq_nonneg (x 1 * b - 1/2)]
      have p3 : (x 0 * b) ^ 2 ≤ 2 / 100 := by nlinarith [sq_nonneg (1 - x 0 * a)]
      have p4 : (x 1 * a) ^ 2 ≤ 2 / 100 := by nlinarith [sq_nonneg (1 - x 1 * b)]
      have p5 : (x 0 * a) * (x 1 * b) = (x 0 * b) * (x 1 * a) := by ring
      have p6 : (9/10:ℝ) * (8/10) * ((9/10) * (8/10)) ≤ (x 0 * a) * (x 1 * b) := by nlinarith
      nlinarith [sq_nonneg (x 0 * b - x 1 * a)]
    rcases hcases with rfl | rfl
    · have h1 := herr 0 (by omega)
      unfold rowErr at h1
      simp [sum_range_succ] at h1
      norm_num at h1
    · have h1 := herr 0 (by omega)
      have h2 := herr 1 (by omega)
      unfold rowErr at h1 h2
      simp only [sum_range_succ, sum_range_zero, Nat.mul_one, zero_add] at h1 h2
      norm_num at h1 h2
      exact hex (fun i => U.entry i 0) (if skel 1 J 0 = 2 ∨ skel 1 J 0 = 0 then 1 else 0) (if skel 1 J 0 = 2 ∨ skel 1 J 0 = 1 then 1 else 0)
        (by simpa using h1) (by simpa using h2)
  refine ⟨J, len, U, h, hlen, ?_⟩
  subst hlen
  exact C28_exact (e := 0) (f := 0) (t := 0) 8 3 2 1 (by omega) (by omega) _ (fun j c => if j = 2 ∨ j = c then 1 else 0) _ J 2 U h
    (fun j k => if j = 2 ∨ j = k then 1 else 0) (fun k c => if k = c then 1 else 0) (by
      intro j hj c hc
      simp only [sum_range_succ, sum_range_zero]
      interval_cases j <;> interval_cases c <;> norm_num)

end H2Pack.ID
