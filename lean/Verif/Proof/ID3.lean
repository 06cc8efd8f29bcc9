import Verif.Proof.ID2
import Mathlib.LinearAlgebra.Matrix.ToLinearEquiv
import Mathlib.LinearAlgebra.Matrix.NonsingularInverse

/-!
# Interpolative decomposition in exact arithmetic: lemmas
-/

namespace H2Pack.ID

open Finset

variable {e f t : ℝ}

theorem combo_sq (n r a : Nat) (x : Nat → ℝ) (v : Nat → Nat → ℝ) :
    ∑ c ∈ range n, (v a c - ∑ u ∈ range r, x u * v u c) ^ 2 =
      ∑ c ∈ range n, v a c * v a c - 2 * ∑ u ∈ range r, x u * ∑ c ∈ range n, v a c * v u c +
        ∑ u ∈ range r, ∑ w ∈ range r, x u * x w * ∑ c ∈ range n, v u c * v w c := by
  have h1 : ∑ u ∈ range r, x u * ∑ c ∈ range n, v a c * v u c = ∑ c ∈ range n, v a c * ∑ u ∈ range r, x u * v u c := by
    simp only [mul_sum]
    rw [sum_comm]
    apply sum_congr rfl; intro c _; apply sum_congr rfl; intro u _; ring
  have h2 : ∑ u ∈ range r, ∑ w ∈ range r, x u * x w * ∑ c ∈ range n, v u c * v w c = ∑ c ∈ range n, (∑ u ∈ range r, x u * v u c) * ∑ w ∈ range r, x w * v w c := by
    simp only [mul_sum, sum_mul]
    have : ∀ u ∈ range r, ∑ w ∈ range r, ∑ c ∈ range n, x u * x w * (v u c * v w c) = ∑ c ∈ range n, ∑ w ∈ range r, x u * x w * (v u c * v w c) := fun u _ => sum_comm
    rw [sum_congr rfl this, sum_comm]
    apply sum_congr rfl; intro c _
    rw [sum_comm]
    apply sum_congr rfl; intro u _; apply sum_congr rfl; intro w _; ring
  rw [h1, h2, mul_sum, ← sum_sub_distrib, ← sum_add_distrib]
  apply sum_congr rfl; intro c _; ring

theorem combo_eq {n m r a N : Nat} {x : Nat → ℝ} {v w : Nat → Nat → ℝ} (hr : r ≤ N) (ha : a < N)
    (h : ∀ j < N, ∀ k < N, ∑ c ∈ range n, v j c * v k c = ∑ c ∈ range m, w j c * w k c) :
    ∑ c ∈ range n, (v a c - ∑ u ∈ range r, x u * v u c) ^ 2 = ∑ c ∈ range m, (w a c - ∑ u ∈ range r, x u * w u c) ^ 2 := by
  rw [combo_sq, combo_sq, h a ha a ha]
  congr 1
  · congr 2
    apply sum_congr rfl; intro u hu; rw [mem_range] at hu
    rw [h a ha u (by omega)]
  · apply sum_congr rfl; intro u hu; apply sum_congr rfl; intro k hk; rw [mem_range] at hu hk
    rw [h u (by omega) k (by omega)]

/-- Distance of the row `p a` from a combination of the selected rows, in terms of `R`. -/
theorem QRRes.dist {nrow ncol : Nat} {A : Nat → Nat → ℝ} {q : Nat × (Nat → Nat) × (Nat → Nat → ℝ)} (h : QRRes ncol nrow A q) {a : Nat} (ha : a < nrow) (x : Nat → ℝ) :
    ∑ c ∈ range ncol, (A (q.2.1 a) c - ∑ u ∈ range q.1, x u * A (q.2.1 u) c) ^ 2 =
      ∑ k ∈ range q.1, (q.2.2 a k - ∑ u ∈ range q.1, x u * (if k ≤ u then q.2.2 u k else 0)) ^ 2 + tail ncol q.1 (q.2.2 a) := by
  have hle := h.le
  rw [combo_eq (v := fun j => A (q.2.1 j)) (w := q.2.2) (N := nrow) (m := ncol) (by omega) ha (fun j hj k hk => (h.gram j hj k hk).symm),
    sum_split (show q.1 ≤ ncol by omega)]
  congr 1
  · apply sum_congr rfl; intro k hk; rw [mem_range] at hk
    congr 2
    apply sum_congr rfl; intro u hu; rw [mem_range] at hu
    by_cases hku : k ≤ u
    · rw [if_pos hku]
    · rw [if_neg hku, h.upper u hu k (by omega) (by omega)]
  · unfold tail
    apply sum_congr rfl; intro k hk; rw [mem_range] at hk
    rw [sum_eq_zero, sub_zero]
    intro u hu; rw [mem_range] at hu
    rw [h.upper u hu _ (by omega) (by omega), mul_zero]

theorem sum_perm {r : Nat} {s : Nat → Nat} (h1 : ∀ i < r, s i < r) (h2 : ∀ i < r, ∀ j < r, s i = s j → i = j) (g : Nat → ℝ) :
    ∑ i ∈ range r, g (s i) = ∑ i ∈ range r, g i := by
  refine sum_nbij s ?_ ?_ ?_ (fun _ _ => rfl)
  · intro i hi; rw [mem_range] at hi ⊢; exact h1 i hi
  · intro i hi j hj hij
    exact h2 i (by simpa using hi) j (by simpa using hj) hij
  · intro a ha
    obtain ⟨j, hj, hj'⟩ := (⟨h1, h2⟩ : IsPerm r s).surj (by simpa using ha)
    exact ⟨j, by simpa using hj, hj'⟩

/-- Underlying QR result. -/
theorem idQR_split {K : Type} {O : Ops K} {sz nrow ncol kdim : Nat} {st : Stop K} {A : Nat → Nat → K} {E : IDEnv K} {fuel : Nat} {q : Nat × (Nat → Nat) × (Nat → Nat → K)}
    (h : idQR O sz nrow ncol kdim st A E fuel = .ok q) : ∃ p, idQR0 O sz nrow ncol kdim st A E fuel = .ok (q.1, p, q.2.2) ∧ (q.1 ≠ 0 → q.2.1 = p) := by
  rw [idQR_of] at h
  cases hq : idQR0 O sz nrow ncol kdim st A E fuel with
  | ok r =>
    rw [hq, Res.bind_ok] at h
    by_cases h0 : r.1 = 0
    · rw [if_pos h0, Res.ok.injEq] at h
      subst h
      exact ⟨r.2.1, by rw [← h0], fun hn => absurd rfl hn⟩
    · rw [if_neg h0, Res.ok.injEq] at h
      subst h
      exact ⟨r.2.1, rfl, fun _ => rfl⟩
  | ub => rw [hq] at h; simp at h
  | diverge => rw [hq] at h; simp at h

theorem idQR0_real {sz nrow ncol kdim : Nat} (hk : 0 < kdim) {st : Stop ℝ} {A : Nat → Nat → ℝ} {E : IDEnv ℝ} {fuel : Nat} (hf : ncol < fuel) {q : Nat × (Nat → Nat) × (Nat → Nat → ℝ)}
    (h : idQR0 (realOps e f t) sz nrow ncol kdim st A E fuel = .ok q) : QRRes nrow ncol A q ∧
    ∃ m : ℝ, 0 ≤ m ∧ (0 < ncol / kdim → ∃ j < ncol / kdim, m = Real.sqrt (btail nrow kdim 0 j A)) ∧
      ∃ b, q.1 = b * kdim ∧ ((b : Int) < (st.parse (realOps e f t) nrow ncol kdim).1.tdiv kdim → b < min nrow ncol / kdim → ∀ j, b ≤ j → j < ncol / kdim →
        Real.sqrt (btail nrow kdim b j q.2.2) < stopR e nrow (st.parse (realOps e f t) nrow ncol kdim).2.1 (st.parse (realOps e f t) nrow ncol kdim).2.2 m) := by
  unfold idQR0 at h
  by_cases h1 : kdim = 1
  · subst h1
    rw [if_pos rfl] at h
    obtain ⟨m, _, m2, m3, _, _, m6⟩ := partialPivotQR_real (e := e) (f := f) (t := t) (nrow := nrow) (ncol := ncol) (st.parse (realOps e f t) nrow ncol 1).1
      (st.parse (realOps e f t) nrow ncol 1).2.1 (st.parse (realOps e f t) nrow ncol 1).2.2 A E.p0 E.cn0
    obtain ⟨g1, g2⟩ := m6 q h
    have hbt : ∀ i j (R : Nat → Nat → ℝ), btail nrow 1 i j R = tail nrow i (R j) := by
      intro i j R; unfold btail; simp
    refine ⟨g1, m, m2, ?_, q.1, by simp, ?_⟩
    · intro hn
      rw [Nat.div_one] at hn ⊢
      obtain ⟨j, hj, hj'⟩ := m3 hn
      exact ⟨j, hj, by rw [hbt]; exact hj'⟩
    · intro c1 c2 j hj hj'
      rw [Nat.div_one] at c2 hj'
      rw [hbt]
      apply g2 _ j hj hj' (by omega)
      simpa using c1
  · rw [if_neg h1] at h
    obtain ⟨m, _, m2, m3, _, m6⟩ := partialPivotQRk_real (e := e) (f := f) (t := t) (nrow := nrow) (ncol := ncol) (sz := sz) hk (st.parse (realOps e f t) nrow ncol kdim).1
      (st.parse (realOps e f t) nrow ncol kdim).2.1 (st.parse (realOps e f t) nrow ncol kdim).2.2 A E.p0 E.cn0 E.V0 hf
    obtain ⟨g1, g2⟩ := m6 q h
    exact ⟨g1, m, m2, m3, g2⟩

theorem returns_unique {α : Type} {p : Nat → Res α} {a b : α} (ha : Returns p a) (hb : Returns p b) : a = b := by
  obtain ⟨F, hF⟩ := ha
  obtain ⟨G, hG⟩ := hb
  have h1 := hF (max F G) (le_max_left _ _)
  have h2 := hG (max F G) (le_max_right _ _)
  rw [h1, Res.ok.injEq] at h2; exact h2

/-- Everything that is known about a result in exact arithmetic. -/
theorem real_parts {sz nrow ncol kdim : Nat} (hk : 0 < kdim) (hn : 1 ≤ nrow) {st : Stop ℝ} {A : Nat → Nat → ℝ} {E : IDEnv ℝ} {res : ((Nat → Nat) × Nat) × H2Pack.Dense.Mat ℝ}
    (h : Returns (fun fuel => idCompress (realOps e f t) sz nrow ncol kdim st A true E fuel) res) :
    ∃ q p J i0 X, idQR (realOps e f t) sz ncol nrow kdim st A E (nrow + 1) = .ok q ∧ idQR0 (realOps e f t) sz ncol nrow kdim st A E (nrow + 1) = .ok (q.1, p, q.2.2) ∧
      (q.1 ≠ 0 → q.2.1 = p) ∧ Parts (realOps e f t) nrow kdim true q J i0 X res := by
  cases hq : idQR (realOps e f t) sz ncol nrow kdim st A E (nrow + 1) with
  | ok q =>
    obtain ⟨p, hp1, hp2⟩ := idQR_split hq
    rcases idCompress_of_qr (wantU := true) hk hn hq with ⟨_, _, _, F, hF⟩ | ⟨_, h0, h1⟩ | ⟨J, i0, X, res', h1, h2⟩
    · exfalso
      obtain ⟨G, hG⟩ := h
      have h1 := hF (max F G) (le_max_left _ _)
      rw [hG (max F G) (le_max_right _ _)] at h1
      simp at h1
    · exfalso
      have hd := (idQR0_real hk (by omega) hp1).1.diag
      obtain ⟨Y, hY⟩ := trsm_total (O := realOps e f t) (nrow - q.1) q.1 q.2.2 (le_refl _) fun b =>
        let ⟨x, hx, _⟩ := trsmCol_real (e := e) (f := f) (t := t) q.2.2 q.1 b hd; ⟨x, hx⟩
      rw [hY] at h1; simp at h1
    · obtain rfl := returns_unique h h1
      exact ⟨q, p, J, i0, X, rfl, hp1, hp2, h2⟩
  | ub =>
    exfalso
    obtain ⟨G, hG⟩ := h
    have h1 := hG (max G (nrow + 1)) (le_max_left _ _)
    unfold idCompress at h1
    beta_reduce at h1
    rw [idQR_fuel sz ncol nrow kdim st A E (show nrow < max G (nrow + 1) by omega) (show nrow < nrow + 1 by omega), hq] at h1
    simp at h1
  | diverge =>
    exfalso
    obtain ⟨G, hG⟩ := h
    have h1 := hG (max G (nrow + 1)) (le_max_left _ _)
    unfold idCompress at h1
    beta_reduce at h1
    rw [idQR_fuel sz ncol nrow kdim st A E (show nrow < max G (nrow + 1) by omega) (show nrow < nrow + 1 by omega), hq] at h1
    simp at h1

/-- The facts the theorems of `Verif.Props.ID` are drawn from: `p` and `R` are the results of the QR step, `r` its rank. -/
structure Facts (nrow ncol kdim : Nat) (A : Nat → Nat → ℝ) (J : Nat → Nat) (len : Nat) (U : H2Pack.Dense.Mat ℝ) (p : Nat → Nat) (R : Nat → Nat → ℝ) : Prop where
  res : QRRes ncol nrow A (len * kdim, p, R)
  blk : BlkPerm kdim nrow p
  sel : ∃ i0 : Nat → Nat, (∀ i < len * kdim, i0 i < len * kdim) ∧ (∀ i < len * kdim, ∀ j < len * kdim, i0 i = i0 j → i = j) ∧ ∀ i < len * kdim, skel kdim J i = p (i0 i)
  low : ∀ i < len * kdim, ∀ j < len * kdim, U.entry (skel kdim J i) j = if i = j then 1 else 0
  err : ∀ a, len * kdim ≤ a → a < nrow → rowErr ncol (len * kdim) A U.entry (skel kdim J) (p a) = tail ncol (len * kdim) (R a)

theorem real_facts {sz nrow ncol kdim : Nat} (hk : 0 < kdim) (hn : 1 ≤ nrow) {st : Stop ℝ} {A : Nat → Nat → ℝ} {E : IDEnv ℝ} {J : Nat → Nat} {len : Nat} {U : H2Pack.Dense.Mat ℝ}
    (h : Returns (fun fuel => idCompress (realOps e f t) sz nrow ncol kdim st A true E fuel) ((J, len), U)) :
    ∃ p R, idQR0 (realOps e f t) sz ncol nrow kdim st A E (nrow + 1) = .ok (len * kdim, p, R) ∧ Facts nrow ncol kdim A J len U p R := by
  obtain ⟨q, p, J0, i0, X, h1, h2, h3, h4⟩ := real_parts hk hn h
  obtain ⟨g1, g2⟩ := idQR0_real hk (by omega) h2
  obtain ⟨r1, r2, r3, r4, r5⟩ := idQR_perm hk h1
  obtain ⟨s1, s2, s3, s4⟩ := h4.skel hk r2 r4 r5
  dsimp only at s1 s2 s3 s4
  have hb : BlkPerm kdim nrow p := (idQR0_perm hk h2).2.2.2.2
  refine ⟨p, q.2.2, by rw [s1]; exact h2, by rw [s1]; exact g1, hb, ?_, ?_, ?_⟩
  · refine ⟨i0, ?_, ?_, ?_⟩
    · rw [s1]; exact h4.sorted.low
    · rw [s1]; intro i hi j hj; exact h4.sorted.perm.inj i (by omega) j (by omega)
    · rw [s1]
      intro i hi
      rw [s2 i hi, h4.sorted.key i (by omega), h3 (by omega)]
  · rw [s1]
    intro i hi j hj
    rw [s2 i hi, h4.low rfl i hi j hj]; rfl
  · rw [s1]
    intro a ha ha'
    by_cases h0 : q.1 = 0
    · have := QRRes.dist g1 ha' (fun _ => 0)
      unfold rowErr
      rw [h0] at this ⊢
      simpa using this
    · have hp := h3 h0
      have hcol : ∀ c, ∑ i ∈ range q.1, U.entry (p a) i * A (skel kdim J i) c = ∑ u ∈ range q.1, X a u * A (p u) c := by
        intro c
        rw [← sum_perm h4.sorted.low (fun i hi j hj => h4.sorted.perm.inj i (by omega) j (by omega)) (fun u => X a u * A (p u) c)]
        apply sum_congr rfl; intro i hi; rw [mem_range] at hi
        have := h4.high rfl a ha ha' i hi
        dsimp only at this
        rw [s2 i hi, h4.sorted.key i (by omega), ← hp, this]
      unfold rowErr
      have hsum : ∑ c ∈ range ncol, (A (p a) c - ∑ i ∈ range q.1, U.entry (p a) i * A (skel kdim J i) c) ^ 2 =
          ∑ c ∈ range ncol, (A (p a) c - ∑ u ∈ range q.1, X a u * A (p u) c) ^ 2 := sum_congr rfl fun c _ => by rw [hcol c]
      rw [hsum]
      have hd := QRRes.dist g1 ha' (X a)
      dsimp only at hd
      rw [hd]
      obtain ⟨x, hx, _, hx'⟩ := trsmCol_real (e := e) (f := f) (t := t) q.2.2 q.1 (q.2.2 a) g1.diag
      have := (trsm_spec (realOps e f t) q.1 (nrow - q.1) q.1 q.2.2 X (le_refl _) (h4.solve rfl h0)).2 a ha (by omega)
      rw [hx, Res.ok.injEq] at this
      subst this
      rw [sum_eq_zero, zero_add]
      intro k hk'; rw [mem_range] at hk'
      rw [hx' k hk', sub_self]; norm_num

theorem Facts.indep {nrow ncol kdim : Nat} {A : Nat → Nat → ℝ} {J : Nat → Nat} {len : Nat} {U : H2Pack.Dense.Mat ℝ} {p : Nat → Nat} {R : Nat → Nat → ℝ}
    (h : Facts nrow ncol kdim A J len U p R) (x : Nat → ℝ) (hx : ∀ c < ncol, ∑ i ∈ range (len * kdim), x i * A (skel kdim J i) c = 0) : ∀ i < len * kdim, x i = 0 := by
  have hle := h.res.le
  have hgram := h.res.gram
  have hup := h.res.upper
  have hdiag := h.res.diag
  obtain ⟨i0, s1, s2, s3⟩ := h.sel
  set r := len * kdim with hr
  dsimp only at hle hgram hup hdiag
  set y : Nat → ℝ := fun u => x (invPerm r i0 (fun _ => 0) u) with hy
  have hyx : ∀ i < r, y (i0 i) = x i := by
    intro i hi; rw [hy]; dsimp only; rw [invPerm_spec s2 _ hi]
  have hzero : ∀ c < ncol, ∑ u ∈ range r, y u * A (p u) c = 0 := by
    intro c hc
    rw [← hx c hc, ← sum_perm s1 s2 (fun u => y u * A (p u) c)]
    apply sum_congr rfl; intro i hi; rw [mem_range] at hi
    rw [hyx i hi, s3 i hi]
  have hg := combo_eq (n := ncol) (m := ncol) (r := r) (a := nrow) (N := nrow + 1) (x := y) (v := fun j c => if j = nrow then 0 else A (p j) c)
    (w := fun j c => if j = nrow then 0 else R j c) (by omega) (by omega) (by
      intro j hj k hk
      by_cases c1 : j = nrow
      · simp [c1]
      · by_cases c2 : k = nrow
        · simp [c2]
        · simp only [c1, c2, if_false]
          exact (hgram j (by omega) k (by omega)).symm)
  have hl : ∑ c ∈ range ncol, ((if nrow = nrow then (0:ℝ) else A (p nrow) c) - ∑ u ∈ range r, y u * (if u = nrow then 0 else A (p u) c)) ^ 2 = 0 := by
    apply sum_eq_zero; intro c hc; rw [mem_range] at hc
    have : ∑ u ∈ range r, y u * (if u = nrow then 0 else A (p u) c) = ∑ u ∈ range r, y u * A (p u) c := by
      apply sum_congr rfl; intro u hu; rw [mem_range] at hu; rw [if_neg (by omega)]
    rw [this, hzero c hc]; simp
  rw [hl] at hg
  have hR : ∀ k < ncol, ∑ u ∈ range r, y u * R u k = 0 := by
    intro k hk
    have := (sum_eq_zero_iff_of_nonneg (fun c _ => sq_nonneg _)).1 hg.symm k (mem_range.2 hk)
    have h2 : ∑ u ∈ range r, y u * (if u = nrow then 0 else R u k) = ∑ u ∈ range r, y u * R u k := by
      apply sum_congr rfl; intro u hu; rw [mem_range] at hu; rw [if_neg (by omega)]
    rw [h2] at this
    simpa using this
  have hall : ∀ d u, u < r → r ≤ u + d → y u = 0 := by
    intro d
    induction d with
    | zero => intro u hu hd; omega
    | succ d ih =>
      intro u hu hd
      have h1 := hR u (by omega)
      rw [sum_eq_single u] at h1
      · rcases mul_eq_zero.1 h1 with h1 | h1
        · exact h1
        · exact absurd h1 (hdiag u hu)
      · intro k hk hku; rw [mem_range] at hk
        by_cases hlt : k < u
        · rw [hup k hk u hlt (by omega), mul_zero]
        · rw [ih k hk (by omega), zero_mul]
      · intro hn; exact absurd (mem_range.2 hu) hn
  intro i hi
  rw [← hyx i hi]
  exact hall r _ (s1 i hi) (by omega)

/-- A selected row or a row `p a`. -/
theorem Facts.row {nrow ncol kdim : Nat} {A : Nat → Nat → ℝ} {J : Nat → Nat} {len : Nat} {U : H2Pack.Dense.Mat ℝ} {p : Nat → Nat} {R : Nat → Nat → ℝ}
    (h : Facts nrow ncol kdim A J len U p R) {j : Nat} (hj : j < nrow) : (∃ i < len * kdim, j = skel kdim J i) ∨ ∃ a, len * kdim ≤ a ∧ a < nrow ∧ j = p a := by
  obtain ⟨a, ha, rfl⟩ := h.res.perm.surj hj
  by_cases hlt : a < len * kdim
  · left
    obtain ⟨i0, s1, s2, s3⟩ := h.sel
    obtain ⟨i, hi, rfl⟩ := (⟨s1, s2⟩ : IsPerm _ i0).surj hlt
    exact ⟨i, hi, (s3 i hi).symm⟩
  · right; exact ⟨a, by omega, ha, rfl⟩

theorem Facts.err_sel {nrow ncol kdim : Nat} {A : Nat → Nat → ℝ} {J : Nat → Nat} {len : Nat} {U : H2Pack.Dense.Mat ℝ} {p : Nat → Nat} {R : Nat → Nat → ℝ}
    (h : Facts nrow ncol kdim A J len U p R) {i : Nat} (hi : i < len * kdim) : rowErr ncol (len * kdim) A U.entry (skel kdim J) (skel kdim J i) = 0 := by
  unfold rowErr
  apply sum_eq_zero; intro c _
  rw [sum_eq_single i]
  · rw [h.low i hi i hi, if_pos rfl]; ring
  · intro k hk hne; rw [mem_range] at hk
    rw [h.low i hi k hk, if_neg (Ne.symm hne), zero_mul]
  · intro hn; exact absurd (mem_range.2 hi) hn

end H2Pack.ID
