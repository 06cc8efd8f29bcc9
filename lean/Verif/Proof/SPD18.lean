import Verif.Proof.SPD17

set_option linter.unusedSectionVars false

/-! # SPDHSS: exactness when the samples span the off-diagonal blocks -/

namespace H2Pack.SPD
open H2Pack.MV (Mat Rep WF kid off kid_mem Nested entry nested_zero)
open H2Pack.ULV (InRow leaf_surj HSS entry_leaf entry_kids pair_index kid_row kid_row_unique kid_sub)
open H2Pack.Part (Arr kids ClusterTree)
open Finset

section
variable {P : Params} {R : Rep ℝ} {A : Nat → Nat → ℝ} {g : Gh} {H : Rep ℝ} {W : Nat → Nat → Nat → ℝ} {Ty : Nat → Nat → Nat → ℝ} {nvec : Nat}

/-- The vectors of a node vanish outside its rows. -/
theorem lo_zero (h : Built R A g H) {v : Nat} (hv : v + 1 < R.arr.nNode) {i : Nat} (hi : i < g.m R v) {r : Nat} (hr : ¬ InRow R v r) : g.lo R v i r = 0 := by
  have hvn : v < R.arr.nNode := by omega
  by_cases h0 : R.arr.nChild v = 0
  · rw [lo_leaf h0, if_neg]
    rintro rfl
    rw [m_leaf h0] at hi
    exact hr ⟨by omega, by omega⟩
  · obtain ⟨k, hk, b, hb, rfl⟩ := find_m h0 hi
    rw [lo_inner hk hb]
    exact (h.nodes _ (kid_nonroot h.wf hvn (kid_mem hk))).sup b hb r (fun hc => hr (kid_sub h.wf hvn hk hc))

/-- The compression of a node keeps its samples. -/
theorem cap_fix (h : Built R A g H) (hL : P.lq.Correct) (hpv : P.lq.Pivoted) (ht : P.reltol ≤ 0) {v : Nat} (hv : v + 1 < R.arr.nNode) (hc : Cap P R Ty nvec g v)
    {F G : Nat → Nat → ℝ} {rho : Nat} (hrho : rho ≤ P.maxRank) (hr : ∀ r < R.size, InRow R v r → ∀ j < nvec, Ty (R.arr.level v) r j = ∑ t ∈ range rho, F r t * G t j) :
    ∀ i < g.m R v, ∀ j < nvec, ∑ a ∈ range (g.U v).ncol, (g.U v).e i a * ∑ s ∈ range (g.m R v), g.X v a s * ∑ r ∈ range R.size, g.lo R v s r * Ty (R.arr.level v) r j =
      ∑ r ∈ range R.size, g.lo R v i r * Ty (R.arr.level v) r j := by
  obtain ⟨k, ki, tmp, c1, c2, c3, c4, c5⟩ := hc
  set m := g.m R v with hm
  set z : Nat → Nat → ℝ := fun s j => ∑ r ∈ range R.size, g.lo R v s r * Ty (R.arr.level v) r j with hz
  have c2' : ∀ i < m, ∀ j < nvec, tmp i j = ∑ s ∈ range m, ki i s * z s j := c2
  -- the samples have a low rank
  have hzr : ∀ s < m, ∀ j < nvec, z s j = ∑ t ∈ range rho, (∑ r ∈ range R.size, g.lo R v s r * F r t) * G t j := by
    intro s hs j hj
    rw [hz]
    have : ∀ r ∈ range R.size, g.lo R v s r * Ty (R.arr.level v) r j = ∑ t ∈ range rho, g.lo R v s r * F r t * G t j := by
      intro r hr'
      by_cases hin : InRow R v r
      · rw [hr r (mem_range.1 hr') hin j hj, mul_sum]
        exact sum_congr rfl fun t _ => by ring
      · rw [lo_zero h hv hs hin]; simp
    beta_reduce
    rw [sum_congr rfl this, sum_comm]
    exact sum_congr rfl fun t _ => by rw [sum_mul]
  have hspan := basisV_span hL hpv ht (m := m) (n := nvec) (a := tmp) hrho (F := fun i t => ∑ s ∈ range m, ki i s * ∑ r ∈ range R.size, g.lo R v s r * F r t) (G := G) (by
    intro i hi j hj
    rw [c2' i hi j hj]
    have : ∀ s ∈ range m, ki i s * z s j = ∑ t ∈ range rho, ki i s * (∑ r ∈ range R.size, g.lo R v s r * F r t) * G t j := by
      intro s hs
      rw [hzr s (mem_range.1 hs) j hj, mul_sum]
      exact sum_congr rfl fun t _ => by ring
    rw [sum_congr rfl this, sum_comm]
    exact sum_congr rfl fun t _ => by rw [sum_mul])
  set V := basisV P m nvec tmp with hV
  -- `k ki = 1`
  have hkki : ∀ i < m, ∀ j < m, ∑ t ∈ range m, k i t * ki t j = if i = j then 1 else 0 := by
    let K : Matrix (Fin m) (Fin m) ℝ := fun i j => k i j
    let Ki : Matrix (Fin m) (Fin m) ℝ := fun i j => ki i j
    have h1 : Ki * K = 1 := by
      ext i j
      rw [Matrix.mul_apply, Matrix.one_apply]
      have := c5 i i.2 j j.2
      rw [sum_range] at this
      simp only [Fin.ext_iff]
      exact this
    have h2 : K * Ki = 1 := mul_eq_one_comm.1 h1
    intro i hi j hj
    have := congrFun (congrFun h2 ⟨i, hi⟩) ⟨j, hj⟩
    rw [Matrix.mul_apply, Matrix.one_apply] at this
    simp only [Fin.mk.injEq] at this
    rw [← this, sum_range]
  intro i hi j hj
  show ∑ a ∈ range (g.U v).ncol, (g.U v).e i a * ∑ s ∈ range m, g.X v a s * z s j = z i j
  have hX : ∀ a, ∑ s ∈ range m, g.X v a s * z s j = ∑ t ∈ range m, V.e t a * tmp t j := by
    intro a
    have : ∀ s ∈ range m, g.X v a s * z s j = ∑ t ∈ range m, V.e t a * (ki t s * z s j) := by
      intro s _
      rw [c4, sum_mul]
      exact sum_congr rfl fun t _ => by ring
    rw [sum_congr rfl this, sum_comm]
    refine sum_congr rfl fun t ht => ?_
    rw [← mul_sum, c2' t (mem_range.1 ht) j hj]
  have : ∀ a ∈ range (g.U v).ncol, (g.U v).e i a * ∑ s ∈ range m, g.X v a s * z s j = ∑ t ∈ range m, k i t * (V.e t a * ∑ t ∈ range m, V.e t a * tmp t j) := by
    intro a _
    rw [hX, c3, sum_mul]
    exact sum_congr rfl fun t _ => by ring
  rw [sum_congr rfl this, sum_comm, c1]
  have : ∀ t ∈ range m, ∑ a ∈ range V.ncol, k i t * (V.e t a * ∑ t ∈ range m, V.e t a * tmp t j) = ∑ s ∈ range m, k i t * ki t s * z s j := by
    intro t ht
    rw [← mul_sum, hspan t (mem_range.1 ht) j hj, c2' t (mem_range.1 ht) j hj, mul_sum]
    exact sum_congr rfl fun s _ => by ring
  rw [sum_congr rfl this, sum_comm, sum_eq_single i]
  · rw [← sum_mul, hkki i hi i hi, if_pos rfl, one_mul]
  · intro s hs hne
    rw [← sum_mul, hkki i hi s (mem_range.1 hs), if_neg (fun e => hne e.symm), zero_mul]
  · intro hn; exact absurd (mem_range.2 hi) hn

/-- The projection of a node applied to a vector that its compression keeps. -/
theorem proj_apply (h : Built R A g H) (hW : Nested H W) {v : Nat} (hv : v + 1 < R.arr.nNode) {x : Nat → ℝ}
    (hfix : ∀ i < g.m R v, ∑ a ∈ range (g.U v).ncol, (g.U v).e i a * ∑ s ∈ range (g.m R v), g.X v a s * ∑ r ∈ range R.size, g.lo R v s r * x r =
      ∑ r ∈ range R.size, g.lo R v i r * x r)
    (hkid : ∀ k < R.arr.nChild v, ∀ r, InRow R (kid R v k) r → ∑ s ∈ range R.size, proj g W (kid R v k) r s * x s = x r) {r : Nat} (hr : InRow R v r) :
    ∑ s ∈ range R.size, proj g W v r s * x s = x r := by
  have hvn : v < R.arr.nNode := by omega
  have hN := h.nodes v hv
  have hrs : r < R.size := row_lt h.wf hvn hr
  set z : Nat → ℝ := fun i => ∑ r ∈ range R.size, g.lo R v i r * x r with hz
  have hfix' : ∀ i < g.m R v, ∑ a ∈ range (g.U v).ncol, (g.U v).e i a * ∑ s ∈ range (g.m R v), g.X v a s * z s = z i := hfix
  set e : Nat → ℝ := fun s => if s = r then 1 else 0 with he
  have hcoef : ∀ u a, coef R W u e a = W u r a := by
    intro u a
    unfold coef
    rw [sum_eq_single r]
    · rw [he]; simp
    · intro s _ hs
      rw [he]; simp [hs]
    · intro hn; exact absurd (mem_range.2 hrs) hn
  have hWv : ∀ a < (g.U v).ncol, W v r a = ∑ i ∈ range (g.m R v), (g.U v).e i a * yy R g W v e i := by
    intro a ha
    rw [← hcoef v a]
    exact coef_eq h hW hv e a ha
  have hLx : ∀ a < (g.U v).ncol, ∑ s ∈ range R.size, g.L v a s * x s = ∑ i ∈ range (g.m R v), g.X v a i * z i := by
    intro a ha
    have : ∀ s ∈ range R.size, g.L v a s * x s = ∑ i ∈ range (g.m R v), g.X v a i * (g.lo R v i s * x s) := by
      intro s _
      rw [hN.frame a ha s, sum_mul]
      exact sum_congr rfl fun i _ => by ring
    rw [sum_congr rfl this, sum_comm]
    exact sum_congr rfl fun i _ => by rw [← mul_sum]
  have hP : ∀ u, ∑ s ∈ range R.size, proj g W u r s * x s = ∑ a ∈ range (g.U u).ncol, W u r a * ∑ s ∈ range R.size, g.L u a s * x s := by
    intro u
    unfold proj
    simp only [sum_mul, mul_sum]
    rw [sum_comm]
    exact sum_congr rfl fun a _ => sum_congr rfl fun s _ => by ring
  rw [hP v]
  have : ∀ a ∈ range (g.U v).ncol, W v r a * ∑ s ∈ range R.size, g.L v a s * x s =
      ∑ i ∈ range (g.m R v), yy R g W v e i * ((g.U v).e i a * ∑ s ∈ range (g.m R v), g.X v a s * z s) := by
    intro a ha
    rw [hLx a (mem_range.1 ha), hWv a (mem_range.1 ha), sum_mul]
    exact sum_congr rfl fun i _ => by ring
  rw [sum_congr rfl this, sum_comm]
  have : ∀ i ∈ range (g.m R v), ∑ a ∈ range (g.U v).ncol, yy R g W v e i * ((g.U v).e i a * ∑ s ∈ range (g.m R v), g.X v a s * z s) = yy R g W v e i * z i := by
    intro i hi
    rw [← mul_sum, hfix' i (mem_range.1 hi)]
  rw [sum_congr rfl this]
  by_cases h0 : R.arr.nChild v = 0
  · have h1 : r - R.rowS v < g.m R v := by rw [m_leaf h0]; have := hr.1; have := hr.2; omega
    have hs := hr.1
    rw [sum_eq_single (r - R.rowS v)]
    · rw [yy_leaf h0, Nat.add_sub_cancel' hr.1, hz]
      beta_reduce
      rw [lo_leaf_sum h.wf hvn h0 h1, Nat.add_sub_cancel' hr.1, he]
      simp
    · intro i _ hi
      rw [yy_leaf h0, he]
      beta_reduce
      rw [if_neg (by omega), zero_mul]
    · intro hn; exact absurd (mem_range.2 h1) hn
  · rw [sum_m h0]
    obtain ⟨k, hk, hkr⟩ := kid_row h.wf hvn h0 hr
    have hterm : ∀ l < R.arr.nChild v, ∑ b ∈ range (g.U (kid R v l)).ncol, yy R g W v e (off (g.rep R) v l + b) * z (off (g.rep R) v l + b) =
        ∑ s ∈ range R.size, proj g W (kid R v l) r s * x s := by
      intro l hl
      rw [hP]
      refine sum_congr rfl fun b hb => ?_
      rw [yy_inner hl (mem_range.1 hb), hcoef, hz]
      beta_reduce
      rw [lo_inner hl (mem_range.1 hb)]
    rw [sum_congr rfl fun l hl => hterm l (mem_range.1 hl), sum_eq_single k]
    · exact hkid k hk r hkr
    · intro l hl hne
      rw [mem_range] at hl
      refine sum_eq_zero fun s _ => ?_
      rw [proj_sup h hW (kid_nonroot h.wf hvn (kid_mem hl)) (fun hc => hne (kid_row_unique h.wf hvn hl hk hc.1 hkr)), zero_mul]
    · intro hn; exact absurd (mem_range.2 hk) hn

/-- The projections keep the off-diagonal rows. -/
theorem proj_fix (h : Built R A g H) (hW : Nested H W) (hL : P.lq.Correct) (hpv : P.lq.Pivoted) (ht : P.reltol ≤ 0)
    (hcap : ∀ v, v + 1 < R.arr.nNode → Cap P R Ty nvec g v) {Om : Nat → Nat → ℝ}
    (hTy : ∀ v, v + 1 < R.arr.nNode → ∀ r, InRow R v r → ∀ j < nvec, Ty (R.arr.level v) r j = ∑ q ∈ range R.size, (if InRow R v q then 0 else A r q) * Om q j)
    (hlow : ∀ v, v + 1 < R.arr.nNode → ∃ (F G : Nat → Nat → ℝ), ∀ r, InRow R v r → ∀ j < nvec, Ty (R.arr.level v) r j = ∑ t ∈ range P.maxRank, F r t * G t j)
    (hspan : ∀ v, v + 1 < R.arr.nNode → ∀ q < R.size, ¬ InRow R v q → ∃ c : Nat → ℝ, ∀ r, InRow R v r → A r q = ∑ j ∈ range nvec, Ty (R.arr.level v) r j * c j) :
    ∀ v, v + 1 < R.arr.nNode → ∀ q < R.size, ¬ InRow R v q → ∀ r, InRow R v r → ∑ s ∈ range R.size, proj g W v r s * A s q = A r q := by
  intro v
  induction v using Nat.strong_induction_on with
  | _ v ih =>
    intro hv q hq hqv r hr
    have hvn : v < R.arr.nNode := by omega
    obtain ⟨F, G, hFG⟩ := hlow v hv
    have hT : ∀ j < nvec, ∀ r, InRow R v r → ∑ s ∈ range R.size, proj g W v r s * Ty (R.arr.level v) s j = Ty (R.arr.level v) r j := by
      intro j hj r hr
      refine proj_apply h hW hv (x := fun s => Ty (R.arr.level v) s j) (fun i hi => cap_fix h hL hpv ht hv (hcap v hv) (le_refl _) (fun r _ hr j hj => hFG r hr j hj) i hi j hj) ?_ hr
      intro k hk r hkr
      have nk := kid_nonroot h.wf hvn (kid_mem (R := R) hk)
      have hsub : ∀ {s}, InRow R (kid R v k) s → InRow R v s := fun hs => kid_sub h.wf hvn hk hs
      have : ∀ s ∈ range R.size, proj g W (kid R v k) r s * Ty (R.arr.level v) s j =
          ∑ q ∈ range R.size, proj g W (kid R v k) r s * A s q * (if InRow R v q then 0 else Om q j) := by
        intro s _
        by_cases hs : InRow R (kid R v k) s
        · rw [hTy v hv s (hsub hs) j hj, mul_sum]
          refine sum_congr rfl fun q _ => ?_
          split
          · simp
          · ring
        · rw [proj_sup h hW nk (fun hc => hs hc.2)]; simp
      rw [sum_congr rfl this, sum_comm, hTy v hv r (hsub hkr) j hj]
      refine sum_congr rfl fun q hq => ?_
      rw [← sum_mul]
      by_cases hqv : InRow R v q
      · rw [if_pos hqv, if_pos hqv]; simp
      · rw [if_neg hqv, if_neg hqv]
        rw [ih _ (h.wf.tree.childLt v hvn _ (kid_mem hk)) nk q (mem_range.1 hq) (fun hc => hqv (hsub hc)) r hkr]
    obtain ⟨c, hc⟩ := hspan v hv q hq hqv
    have : ∀ s ∈ range R.size, proj g W v r s * A s q = ∑ j ∈ range nvec, proj g W v r s * Ty (R.arr.level v) s j * c j := by
      intro s _
      by_cases hs : InRow R v s
      · rw [hc s hs, mul_sum]
        exact sum_congr rfl fun j _ => by ring
      · rw [proj_sup h hW hv (fun hc => hs hc.2)]; simp
    rw [sum_congr rfl this, sum_comm, hc r hr]
    refine sum_congr rfl fun j hj => ?_
    rw [← sum_mul, hT j (mem_range.1 hj) r hr]

/-- When the projections keep the off-diagonal rows the matrix is reproduced. -/
theorem fix_exact (h : Built R A g H) (hW : Nested H W) (hA : ∀ r < R.size, ∀ q < R.size, A r q = A q r)
    (hfix : ∀ v, v + 1 < R.arr.nNode → ∀ q < R.size, ¬ InRow R v q → ∀ r, InRow R v r → ∑ s ∈ range R.size, proj g W v r s * A s q = A r q) :
    ∀ v < R.arr.nNode, ∀ r q, InRow R v r → InRow R v q → entry H W r q = A r q := by
  intro v
  induction v using Nat.strong_induction_on with
  | _ v ih =>
    intro hv r q hr hq
    by_cases h0 : R.arr.nChild v = 0
    · exact leaf_entry h hW hv h0 hr hq
    · obtain ⟨k, hk, hkr⟩ := kid_row h.wf hv h0 hr
      obtain ⟨l, hl, hlq⟩ := kid_row h.wf hv h0 hq
      have key : ∀ k l r q, k < l → l < R.arr.nChild v → InRow R (kid R v k) r → InRow R (kid R v l) q → entry H W r q = A r q := by
        intro k l r q hkl hl hr hq
        have hk : k < R.arr.nChild v := by omega
        have nk := kid_nonroot h.wf hv (kid_mem (R := R) hk)
        have nl := kid_nonroot h.wf hv (kid_mem (R := R) hl)
        have rs : r < R.size := row_lt h.wf (by omega) hr
        have qs : q < R.size := row_lt h.wf (by omega) hq
        rw [kid_proj h hW hv hkl hl hr hq, sum_comm]
        have : ∀ t ∈ range R.size, ∑ s ∈ range R.size, proj g W (kid R v k) r s * A s t * proj g W (kid R v l) q t = proj g W (kid R v l) q t * A t r := by
          intro t ht
          by_cases hi : InRow R (kid R v l) t
          · rw [← sum_mul, hfix _ nk t (mem_range.1 ht) (fun hc => by
              have := kid_row_unique h.wf hv hk hl hc hi
              omega) r hr, hA t (mem_range.1 ht) r rs, mul_comm]
          · rw [proj_sup h hW nl (fun hc => hi hc.2)]; simp
        rw [sum_congr rfl this, hfix _ nl r rs (fun hc => by
          have := kid_row_unique h.wf hv hk hl hr hc
          omega) q hq, hA q qs r rs]
      rcases Nat.lt_trichotomy k l with hlt | heq | hgt
      · exact key k l r q hlt hl hkr hlq
      · subst heq
        exact ih _ (h.wf.tree.childLt v hv _ (kid_mem hk)) (h.wf.tree.kid_lt hv (kid_mem hk)) r q hkr hlq
      · rw [(kid_entry h hW hv hgt hk hlq hkr).2, key l k q r hgt hk hlq hkr]
        exact hA q (row_lt h.wf hv hq) r (row_lt h.wf hv hr)

end

end H2Pack.SPD
