import Verif.Proof.SPD15

set_option linter.unusedSectionVars false

/-! # SPDHSS: the blocks are two-sided projections; exactness without truncation -/

namespace H2Pack.SPD
open H2Pack.MV (Mat Rep WF kid off kid_mem Nested entry nested_zero)
open H2Pack.ULV (InRow leaf_surj HSS entry_leaf entry_kids pair_index kid_row kid_row_unique kid_sub)
open H2Pack.Part (Arr kids ClusterTree)
open Finset

section
variable {R : Rep ℝ} {A : Nat → Nat → ℝ} {g : Gh} {H : Rep ℝ} {W : Nat → Nat → Nat → ℝ}

/-- The bases vanish outside the rows of the node. -/
theorem Built.zero (h : Built R A g H) (hW : Nested H W) {c : Nat} (hc : c + 1 < R.arr.nNode) {r : Nat} (hr : ¬ InRow R c r) {a : Nat} (ha : a < (g.U c).ncol) : W c r a = 0 := by
  refine nested_zero h.hss.wf hW c (by rw [h.arr]; omega) (by rw [h.hss.min, h.arr]; exact H2Pack.Part.level_pos h.wf.tree hc) r ?_ a (by rw [h.U c hc]; exact ha)
  intro hcon
  exact hr ((h.inRow c r).1 hcon)

/-- The block of two children. -/
theorem kid_entry (h : Built R A g H) (hW : Nested H W) {v : Nat} (hv : v < R.arr.nNode) {k l : Nat} (hkl : k < l) (hl : l < R.arr.nChild v) {r q : Nat}
    (hr : InRow R (kid R v k) r) (hq : InRow R (kid R v l) q) :
    entry H W r q = ∑ a ∈ range (g.U (kid R v k)).ncol, ∑ b ∈ range (g.U (kid R v l)).ncol,
        W (kid R v k) r a * bil R.size A (g.L (kid R v k) a) (g.L (kid R v l) b) * W (kid R v l) q b ∧ entry H W q r = entry H W r q := by
  have hvH : v < H.arr.nNode := by rw [h.arr]; exact hv
  obtain ⟨i, hi, hp⟩ := pair_index h.hss hvH hkl (by rw [h.arr]; exact hl)
  have e := entry_kids h.hss hW hvH hkl (by rw [h.arr]; exact hl) hi hp (r := r) (q := q)
    ((h.inRow _ _).2 (by rw [h.kid]; exact hr)) ((h.inRow _ _).2 (by rw [h.kid]; exact hq))
  refine ⟨?_, by rw [e.1, e.2]⟩
  have e := e.1
  rw [h.kid, h.kid, h.U _ (kid_nonroot h.wf hv (kid_mem (R := R) (show k < R.arr.nChild v by omega))), h.U _ (kid_nonroot h.wf hv (kid_mem (R := R) hl))] at e
  rw [e]
  refine sum_congr rfl fun a ha => sum_congr rfl fun b hb => ?_
  rw [h.B v hv k l hkl hl i hi (by rw [hp, h.kid, h.kid]) a (mem_range.1 ha) b (mem_range.1 hb)]

theorem coef_lin (v n : Nat) (c : Nat → ℝ) (f : Nat → Nat → ℝ) (b : Nat) :
    coef R W v (fun r => ∑ i ∈ range n, c i * f i r) b = ∑ i ∈ range n, c i * coef R W v (f i) b := by
  unfold coef
  simp only [mul_sum]
  rw [sum_comm]
  exact sum_congr rfl fun i _ => sum_congr rfl fun r _ => by ring

/-- `L' W = I`. -/
theorem frame_basis (h : Built R A g H) (hW : Nested H W) : ∀ v, v + 1 < R.arr.nNode → ∀ a < (g.U v).ncol, ∀ b < (g.U v).ncol,
    coef R W v (g.L v a) b = if a = b then 1 else 0 := by
  intro v
  induction v using Nat.strong_induction_on with
  | _ v ih =>
    intro hv a ha b hb
    have hvn : v < R.arr.nNode := by omega
    have hN := h.nodes v hv
    have e1 : coef R W v (g.L v a) b = ∑ j ∈ range (g.m R v), g.X v a j * coef R W v (g.lo R v j) b := by
      rw [← coef_lin]
      unfold coef
      exact sum_congr rfl fun r _ => by rw [hN.frame a ha r]
    have e2 : ∀ j < g.m R v, coef R W v (g.lo R v j) b = (g.U v).e j b := by
      intro j hj
      rw [coef_eq h hW hv _ b hb, sum_eq_single j]
      · have : yy R g W v (g.lo R v j) j = 1 := by
          by_cases h0 : R.arr.nChild v = 0
          · rw [yy_leaf h0, lo_leaf h0, if_pos rfl]
          · obtain ⟨k, hk, c, hc, rfl⟩ := find_m h0 hj
            rw [yy_inner hk hc, lo_inner hk hc,
              ih _ (h.wf.tree.childLt v hvn _ (kid_mem hk)) (kid_nonroot h.wf hvn (kid_mem hk)) c hc c hc, if_pos rfl]
        rw [this, mul_one]
      · intro i hi hne
        rw [mem_range] at hi
        have : yy R g W v (g.lo R v j) i = 0 := by
          by_cases h0 : R.arr.nChild v = 0
          · rw [yy_leaf h0, lo_leaf h0, if_neg (by omega)]
          · obtain ⟨k, hk, c, hc, rfl⟩ := find_m h0 hj
            obtain ⟨l, hl, d, hd, rfl⟩ := find_m h0 hi
            rw [yy_inner hl hd, lo_inner hk hc]
            by_cases hkl : k = l
            · subst hkl
              rw [ih _ (h.wf.tree.childLt v hvn _ (kid_mem hk)) (kid_nonroot h.wf hvn (kid_mem hk)) c hc d hd, if_neg]
              rintro rfl
              exact hne rfl
            · unfold coef
              refine sum_eq_zero fun r _ => ?_
              by_cases hr : InRow R (kid R v l) r
              · have hr' : ¬ InRow R (kid R v k) r := fun hc' => hkl (kid_row_unique h.wf hvn hk hl hc' hr)
                rw [(h.nodes _ (kid_nonroot h.wf hvn (kid_mem hk))).sup c hc r hr', mul_zero]
              · rw [h.zero hW (kid_nonroot h.wf hvn (kid_mem hl)) hr hd, zero_mul]
        rw [this, mul_zero]
      · intro hn; exact absurd (mem_range.2 hj) hn
    rw [e1, ← hN.la.inv a ha b hb]
    exact sum_congr rfl fun j hj => by rw [e2 j (mem_range.1 hj)]

/-- The projection of a node. -/
noncomputable def proj (g : Gh) (W : Nat → Nat → Nat → ℝ) (v r s : Nat) : ℝ := ∑ a ∈ range (g.U v).ncol, W v r a * g.L v a s

theorem proj_sup (h : Built R A g H) (hW : Nested H W) {v : Nat} (hv : v + 1 < R.arr.nNode) {r s : Nat} (hrs : ¬ (InRow R v r ∧ InRow R v s)) : proj g W v r s = 0 := by
  unfold proj
  refine sum_eq_zero fun a ha => ?_
  rw [mem_range] at ha
  by_cases hr : InRow R v r
  · rw [(h.nodes v hv).sup a ha s (fun hs => hrs ⟨hr, hs⟩), mul_zero]
  · rw [h.zero hW hv hr ha, zero_mul]

theorem proj_idem (h : Built R A g H) (hW : Nested H W) {v : Nat} (hv : v + 1 < R.arr.nNode) (r t : Nat) :
    ∑ s ∈ range R.size, proj g W v r s * proj g W v s t = proj g W v r t := by
  unfold proj
  have : ∀ s ∈ range R.size, (∑ a ∈ range (g.U v).ncol, W v r a * g.L v a s) * (∑ a ∈ range (g.U v).ncol, W v s a * g.L v a t) =
      ∑ a ∈ range (g.U v).ncol, ∑ b ∈ range (g.U v).ncol, W v r a * g.L v b t * (W v s b * g.L v a s) := by
    intro s _
    rw [sum_mul_sum]
    exact sum_congr rfl fun a _ => sum_congr rfl fun b _ => by ring
  rw [sum_congr rfl this, sum_comm]
  refine sum_congr rfl fun a ha => ?_
  rw [sum_comm, sum_eq_single a]
  · rw [← mul_sum]
    have := frame_basis h hW v hv a (mem_range.1 ha) a (mem_range.1 ha)
    unfold coef at this
    rw [this, if_pos rfl, mul_one]
  · intro b hb hne
    rw [← mul_sum]
    have := frame_basis h hW v hv a (mem_range.1 ha) b (mem_range.1 hb)
    unfold coef at this
    rw [this, if_neg (fun h => hne h.symm), mul_zero]
  · intro hn; exact absurd ha hn

/-- The block of two children: the block of `A` between two projections. -/
theorem kid_proj (h : Built R A g H) (hW : Nested H W) {v : Nat} (hv : v < R.arr.nNode) {k l : Nat} (hkl : k < l) (hl : l < R.arr.nChild v) {r q : Nat}
    (hr : InRow R (kid R v k) r) (hq : InRow R (kid R v l) q) :
    entry H W r q = ∑ s ∈ range R.size, ∑ t ∈ range R.size, proj g W (kid R v k) r s * A s t * proj g W (kid R v l) q t := by
  rw [(kid_entry h hW hv hkl hl hr hq).1]
  have : ∀ s ∈ range R.size, ∑ t ∈ range R.size, proj g W (kid R v k) r s * A s t * proj g W (kid R v l) q t =
      ∑ a ∈ range (g.U (kid R v k)).ncol, ∑ b ∈ range (g.U (kid R v l)).ncol, ∑ t ∈ range R.size,
        W (kid R v k) r a * (g.L (kid R v k) a s * A s t * g.L (kid R v l) b t) * W (kid R v l) q b := by
    intro s _
    have : ∀ t ∈ range R.size, proj g W (kid R v k) r s * A s t * proj g W (kid R v l) q t = ∑ a ∈ range (g.U (kid R v k)).ncol, ∑ b ∈ range (g.U (kid R v l)).ncol,
        W (kid R v k) r a * (g.L (kid R v k) a s * A s t * g.L (kid R v l) b t) * W (kid R v l) q b := by
      intro t _
      unfold proj
      rw [sum_mul, sum_mul_sum]
      exact sum_congr rfl fun a _ => sum_congr rfl fun b _ => by ring
    rw [sum_congr rfl this, sum_comm]
    refine sum_congr rfl fun a _ => ?_
    rw [sum_comm]
  rw [sum_congr rfl this]
  conv_rhs => rw [sum_comm]
  refine sum_congr rfl fun a _ => ?_
  conv_rhs => rw [sum_comm]
  refine sum_congr rfl fun b _ => ?_
  unfold bil
  rw [mul_sum, sum_mul]
  refine sum_congr rfl fun s _ => ?_
  rw [mul_sum, sum_mul]

/-- The diagonal blocks. -/
theorem leaf_entry (h : Built R A g H) (hW : Nested H W) {v : Nat} (hv : v < R.arr.nNode) (h0 : R.arr.nChild v = 0) {r q : Nat} (hr : InRow R v r) (hq : InRow R v q) :
    entry H W r q = A r q := by
  obtain ⟨i, hi, hiv⟩ := leaf_surj h.wf hv h0
  have hlf : H.leaf i = v := by rw [← hiv]; unfold Rep.leaf; rw [h.arr]
  have e := entry_leaf h.hss hW (i := i) (by rw [h.arr]; exact hi) (r := r) (q := q) (by rw [hlf, h.inRow]; exact hr) (by rw [hlf, h.inRow]; exact hq)
  have h1 : r - R.rowS v < R.rowE v - R.rowS v := by have := hr.1; have := hr.2; omega
  have h2 : q - R.rowS v < R.rowE v - R.rowS v := by have := hq.1; have := hq.2; omega
  rw [e, hlf, h.rowS, h.D i hi _ (by rw [hiv]; exact h1) _ (by rw [hiv]; exact h2), hiv, Nat.add_sub_cancel' hr.1, Nat.add_sub_cancel' hq.1]

/-! ## Without truncation -/

theorem rows_kids (hwf : WF R) {v : Nat} (hv : v < R.arr.nNode) (h0 : R.arr.nChild v ≠ 0) :
    R.rowE v - R.rowS v = ∑ k ∈ range (R.arr.nChild v), (R.rowE (kid R v k) - R.rowS (kid R v k)) := by
  have key : ∀ u < R.arr.nNode, ∑ r ∈ range R.size, on R u (fun _ => 1) r = ((R.rowE u - R.rowS u : Nat) : ℝ) := by
    intro u hu
    rw [sum_rows hwf hu _ (fun r _ hr => on_out hr)]
    have : ∀ i ∈ range (R.rowE u - R.rowS u), on R u (fun _ => 1) (R.rowS u + i) = 1 := by
      intro i hi
      rw [mem_range] at hi
      exact on_in ⟨by omega, by omega⟩
    rw [sum_congr rfl this]
    simp
  have : ((R.rowE v - R.rowS v : Nat) : ℝ) = ((∑ k ∈ range (R.arr.nChild v), (R.rowE (kid R v k) - R.rowS (kid R v k)) : Nat) : ℝ) := by
    rw [← key v hv, sum_congr rfl fun r _ => on_kids hwf hv h0 (fun _ => 1) r, sum_comm]
    push_cast [Nat.cast_sum]
    refine sum_congr rfl fun k hk => ?_
    rw [← key _ (hwf.tree.kid_lt hv (kid_mem (mem_range.1 hk)))]
    exact sum_congr rfl fun r _ => one_mul _
  exact_mod_cast this

/-- All bases are square when no node is compressed. -/
theorem full_rows (h : Built R A g H) (hfull : ∀ v, v + 1 < R.arr.nNode → g.m R v = R.rowE v - R.rowS v → (g.U v).ncol = g.m R v) :
    ∀ v, v + 1 < R.arr.nNode → (g.U v).ncol = R.rowE v - R.rowS v := by
  intro v
  induction v using Nat.strong_induction_on with
  | _ v ih =>
    intro hv
    have hvn : v < R.arr.nNode := by omega
    have hm : g.m R v = R.rowE v - R.rowS v := by
      by_cases h0 : R.arr.nChild v = 0
      · exact m_leaf h0
      · rw [m_inner h0, rows_kids h.wf hvn h0]
        unfold off
        refine sum_congr rfl fun k hk => ?_
        exact ih _ (h.wf.tree.childLt v hvn _ (kid_mem (mem_range.1 hk))) (kid_nonroot h.wf hvn (kid_mem (mem_range.1 hk)))
    rw [hfull v hv hm, hm]

theorem proj_full (h : Built R A g H) (hW : Nested H W) {v : Nat} (hv : v + 1 < R.arr.nNode) (hf : (g.U v).ncol = R.rowE v - R.rowS v) {r s : Nat}
    (hr : InRow R v r) (hs : InRow R v s) : proj g W v r s = if r = s then 1 else 0 := by
  have hvn : v < R.arr.nNode := by omega
  set n := R.rowE v - R.rowS v with hn
  let L : Matrix (Fin n) (Fin n) ℝ := fun a i => g.L v a (R.rowS v + i)
  let U : Matrix (Fin n) (Fin n) ℝ := fun i a => W v (R.rowS v + i) a
  have h1 : L * U = 1 := by
    ext a b
    have := frame_basis h hW v hv a (by rw [hf]; exact a.2) b (by rw [hf]; exact b.2)
    unfold coef at this
    rw [sum_rows h.wf hvn _ (fun r _ hr => by rw [h.zero hW hv hr (by rw [hf]; exact b.2), zero_mul]), ← hn, sum_range] at this
    rw [Matrix.mul_apply, Matrix.one_apply]
    simp only [Fin.ext_iff]
    rw [← this]
    exact sum_congr rfl fun i _ => mul_comm _ _
  have h2 : U * L = 1 := mul_eq_one_comm.1 h1
  have hr1 : r - R.rowS v < n := by have := hr.1; have := hr.2; omega
  have hs1 : s - R.rowS v < n := by have := hs.1; have := hs.2; omega
  have := congrFun (congrFun h2 ⟨r - R.rowS v, hr1⟩) ⟨s - R.rowS v, hs1⟩
  rw [Matrix.mul_apply, Matrix.one_apply] at this
  unfold proj
  rw [hf, sum_range]
  have e : (if r = s then (1 : ℝ) else 0) = if (⟨r - R.rowS v, hr1⟩ : Fin n) = ⟨s - R.rowS v, hs1⟩ then 1 else 0 := by
    simp only [Fin.mk.injEq]
    by_cases hrs : r = s
    · rw [if_pos hrs, if_pos (by rw [hrs])]
    · rw [if_neg hrs, if_neg (fun he => hrs (by have := hr.1; have := hs.1; omega))]
  rw [e, ← this]
  refine sum_congr rfl fun a _ => ?_
  show _ = W v (R.rowS v + (r - R.rowS v)) a * g.L v a (R.rowS v + (s - R.rowS v))
  rw [Nat.add_sub_cancel' hr.1, Nat.add_sub_cancel' hs.1]

/-- Without truncation the matrix is reproduced. -/
theorem built_exact (h : Built R A g H) (hW : Nested H W) (hA : ∀ r < R.size, ∀ q < R.size, A r q = A q r)
    (hfull : ∀ v, v + 1 < R.arr.nNode → g.m R v = R.rowE v - R.rowS v → (g.U v).ncol = g.m R v) :
    ∀ v < R.arr.nNode, ∀ r q, InRow R v r → InRow R v q → entry H W r q = A r q := by
  have hf := full_rows h hfull
  intro v
  induction v using Nat.strong_induction_on with
  | _ v ih =>
    intro hv r q hr hq
    by_cases h0 : R.arr.nChild v = 0
    · exact leaf_entry h hW hv h0 hr hq
    · obtain ⟨k, hk, hkr⟩ := kid_row h.wf hv h0 hr
      obtain ⟨l, hl, hlq⟩ := kid_row h.wf hv h0 hq
      have key : ∀ k l r q, k < l → l < R.arr.nChild v → InRow R (kid R v k) r → InRow R (kid R v l) q → entry H W r q = A r q := by
        intro k l r q hkl hl hr hq
        have nk := kid_nonroot h.wf hv (kid_mem (R := R) (show k < R.arr.nChild v by omega))
        have nl := kid_nonroot h.wf hv (kid_mem (R := R) hl)
        rw [kid_proj h hW hv hkl hl hr hq, sum_eq_single r, sum_eq_single q]
        · rw [proj_full h hW nk (hf _ nk) hr hr, proj_full h hW nl (hf _ nl) hq hq, if_pos rfl, if_pos rfl]; ring
        · intro t _ ht
          by_cases hi : InRow R (kid R v l) t
          · rw [proj_full h hW nl (hf _ nl) hq hi, if_neg (fun e => ht e.symm), mul_zero]
          · rw [proj_sup h hW nl (fun hc => hi hc.2), mul_zero]
        · intro hn; exact absurd (mem_range.2 (row_lt h.wf (by omega) hq)) hn
        · intro s _ hs
          refine sum_eq_zero fun t _ => ?_
          by_cases hi : InRow R (kid R v k) s
          · rw [proj_full h hW nk (hf _ nk) hr hi, if_neg (fun e => hs e.symm), zero_mul, zero_mul]
          · rw [proj_sup h hW nk (fun hc => hi hc.2), zero_mul, zero_mul]
        · intro hn; exact absurd (mem_range.2 (row_lt h.wf (by omega) hr)) hn
      rcases Nat.lt_trichotomy k l with hlt | heq | hgt
      · exact key k l r q hlt hl hkr hlq
      · subst heq
        exact ih _ (h.wf.tree.childLt v hv _ (kid_mem hk)) (h.wf.tree.kid_lt hv (kid_mem hk)) r q hkr hlq
      · rw [(kid_entry h hW hv hgt hk hlq hkr).2, key l k q r hgt hk hlq hkr]
        exact hA q (row_lt h.wf hv hq) r (row_lt h.wf hv hr)

end

end H2Pack.SPD
