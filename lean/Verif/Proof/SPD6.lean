import Verif.Proof.SPD5

set_option linter.unusedSectionVars false

/-! # SPDHSS: the HSS matrix is positive definite -/

namespace H2Pack.SPD
open H2Pack.MV (Mat Rep WF kid off kid_mem Nested entry nested_zero)
open H2Pack.ULV (InRow HSS off_find off_unique sum_off off_mono off_succ kid_row_unique kid_sub comparable kid_row entry_kids entry_leaf leaf_surj pair_index)
open H2Pack.Part (Arr kids ClusterTree)
open Finset

section
variable {R : Rep ℝ} {A : Nat → Nat → ℝ} {g : Gh}

/-- The matrix `H` consists of the blocks of the construction. -/
structure Built (R : Rep ℝ) (A : Nat → Nat → ℝ) (g : Gh) (H : Rep ℝ) : Prop where
  arr : H.arr = R.arr
  nPoint : H.nPoint = R.nPoint
  kdim : H.kdim = R.kdim
  hss : HSS H
  wf : WF R
  nodes : ∀ v, v + 1 < R.arr.nNode → NodeOk R A g v
  U : ∀ v, v + 1 < R.arr.nNode → H.U v = g.U v
  D : ∀ i < R.arr.nLeaf, ∀ a < R.rowE (R.leaf i) - R.rowS (R.leaf i), ∀ b < R.rowE (R.leaf i) - R.rowS (R.leaf i),
    (H.D i).e a b = A (R.rowS (R.leaf i) + a) (R.rowS (R.leaf i) + b)
  B : ∀ v < R.arr.nNode, ∀ k l, k < l → l < R.arr.nChild v → ∀ i (h : i < H.adm.length), H.adm[i] = (kid R v k, kid R v l) →
    ∀ a < (g.U (kid R v k)).ncol, ∀ b < (g.U (kid R v l)).ncol, (H.B i).e a b = bil R.size A (g.L (kid R v k) a) (g.L (kid R v l) b)

variable {H : Rep ℝ} {W : Nat → Nat → Nat → ℝ}

theorem kid_nonroot (hwf : WF R) {v c : Nat} (hv : v < R.arr.nNode) (hc : c ∈ kids R.arr v) : c + 1 < R.arr.nNode := by
  have := hwf.tree.childLt v hv c hc
  omega

theorem Built.rowS (h : Built R A g H) (v : Nat) : H.rowS v = R.rowS v := by unfold Rep.rowS; rw [h.arr, h.kdim]
theorem Built.rowE (h : Built R A g H) (v : Nat) : H.rowE v = R.rowE v := by unfold Rep.rowE; rw [h.arr, h.kdim]
theorem Built.size (h : Built R A g H) : H.size = R.size := by unfold Rep.size; rw [h.nPoint, h.kdim]
theorem Built.inRow (h : Built R A g H) (v r : Nat) : InRow H v r ↔ InRow R v r := by unfold InRow; rw [h.rowS, h.rowE]
theorem Built.kid (h : Built R A g H) (v k : Nat) : H2Pack.MV.kid H v k = H2Pack.MV.kid R v k := by unfold H2Pack.MV.kid; rw [h.arr]

/-- Part of a vector on the rows of a node. -/
noncomputable def on (R : Rep ℝ) (v : Nat) (x : Nat → ℝ) (r : Nat) : ℝ := by
  classical
  exact if InRow R v r then x r else 0

theorem on_in {v r : Nat} {x : Nat → ℝ} (h : InRow R v r) : on R v x r = x r := by unfold on; rw [if_pos h]
theorem on_out {v r : Nat} {x : Nat → ℝ} (h : ¬ InRow R v r) : on R v x r = 0 := by unfold on; rw [if_neg h]

theorem on_kids (hwf : WF R) {v : Nat} (hv : v < R.arr.nNode) (h0 : R.arr.nChild v ≠ 0) (x : Nat → ℝ) (r : Nat) :
    on R v x r = ∑ k ∈ range (R.arr.nChild v), 1 * on R (kid R v k) x r := by
  by_cases hr : InRow R v r
  · obtain ⟨k, hk, hkr⟩ := kid_row hwf hv h0 hr
    rw [sum_eq_single k, on_in hr, on_in hkr, one_mul]
    · intro l hl hne
      rw [on_out, mul_zero]
      intro h
      exact hne (kid_row_unique hwf hv (mem_range.1 hl) hk h hkr)
    · intro hn; exact absurd (mem_range.2 hk) hn
  · rw [on_out hr, sum_eq_zero]
    intro k hk
    rw [on_out, mul_zero]
    intro h
    exact hr (kid_sub hwf hv (mem_range.1 hk) h)

/-- The coordinates of a vector in the basis of a node. -/
def coef (R : Rep ℝ) (W : Nat → Nat → Nat → ℝ) (v : Nat) (x : Nat → ℝ) (a : Nat) : ℝ := ∑ r ∈ range R.size, W v r a * x r

/-- The coordinates before the node is compressed. -/
def yy (R : Rep ℝ) (g : Gh) (W : Nat → Nat → Nat → ℝ) (v : Nat) (x : Nat → ℝ) (i : Nat) : ℝ :=
  if R.arr.nChild v = 0 then x (R.rowS v + i)
  else ∑ k ∈ range (R.arr.nChild v), ∑ b ∈ range (g.U (kid R v k)).ncol, if off (g.rep R) v k + b = i then coef R W (kid R v k) x b else 0

theorem yy_leaf {v : Nat} (h0 : R.arr.nChild v = 0) (x : Nat → ℝ) (i : Nat) : yy R g W v x i = x (R.rowS v + i) := by
  unfold yy; rw [if_pos h0]

theorem yy_inner {v k b : Nat} (hk : k < R.arr.nChild v) (hb : b < (g.U (kid R v k)).ncol) (x : Nat → ℝ) :
    yy R g W v x (off (g.rep R) v k + b) = coef R W (kid R v k) x b := by
  unfold yy
  rw [if_neg (by omega), sum_eq_single k]
  · rw [sum_eq_single b]
    · rw [if_pos rfl]
    · intro b' hb' hne
      rw [if_neg (by omega)]
    · intro h; exact absurd (mem_range.2 hb) h
  · intro k' hk' hne
    apply sum_eq_zero
    intro b' hb'
    rw [if_neg]
    intro he
    exact hne (off_unique (g.rep R) v (mem_range.1 hb') hb he).1
  · intro h; exact absurd (mem_range.2 hk) h

/-- A sum over the rows of a node. -/
theorem sum_rows (hwf : WF R) {v : Nat} (hv : v < R.arr.nNode) (F : Nat → ℝ) (hF : ∀ r < R.size, ¬ InRow R v r → F r = 0) :
    ∑ r ∈ range R.size, F r = ∑ i ∈ range (R.rowE v - R.rowS v), F (R.rowS v + i) := by
  have h1 : R.rowS v ≤ R.rowE v := by
    unfold Rep.rowS Rep.rowE
    exact Nat.mul_le_mul_left _ (by have := hwf.tree.clusterLe v hv; omega)
  have h2 := rowE_le hwf hv
  have e : R.size = R.rowS v + ((R.rowE v - R.rowS v) + (R.size - R.rowE v)) := by omega
  rw [e, sum_range_add, sum_range_add, sum_eq_zero (s := range (R.rowS v)), zero_add, sum_eq_zero (s := range (R.size - R.rowE v)), add_zero]
  · intro i hi
    rw [mem_range] at hi
    exact hF _ (by omega) (fun h => by have := h.2; omega)
  · intro i hi
    rw [mem_range] at hi
    exact hF _ (by omega) (fun h => by have := h.1; omega)

/-- The coordinates in the basis of a node, from those before it is compressed. -/
theorem coef_eq (h : Built R A g H) (hW : Nested H W) {v : Nat} (hv : v + 1 < R.arr.nNode) (x : Nat → ℝ) :
    ∀ a < (g.U v).ncol, coef R W v x a = ∑ i ∈ range (g.m R v), (g.U v).e i a * yy R g W v x i := by
  intro a ha
  have hv' : v < H.arr.nNode := by rw [h.arr]; omega
  have hlv : H.minAdm ≤ H.arr.level v := by
    rw [h.hss.min, h.arr]
    exact H2Pack.Part.level_pos h.wf.tree hv
  have ha' : a < (H.U v).ncol := by rw [h.U v hv]; exact ha
  unfold coef
  by_cases h0 : R.arr.nChild v = 0
  · have hl := hW.leaf v hv' hlv (by rw [h.arr]; exact h0)
    rw [m_leaf h0, sum_rows h.wf (by omega : v < R.arr.nNode)]
    · refine sum_congr rfl fun i hi => ?_
      rw [mem_range] at hi
      rw [hl _ a ha', h.rowS, h.rowE, if_pos ⟨by omega, by omega⟩, h.U v hv, yy_leaf h0, Nat.add_sub_cancel_left]
    · intro r _ hr
      rw [hl _ a ha', h.rowS, h.rowE, if_neg (show ¬ (R.rowS v ≤ r ∧ r < R.rowE v) from hr), zero_mul]
  · have hl := hW.inner v hv' hlv (by rw [h.arr]; exact h0)
    rw [sum_m h0]
    have : ∀ r ∈ range R.size, W v r a * x r = ∑ k ∈ range (R.arr.nChild v), ∑ b ∈ range (g.U (kid R v k)).ncol,
        (g.U v).e (off (g.rep R) v k + b) a * (W (kid R v k) r b * x r) := by
      intro r _
      rw [hl r a ha', h.arr, sum_mul]
      refine sum_congr rfl fun k hk => ?_
      rw [mem_range] at hk
      have hkr := kid_nonroot h.wf (by omega : v < R.arr.nNode) (kid_mem (R := R) hk)
      have ho : off H v k = off (g.rep R) v k := by
        unfold off
        refine sum_congr rfl fun j hj => ?_
        rw [mem_range] at hj
        rw [h.kid, h.U _ (kid_nonroot h.wf (by omega : v < R.arr.nNode) (kid_mem (R := R) (by omega)))]
        rfl
      rw [h.kid, h.U _ hkr, h.U v hv, sum_mul, ho]
      exact sum_congr rfl fun b _ => by ring
    rw [sum_congr rfl this, sum_comm]
    refine sum_congr rfl fun k hk => ?_
    rw [mem_range] at hk
    rw [sum_comm]
    refine sum_congr rfl fun b hb => ?_
    rw [yy_inner hk (mem_range.1 hb), ← mul_sum]
    rfl

/-- The represented matrix between two children of a node. -/
theorem kids_form (h : Built R A g H) (hW : Nested H W) (hA : PD R.size A) {v : Nat} (hv : v < R.arr.nNode) {k l : Nat} (hk : k < R.arr.nChild v)
    (hl : l < R.arr.nChild v) (hkl : k ≠ l) (x : Nat → ℝ) :
    bil R.size (entry H W) (on R (kid R v k) x) (on R (kid R v l) x) =
      ∑ a ∈ range (g.U (kid R v k)).ncol, ∑ b ∈ range (g.U (kid R v l)).ncol,
        coef R W (kid R v k) x a * bil R.size A (g.L (kid R v k) a) (g.L (kid R v l) b) * coef R W (kid R v l) x b := by
  -- the entries
  have hent : ∀ r q, InRow R (kid R v k) r → InRow R (kid R v l) q → entry H W r q =
      ∑ a ∈ range (g.U (kid R v k)).ncol, ∑ b ∈ range (g.U (kid R v l)).ncol,
        W (kid R v k) r a * bil R.size A (g.L (kid R v k) a) (g.L (kid R v l) b) * W (kid R v l) q b := by
    have hvH : v < H.arr.nNode := by rw [h.arr]; exact hv
    intro r q hr hq
    rcases Nat.lt_or_gt_of_ne hkl with hlt | hgt
    · obtain ⟨i, hi, hp⟩ := pair_index h.hss hvH hlt (by rw [h.arr]; exact hl)
      have e := (entry_kids h.hss hW hvH hlt (by rw [h.arr]; exact hl) hi hp (r := r) (q := q)
        ((h.inRow _ _).2 (by rw [h.kid]; exact hr)) ((h.inRow _ _).2 (by rw [h.kid]; exact hq))).1
      rw [h.kid, h.kid, h.U _ (kid_nonroot h.wf hv (kid_mem (R := R) hk)), h.U _ (kid_nonroot h.wf hv (kid_mem (R := R) hl))] at e
      rw [e]
      refine sum_congr rfl fun a ha => sum_congr rfl fun b hb => ?_
      rw [h.B v hv k l hlt hl i hi (by rw [hp, h.kid, h.kid]) a (mem_range.1 ha) b (mem_range.1 hb)]
    · obtain ⟨i, hi, hp⟩ := pair_index h.hss hvH hgt (by rw [h.arr]; exact hk)
      have e := (entry_kids h.hss hW hvH hgt (by rw [h.arr]; exact hk) hi hp (r := q) (q := r)
        ((h.inRow _ _).2 (by rw [h.kid]; exact hq)) ((h.inRow _ _).2 (by rw [h.kid]; exact hr))).2
      rw [h.kid, h.kid, h.U _ (kid_nonroot h.wf hv (kid_mem (R := R) hk)), h.U _ (kid_nonroot h.wf hv (kid_mem (R := R) hl))] at e
      rw [e, sum_comm]
      refine sum_congr rfl fun a ha => sum_congr rfl fun b hb => ?_
      rw [h.B v hv l k hgt hk i hi (by rw [hp, h.kid, h.kid]) b (mem_range.1 hb) a (mem_range.1 ha), bil_symm hA.1]
      ring
  -- zero outside the rows
  have hz : ∀ c, c + 1 < R.arr.nNode → ∀ r, ¬ InRow R c r → ∀ a < (g.U c).ncol, W c r a = 0 := by
    intro c hc r hr a ha
    refine nested_zero h.hss.wf hW c (by rw [h.arr]; omega) (by rw [h.hss.min, h.arr]; exact H2Pack.Part.level_pos h.wf.tree hc) r ?_ a (by rw [h.U c hc]; exact ha)
    intro hcon
    exact hr ((h.inRow c r).1 hcon)
  have hkr := kid_nonroot h.wf hv (kid_mem (R := R) hk)
  have hlr := kid_nonroot h.wf hv (kid_mem (R := R) hl)
  have step : bil R.size (entry H W) (on R (kid R v k) x) (on R (kid R v l) x) = ∑ r ∈ range R.size, ∑ q ∈ range R.size,
      ∑ a ∈ range (g.U (kid R v k)).ncol, ∑ b ∈ range (g.U (kid R v l)).ncol,
        (W (kid R v k) r a * x r) * bil R.size A (g.L (kid R v k) a) (g.L (kid R v l) b) * (W (kid R v l) q b * x q) := by
    unfold bil
    refine sum_congr rfl fun r _ => sum_congr rfl fun q _ => ?_
    by_cases hr : InRow R (kid R v k) r
    · by_cases hq : InRow R (kid R v l) q
      · rw [on_in hr, on_in hq, hent r q hr hq, mul_sum, sum_mul]
        refine sum_congr rfl fun a _ => ?_
        rw [mul_sum, sum_mul]
        refine sum_congr rfl fun b _ => ?_
        unfold bil
        ring
      · rw [on_out hq, mul_zero, sum_eq_zero]
        intro a _
        apply sum_eq_zero
        intro b hb
        rw [hz _ hlr q hq b (mem_range.1 hb)]
        ring
    · rw [on_out hr, zero_mul, zero_mul, sum_eq_zero]
      intro a ha
      apply sum_eq_zero
      intro b _
      rw [hz _ hkr r hr a (mem_range.1 ha)]
      ring
  rw [step]
  have e1 : ∀ r ∈ range R.size, ∑ q ∈ range R.size, ∑ a ∈ range (g.U (kid R v k)).ncol, ∑ b ∈ range (g.U (kid R v l)).ncol,
        (W (kid R v k) r a * x r) * bil R.size A (g.L (kid R v k) a) (g.L (kid R v l) b) * (W (kid R v l) q b * x q) =
      ∑ a ∈ range (g.U (kid R v k)).ncol, (W (kid R v k) r a * x r) * ∑ b ∈ range (g.U (kid R v l)).ncol,
        bil R.size A (g.L (kid R v k) a) (g.L (kid R v l) b) * coef R W (kid R v l) x b := by
    intro r _
    rw [sum_comm]
    refine sum_congr rfl fun a _ => ?_
    rw [sum_comm, mul_sum]
    refine sum_congr rfl fun b _ => ?_
    unfold coef
    rw [mul_sum, mul_sum]
    exact sum_congr rfl fun q _ => by ring
  rw [sum_congr rfl e1, sum_comm]
  refine sum_congr rfl fun a _ => ?_
  rw [← sum_mul, mul_sum]
  refine sum_congr rfl fun b _ => ?_
  unfold coef
  ring

/-- The form on the rows of a node. -/
theorem node_form (h : Built R A g H) (hW : Nested H W) (hA : PD R.size A) {v : Nat} (hv : v < R.arr.nNode) (x : Nat → ℝ) :
    bil R.size (entry H W) (on R v x) (on R v x) = quad (g.m R v) (g.gp R A v) (yy R g W v x) +
      ∑ k ∈ range (R.arr.nChild v), (bil R.size (entry H W) (on R (kid R v k) x) (on R (kid R v k) x) -
        ∑ a ∈ range (g.U (kid R v k)).ncol, coef R W (kid R v k) x a ^ 2) := by
  by_cases h0 : R.arr.nChild v = 0
  · rw [h0, range_zero, sum_empty, add_zero]
    obtain ⟨i, hi, hiv⟩ := leaf_surj h.wf hv h0
    unfold bil quad
    rw [m_leaf h0, sum_rows h.wf hv]
    · refine sum_congr rfl fun a ha => ?_
      rw [mem_range] at ha
      have hra : InRow R v (R.rowS v + a) := ⟨by omega, by omega⟩
      rw [sum_rows h.wf hv]
      · refine sum_congr rfl fun b hb => ?_
        rw [mem_range] at hb
        have hrb : InRow R v (R.rowS v + b) := ⟨by omega, by omega⟩
        have hlf : H.leaf i = v := by rw [← hiv]; unfold Rep.leaf; rw [h.arr]
        rw [on_in hra, on_in hrb, yy_leaf h0, yy_leaf h0, gp_leaf h0]
        have e := entry_leaf h.hss hW (i := i) (by rw [h.arr]; exact hi) (r := R.rowS v + a) (q := R.rowS v + b)
          (by rw [hlf, h.inRow]; exact hra) (by rw [hlf, h.inRow]; exact hrb)
        rw [e, hlf, h.rowS, Nat.add_sub_cancel_left, Nat.add_sub_cancel_left]
        have hD := h.D i hi a (by rw [hiv]; exact ha) b (by rw [hiv]; exact hb)
        rw [hD, hiv]
        congr 2
        have hs := fun (r : Nat) (hr : InRow R v r) => row_lt h.wf hv hr
        unfold bil
        rw [sum_eq_single (R.rowS v + a)]
        · rw [sum_eq_single (R.rowS v + b)]
          · rw [lo_leaf h0, lo_leaf h0, if_pos rfl, if_pos rfl, one_mul, mul_one]
          · intro q _ hq
            rw [lo_leaf h0 b, if_neg hq, mul_zero]
          · intro hn; exact absurd (mem_range.2 (hs _ hrb)) hn
        · intro r _ hr
          refine sum_eq_zero fun q _ => ?_
          rw [lo_leaf h0, if_neg hr, zero_mul, zero_mul]
        · intro hn; exact absurd (mem_range.2 (hs _ hra)) hn
      · intro q _ hq
        rw [on_out hq, mul_zero]
    · intro r _ hr
      refine sum_eq_zero fun q _ => ?_
      rw [on_out hr, zero_mul, zero_mul]
  · have e : bil R.size (entry H W) (on R v x) (on R v x) = quad (R.arr.nChild v) (fun k l => bil R.size (entry H W) (on R (kid R v k) x) (on R (kid R v l) x)) (fun _ => 1) := by
      rw [← bil_quad (N := R.size) (A := entry H W) (R.arr.nChild v) (fun _ => 1) (fun k => on R (kid R v k) x)]
      exact bil_congr (fun r _ => on_kids h.wf hv h0 x r) (fun r _ => on_kids h.wf hv h0 x r)
    rw [e]
    unfold quad
    rw [sum_m h0, ← sum_add_distrib]
    refine sum_congr rfl fun k hk => ?_
    rw [mem_range] at hk
    have e1 : ∀ a ∈ range (g.U (kid R v k)).ncol, ∑ j ∈ range (g.m R v), yy R g W v x (off (g.rep R) v k + a) * g.gp R A v (off (g.rep R) v k + a) j * yy R g W v x j =
        ∑ l ∈ range (R.arr.nChild v), if k = l then coef R W (kid R v k) x a ^ 2 else ∑ b ∈ range (g.U (kid R v l)).ncol,
          coef R W (kid R v k) x a * bil R.size A (g.L (kid R v k) a) (g.L (kid R v l) b) * coef R W (kid R v l) x b := by
      intro a ha
      rw [mem_range] at ha
      rw [sum_m h0]
      refine sum_congr rfl fun l hl => ?_
      rw [mem_range] at hl
      by_cases hkl : k = l
      · subst hkl
        rw [if_pos rfl, sum_eq_single a]
        · rw [gp_inner hk hk ha ha, if_pos rfl, if_pos rfl, yy_inner hk ha]
          ring
        · intro b hb hne
          rw [gp_inner hk hk ha (mem_range.1 hb), if_pos rfl, if_neg (fun h => hne h.symm)]
          ring
        · intro hn; exact absurd (mem_range.2 ha) hn
      · rw [if_neg hkl]
        refine sum_congr rfl fun b hb => ?_
        rw [mem_range] at hb
        rw [gp_inner hk hl ha hb, if_neg hkl, yy_inner hk ha, yy_inner hl hb]
    rw [sum_congr rfl e1, sum_comm, ← add_sub_assoc, eq_sub_iff_add_eq]
    have e2 : ∑ l ∈ range (R.arr.nChild v), 1 * bil R.size (entry H W) (on R (kid R v k) x) (on R (kid R v l) x) * 1 =
        bil R.size (entry H W) (on R (kid R v k) x) (on R (kid R v k) x) + ∑ l ∈ (range (R.arr.nChild v)).erase k,
          bil R.size (entry H W) (on R (kid R v k) x) (on R (kid R v l) x) := by
      rw [← add_sum_erase _ _ (mem_range.2 hk)]
      simp only [one_mul, mul_one]
    rw [e2, ← add_sum_erase _ _ (mem_range.2 hk)]
    simp only [if_true]
    have e3 : ∑ l ∈ (range (R.arr.nChild v)).erase k, bil R.size (entry H W) (on R (kid R v k) x) (on R (kid R v l) x) =
        ∑ l ∈ (range (R.arr.nChild v)).erase k, ∑ a ∈ range (g.U (kid R v k)).ncol, (if k = l then coef R W (kid R v k) x a ^ 2 else
          ∑ b ∈ range (g.U (kid R v l)).ncol, coef R W (kid R v k) x a * bil R.size A (g.L (kid R v k) a) (g.L (kid R v l) b) * coef R W (kid R v l) x b) := by
      refine sum_congr rfl fun l hl => ?_
      rw [mem_erase, mem_range] at hl
      rw [kids_form h hW hA hv hk hl.2 (fun h => hl.1 h.symm)]
      refine sum_congr rfl fun a _ => ?_
      rw [if_neg (fun h => hl.1 h.symm)]
    rw [e3]
    ring

/-- Every node: the form dominates the squared norm in the basis, and it is positive definite on the rows of the node. -/
theorem node_pos (h : Built R A g H) (hW : Nested H W) (hA : PD R.size A) : ∀ v < R.arr.nNode, ∀ x : Nat → ℝ,
    (v + 1 < R.arr.nNode → ∑ a ∈ range (g.U v).ncol, coef R W v x a ^ 2 ≤ bil R.size (entry H W) (on R v x) (on R v x)) ∧
    ((∃ r, InRow R v r ∧ x r ≠ 0) → 0 < bil R.size (entry H W) (on R v x) (on R v x)) := by
  intro v
  induction v using Nat.strong_induction_on with
  | _ v ih =>
    intro hv x
    have hkn : ∀ c ∈ kids R.arr v, NodeOk R A g c := fun c hc => h.nodes c (kid_nonroot h.wf hv hc)
    have hkid : ∀ k < R.arr.nChild v, _ := fun k hk => ih (kid R v k) (h.wf.tree.childLt v hv _ (kid_mem hk)) (h.wf.tree.kid_lt hv (kid_mem hk)) x
    have hextra : ∀ k ∈ range (R.arr.nChild v), 0 ≤ bil R.size (entry H W) (on R (kid R v k) x) (on R (kid R v k) x) -
        ∑ a ∈ range (g.U (kid R v k)).ncol, coef R W (kid R v k) x a ^ 2 := by
      intro k hk
      rw [mem_range] at hk
      have := (hkid k hk).1 (kid_nonroot h.wf hv (kid_mem hk))
      linarith
    rw [node_form h hW hA hv x]
    constructor
    · intro hr
      have h1 := (h.nodes v hr).la.up (yy R g W v x)
      have h2 : ∑ a ∈ range (g.U v).ncol, coef R W v x a ^ 2 = ∑ a ∈ range (g.U v).ncol, (∑ i ∈ range (g.m R v), (g.U v).e i a * yy R g W v x i) ^ 2 :=
        sum_congr rfl fun a ha => by rw [coef_eq h hW hr x a (mem_range.1 ha)]
      have := sum_nonneg hextra
      rw [h2]
      linarith
    · rintro ⟨r, hr, hx⟩
      by_cases hy : ∃ i < g.m R v, yy R g W v x i ≠ 0
      · have h1 := gp_pos h.wf hA hv hkn _ hy
        have := sum_nonneg hextra
        linarith
      · push Not at hy
        have h0 : R.arr.nChild v ≠ 0 := by
          intro h0
          have := hy (r - R.rowS v) (by rw [m_leaf h0]; have := hr.1; have := hr.2; omega)
          rw [yy_leaf h0, Nat.add_sub_cancel' hr.1] at this
          exact hx this
        have hq : quad (g.m R v) (g.gp R A v) (yy R g W v x) = 0 := by
          unfold quad
          refine sum_eq_zero fun i hi => sum_eq_zero fun j _ => ?_
          rw [hy i (mem_range.1 hi)]; ring
        rw [hq, zero_add]
        obtain ⟨k, hk, hkr⟩ := kid_row h.wf hv h0 hr
        refine sum_pos' hextra ⟨k, mem_range.2 hk, ?_⟩
        have hzero : ∑ a ∈ range (g.U (kid R v k)).ncol, coef R W (kid R v k) x a ^ 2 = 0 := by
          refine sum_eq_zero fun a ha => ?_
          rw [mem_range] at ha
          rw [← yy_inner (g := g) hk ha, hy _ (m_lt hk ha)]; ring
        rw [hzero, sub_zero]
        exact (hkid k hk).2 ⟨r, hkr, hx⟩

theorem node_sym (h : Built R A g H) (hW : Nested H W) (hA : PD R.size A) : ∀ v < R.arr.nNode, ∀ r q, InRow R v r → InRow R v q →
    entry H W r q = entry H W q r := by
  intro v
  induction v using Nat.strong_induction_on with
  | _ v ih =>
    intro hv r q hr hq
    by_cases h0 : R.arr.nChild v = 0
    · obtain ⟨i, hi, hiv⟩ := leaf_surj h.wf hv h0
      have hlf : H.leaf i = v := by rw [← hiv]; unfold Rep.leaf; rw [h.arr]
      have e := fun r q hr hq => entry_leaf h.hss hW (i := i) (by rw [h.arr]; exact hi) (r := r) (q := q)
        (by rw [hlf, h.inRow]; exact hr) (by rw [hlf, h.inRow]; exact hq)
      rw [e r q hr hq, e q r hq hr, hlf, h.rowS]
      have hs := fun (r : Nat) (hr : InRow R v r) => row_lt h.wf hv hr
      have h1 : r - R.rowS v < R.rowE v - R.rowS v := by have := hr.1; have := hr.2; omega
      have h2 : q - R.rowS v < R.rowE v - R.rowS v := by have := hq.1; have := hq.2; omega
      rw [h.D i hi _ (by rw [hiv]; exact h1) _ (by rw [hiv]; exact h2), h.D i hi _ (by rw [hiv]; exact h2) _ (by rw [hiv]; exact h1), hiv,
        Nat.add_sub_cancel' hr.1, Nat.add_sub_cancel' hq.1]
      exact hA.1 r (hs r hr) q (hs q hq)
    · obtain ⟨k, hk, hkr⟩ := kid_row h.wf hv h0 hr
      obtain ⟨l, hl, hlq⟩ := kid_row h.wf hv h0 hq
      have hvH : v < H.arr.nNode := by rw [h.arr]; exact hv
      have key : ∀ k l r q, k < l → l < R.arr.nChild v → InRow R (kid R v k) r → InRow R (kid R v l) q → entry H W r q = entry H W q r := by
        intro k l r q hkl hl hr hq
        obtain ⟨i, hi, hp⟩ := pair_index h.hss hvH hkl (by rw [h.arr]; exact hl)
        have e := entry_kids h.hss hW hvH hkl (by rw [h.arr]; exact hl) hi hp (r := r) (q := q)
          ((h.inRow _ _).2 (by rw [h.kid]; exact hr)) ((h.inRow _ _).2 (by rw [h.kid]; exact hq))
        rw [e.1, e.2]
      rcases Nat.lt_trichotomy k l with hlt | heq | hgt
      · exact key k l r q hlt hl hkr hlq
      · subst heq
        exact ih _ (h.wf.tree.childLt v hv _ (kid_mem hk)) (h.wf.tree.kid_lt hv (kid_mem hk)) r q hkr hlq
      · exact (key l k q r hgt hk hlq hkr).symm

/-- The constructed matrix is positive definite. -/
theorem built_pd (h : Built R A g H) (hW : Nested H W) (hA : PD R.size A) : PD R.size (entry H W) := by
  have hr : R.arr.nNode - 1 < R.arr.nNode := by have := h.wf.tree.nonempty; omega
  have hroot : ∀ r < R.size, InRow R (R.arr.nNode - 1) r := by
    intro r hr
    unfold InRow Rep.rowS Rep.rowE
    rw [h.wf.tree.rootS, h.wf.tree.rootE, Nat.mul_comm R.kdim R.nPoint]
    exact ⟨by omega, hr⟩
  refine ⟨fun r hr' q hq => node_sym h hW hA _ hr r q (hroot r hr') (hroot q hq), fun x hx => ?_⟩
  have := (node_pos h hW hA _ hr x).2 (by obtain ⟨r, h1, h2⟩ := hx; exact ⟨r, hroot r h1, h2⟩)
  refine lt_of_lt_of_eq this (bil_congr (fun r hr => ?_) (fun r hr => ?_))
  · exact on_in (hroot r hr)
  · exact on_in (hroot r hr)

end

end H2Pack.SPD
