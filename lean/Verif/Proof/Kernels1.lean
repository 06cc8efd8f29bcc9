import Mathlib.Tactic.Ring
import Mathlib.Tactic.Linarith
import Mathlib.Tactic.FieldSimp
import Mathlib.Algebra.BigOperators.Intervals
import Verif.Model.Kernels
import Verif.Spec.Kernels

/-! Proofs about the scalar kernels. -/

namespace H2Pack.Kern
open H2Pack.MV (Bimv KMv point BimvSpec)
open H2Pack.KernSpec (dist2)

/-- What a body computes from the squared distance. -/
structure Body.Ok (B : Body) (S : Simd) (κ : ℝ → ℝ) : Prop where
  vec : ∀ (r2 : V) l, 0 ≤ r2 l → B.vec S r2 l = κ (r2 l)
  scal : ∀ r2, 0 ≤ r2 → B.scal r2 = κ r2

/-- Squared distance of point `i` of the first and point `j` of the second array. -/
noncomputable def d2 (dim : Nat) (w : Nat → ℝ) (c0 ld0 i c1 ld1 j : Nat) : ℝ :=
  ∑ k ∈ Finset.range dim, (w (c0 + ld0 * k + i) - w (c1 + ld1 * k + j)) ^ 2

theorem d2_nonneg (dim : Nat) (w : Nat → ℝ) (c0 ld0 i c1 ld1 j : Nat) : 0 ≤ d2 dim w c0 ld0 i c1 ld1 j :=
  Finset.sum_nonneg fun _ _ => sq_nonneg _

theorem r2scal_eq {dim : Nat} (hd : 0 < dim) (w : Nat → ℝ) (c0 ld0 i c1 ld1 j : Nat) :
    r2scal dim w c0 ld0 i c1 ld1 j = d2 dim w c0 ld0 i c1 ld1 j := by
  obtain ⟨m, rfl⟩ : ∃ m, dim = m + 1 := ⟨dim - 1, by omega⟩
  unfold r2scal d2
  simp only [Nat.add_sub_cancel]
  induction m with
  | zero => simp [sq]
  | succ m ih =>
    rw [List.range_succ, List.foldl_append, ih (by omega), Finset.sum_range_succ _ (m + 1)]
    simp [sq]

theorem r2vec_eq {dim : Nat} (hd : 0 < dim) (w : Nat → ℝ) (c0 ld0 i c1 ld1 j l : Nat) :
    r2vec dim w c0 ld0 i c1 ld1 j l = d2 dim w c0 ld0 i c1 ld1 (j + l) := by
  obtain ⟨m, rfl⟩ : ∃ m, dim = m + 1 := ⟨dim - 1, by omega⟩
  unfold r2vec d2
  simp only [Nat.add_sub_cancel]
  induction m with
  | zero => simp [sq, vmul, vsub, bcast, load, Nat.add_assoc]
  | succ m ih =>
    rw [List.range_succ, List.foldl_append, Finset.sum_range_succ _ (m + 1), ← ih (by omega)]
    simp [sq, vfma, vsub, bcast, load, Nat.add_assoc]
    ring

theorem d2_congr {dim : Nat} {w w' : Nat → ℝ} {c0 ld0 i c1 ld1 j : Nat} (h0 : ∀ k < dim, w' (c0 + ld0 * k + i) = w (c0 + ld0 * k + i))
    (h1 : ∀ k < dim, w' (c1 + ld1 * k + j) = w (c1 + ld1 * k + j)) : d2 dim w' c0 ld0 i c1 ld1 j = d2 dim w c0 ld0 i c1 ld1 j := by
  unfold d2
  refine Finset.sum_congr rfl fun k hk => ?_
  rw [h0 k (Finset.mem_range.mp hk), h1 k (Finset.mem_range.mp hk)]

theorem foldl_range_ind {α : Type*} (P : Nat → α → Prop) (f : α → Nat → α) (a : α) (n : Nat) (h0 : P 0 a)
    (hs : ∀ t x, t < n → P t x → P (t + 1) (f x t)) : P n ((List.range n).foldl f a) := by
  suffices h : ∀ m ≤ n, P m ((List.range m).foldl f a) from h n le_rfl
  intro m hm
  induction m with
  | zero => simpa using h0
  | succ m ih =>
    rw [List.range_succ, List.foldl_append]
    exact hs m _ (by omega) (ih (by omega))

/-! ## Evaluation -/

/-- The matrix does not overlap the coordinates that are read. -/
def Sep (dim c0 ld0 n0 c1 ld1 n1 mat ldm nr nc : Nat) : Prop :=
  ∀ i' < nr, ∀ j' < nc, (∀ k < dim, ∀ i < n0, c0 + ld0 * k + i ≠ mat + i' * ldm + j') ∧ (∀ k < dim, ∀ j < n1, c1 + ld1 * k + j ≠ mat + i' * ldm + j')

theorem evalRow_spec {S : Simd} (hS : S.Ok) {B : Body} {κ : ℝ → ℝ} (hB : B.Ok S κ) {dim : Nat} (hd : 0 < dim) {c0 ld0 n0 c1 ld1 n1 mat ldm : Nat}
    {nr : Nat} (hsep : Sep dim c0 ld0 n0 c1 ld1 n1 mat ldm nr n1) {i : Nat} (hi : i < n0) (hr : i < nr) (w : Nat → ℝ) :
    ∀ k, evalRow S B dim c0 ld0 c1 ld1 n1 mat ldm i w k =
      if mat + i * ldm ≤ k ∧ k < mat + i * ldm + n1 then κ (d2 dim w c0 ld0 i c1 ld1 (k - (mat + i * ldm))) else w k := by
  have hlen := hS.len
  have hdm : n1 / S.len * S.len ≤ n1 := Nat.div_mul_le_self n1 S.len
  -- unchanged coordinates
  have key : ∀ (m : Nat) (w' : Nat → ℝ), m ≤ n1 → (∀ k, w' k = if mat + i * ldm ≤ k ∧ k < mat + i * ldm + m then κ (d2 dim w c0 ld0 i c1 ld1 (k - (mat + i * ldm))) else w k) →
      ∀ j < n1, d2 dim w' c0 ld0 i c1 ld1 j = d2 dim w c0 ld0 i c1 ld1 j := by
    intro m w' hm hw' j hj
    refine d2_congr (fun k hk => ?_) (fun k hk => ?_)
    · rw [hw', if_neg]
      rintro ⟨h1, h2⟩
      have := (hsep i hr (c0 + ld0 * k + i - (mat + i * ldm)) (by omega)).1 k hk i hi
      omega
    · rw [hw', if_neg]
      rintro ⟨h1, h2⟩
      have := (hsep i hr (c1 + ld1 * k + j - (mat + i * ldm)) (by omega)).2 k hk j hj
      omega
  unfold evalRow
  have h1 := foldl_range_ind (fun t (w' : Nat → ℝ) => ∀ k, w' k = if mat + i * ldm ≤ k ∧ k < mat + i * ldm + t * S.len then κ (d2 dim w c0 ld0 i c1 ld1 (k - (mat + i * ldm))) else w k)
    (fun w t => store S w (mat + i * ldm + t * S.len) (B.vec S (r2vec dim w c0 ld0 i c1 ld1 (t * S.len)))) w (n1 / S.len)
    (by intro k; rw [if_neg]; omega)
    (by
      intro t w' ht ih k
      have hm : (t + 1) * S.len ≤ n1 := le_trans (Nat.mul_le_mul_right _ ht) hdm
      have e : (t + 1) * S.len = t * S.len + S.len := by ring
      simp only [store]
      by_cases hk : mat + i * ldm + t * S.len ≤ k ∧ k < mat + i * ldm + t * S.len + S.len
      · rw [if_pos hk, if_pos (by omega), hB.vec _ _ (by rw [r2vec_eq hd]; exact d2_nonneg ..), r2vec_eq hd, key (t * S.len) w' (by omega) ih _ (by omega)]
        congr 2
        omega
      · rw [if_neg hk, ih k]
        by_cases hk2 : mat + i * ldm ≤ k ∧ k < mat + i * ldm + t * S.len
        · rw [if_pos hk2, if_pos (by omega)]
        · rw [if_neg hk2, if_neg (by omega)])
  have h2 := foldl_range_ind (fun t (w' : Nat → ℝ) => ∀ k, w' k = if mat + i * ldm ≤ k ∧ k < mat + i * ldm + (n1 / S.len * S.len + t) then κ (d2 dim w c0 ld0 i c1 ld1 (k - (mat + i * ldm))) else w k)
    (fun w t => set w (mat + i * ldm + (n1 / S.len * S.len + t)) (B.scal (r2scal dim w c0 ld0 i c1 ld1 (n1 / S.len * S.len + t)))) _ (n1 - n1 / S.len * S.len) h1
    (by
      intro t w' ht ih k
      simp only [set]
      by_cases hk : k = mat + i * ldm + (n1 / S.len * S.len + t)
      · rw [if_pos hk, if_pos (by omega), hB.scal _ (by rw [r2scal_eq hd]; exact d2_nonneg ..), r2scal_eq hd, key (n1 / S.len * S.len + t) w' (by omega) ih _ (by omega)]
        congr 2
        omega
      · rw [if_neg hk, ih k]
        by_cases hk2 : mat + i * ldm ≤ k ∧ k < mat + i * ldm + (n1 / S.len * S.len + t)
        · rw [if_pos hk2, if_pos (by omega)]
        · rw [if_neg hk2, if_neg (by omega)])
  intro k
  have h3 := h2 k
  rw [show n1 / S.len * S.len + (n1 - n1 / S.len * S.len) = n1 by omega] at h3
  exact h3

theorem evalK_spec {S : Simd} (hS : S.Ok) {B : Body} {κ : ℝ → ℝ} (hB : B.Ok S κ) {dim : Nat} (hd : 0 < dim) {c0 ld0 n0 c1 ld1 n1 mat ldm : Nat}
    (hsep : Sep dim c0 ld0 n0 c1 ld1 n1 mat ldm n0 n1) (hldm : n1 ≤ ldm) (w : Nat → ℝ) :
    (∀ i < n0, ∀ j < n1, evalK S B dim c0 ld0 n0 c1 ld1 n1 mat ldm w (mat + i * ldm + j) = κ (d2 dim w c0 ld0 i c1 ld1 j)) ∧
      ∀ k, (∀ i < n0, ∀ j < n1, k ≠ mat + i * ldm + j) → evalK S B dim c0 ld0 n0 c1 ld1 n1 mat ldm w k = w k := by
  unfold evalK
  refine foldl_range_ind (fun m (w' : Nat → ℝ) => (∀ i < m, ∀ j < n1, w' (mat + i * ldm + j) = κ (d2 dim w c0 ld0 i c1 ld1 j)) ∧
      ∀ k, (∀ i < m, ∀ j < n1, k ≠ mat + i * ldm + j) → w' k = w k) _ w n0 ⟨by intro i hi; omega, fun _ _ => rfl⟩ ?_
  rintro m w' hm ⟨ih1, ih2⟩
  have hrow := evalRow_spec hS hB hd hsep hm hm w'
  have hc : ∀ j < n1, d2 dim w' c0 ld0 m c1 ld1 j = d2 dim w c0 ld0 m c1 ld1 j := by
    intro j hj
    refine d2_congr (fun k hk => ih2 _ fun i hi j' hj' => ?_) (fun k hk => ih2 _ fun i hi j' hj' => ?_)
    · exact (hsep i (by omega) j' hj').1 k hk m hm
    · exact (hsep i (by omega) j' hj').2 k hk j hj
  refine ⟨fun i hi j hj => ?_, fun k hk => ?_⟩
  · rw [hrow]
    rcases Nat.lt_succ_iff_lt_or_eq.mp hi with hi | rfl
    · have : (i + 1) * ldm ≤ m * ldm := Nat.mul_le_mul_right _ hi
      rw [Nat.add_mul, Nat.one_mul] at this
      rw [if_neg (by omega), ih1 i hi j hj]
    · rw [if_pos (by omega), hc _ (by omega)]
      congr 2
      omega
  · rw [hrow, if_neg]
    · exact ih2 k fun i hi j hj => hk i (by omega) j hj
    · rintro ⟨h1, h2⟩
      exact hk m (by omega) (k - (mat + m * ldm)) (by omega) (by omega)

/-! ## Bi-matvec -/

theorem sum_blocks (f : Nat → ℝ) (len nb : Nat) : ∑ l ∈ Finset.range len, ∑ u ∈ Finset.range nb, f (u * len + l) = ∑ j ∈ Finset.range (nb * len), f j := by
  rw [Finset.sum_comm]
  induction nb with
  | zero => simp
  | succ nb ih => rw [Finset.sum_range_succ, ih, Nat.succ_mul, Finset.sum_range_add]

theorem bimvRow_spec {S : Simd} (hS : S.Ok) {B : Body} {κ : ℝ → ℝ} (hB : B.Ok S κ) {dim : Nat} (hd : 0 < dim) {n0 n1 oT oS x0 x1 y0 y1 : Nat}
    (h1 : S.len ∣ n1) (e1 : oT + dim * n0 ≤ oS) (e2 : oS + dim * n1 ≤ x0) (e3 : x0 + n1 ≤ x1) (e4 : x1 + n0 ≤ y0) (e5 : y0 + n0 ≤ y1)
    {i : Nat} (hi : i + 1 < n0) (w : Nat → ℝ) :
    let w' := bimvRow S B dim oT n0 oS n1 n1 x0 x1 y0 y1 i w
    (w' (y0 + i) = w (y0 + i) + ∑ j ∈ Finset.range n1, κ (d2 dim w oT n0 i oS n1 j) * w (x0 + j)) ∧
    (w' (y0 + i + 1) = w (y0 + i + 1) + ∑ j ∈ Finset.range n1, κ (d2 dim w oT n0 (i + 1) oS n1 j) * w (x0 + j)) ∧
    (∀ j < n1, w' (y1 + j) = w (y1 + j) + (κ (d2 dim w oT n0 i oS n1 j) * w (x1 + i) + κ (d2 dim w oT n0 (i + 1) oS n1 j) * w (x1 + (i + 1)))) ∧
    ∀ k, k ≠ y0 + i → k ≠ y0 + i + 1 → (k < y1 ∨ y1 + n1 ≤ k) → w' k = w k := by
  intro w'
  have hlen := hS.len
  obtain ⟨nb, rfl⟩ := h1
  have hcnt : (S.len * nb + S.len - 1) / S.len = nb := by
    rw [Nat.add_sub_assoc hlen, Nat.mul_add_div hlen, Nat.div_eq_of_lt (by omega), Nat.add_zero]
  have hdk : ∀ k < dim, n0 * k + n0 ≤ dim * n0 := fun k hk => by
    have := Nat.mul_le_mul_right n0 hk; rw [Nat.succ_mul] at this; rw [Nat.mul_comm n0 k]; exact this
  have hdk1 : ∀ k < dim, S.len * nb * k + S.len * nb ≤ dim * (S.len * nb) := fun k hk => by
    have := Nat.mul_le_mul_right (S.len * nb) hk; rw [Nat.succ_mul] at this; rw [Nat.mul_comm (S.len * nb) k]; exact this
  set f : Nat → Nat → ℝ := fun a j => κ (d2 dim w oT n0 a oS (S.len * nb) j) with hf
  have hinv := foldl_range_ind (fun t (s : V × V × (Nat → ℝ)) =>
      (∀ l < S.len, s.1 l = ∑ u ∈ Finset.range t, f i (u * S.len + l) * w (x0 + (u * S.len + l))) ∧
      (∀ l < S.len, s.2.1 l = ∑ u ∈ Finset.range t, f (i + 1) (u * S.len + l) * w (x0 + (u * S.len + l))) ∧
      ∀ k, s.2.2 k = if y1 ≤ k ∧ k < y1 + t * S.len then w k + (f i (k - y1) * w (x1 + i) + f (i + 1) (k - y1) * w (x1 + (i + 1))) else w k)
    (fun s t => bimvStep S B dim oT n0 oS (S.len * nb) x0 x1 y1 i s (t * S.len)) (set1 0, set1 0, w) nb
    ⟨by intro l _; simp [set1], by intro l _; simp [set1], by intro k; rw [if_neg]; omega⟩
    (by
      rintro t ⟨s0, s1, w''⟩ ht ⟨ih0, ih1, ih2⟩
      simp only at ih0 ih1 ih2
      have hm : t * S.len + S.len ≤ S.len * nb := by
        have := Nat.mul_le_mul_right S.len ht
        rw [Nat.succ_mul] at this
        rw [Nat.mul_comm S.len nb]; exact this
      have hlow : ∀ k < y1, w'' k = w k := fun k hk => by rw [ih2, if_neg]; omega
      have hd2 : ∀ a ≤ i + 1, ∀ l < S.len, d2 dim w'' oT n0 a oS (S.len * nb) (t * S.len + l) = d2 dim w oT n0 a oS (S.len * nb) (t * S.len + l) := by
        intro a ha l hl
        refine d2_congr (fun k hk => hlow _ ?_) (fun k hk => hlow _ ?_)
        · have := hdk k hk; omega
        · have := hdk1 k hk; omega
      have hv : ∀ a ≤ i + 1, ∀ l < S.len, B.vec S (r2vec dim w'' oT n0 a oS (S.len * nb) (t * S.len)) l = f a (t * S.len + l) := by
        intro a ha l hl
        rw [hB.vec _ _ (by rw [r2vec_eq hd]; exact d2_nonneg ..), r2vec_eq hd, hd2 a ha l hl]
      refine ⟨fun l hl => ?_, fun l hl => ?_, fun k => ?_⟩
      · simp only [bimvStep, vfma]
        rw [Finset.sum_range_succ, ih0 l hl, hv i (by omega) l hl]
        simp only [load]
        rw [hlow _ (by omega), Nat.add_assoc]
        ring
      · simp only [bimvStep, vfma]
        rw [Finset.sum_range_succ, ih1 l hl, hv (i + 1) le_rfl l hl]
        simp only [load]
        rw [hlow _ (by omega), Nat.add_assoc]
        ring
      · have e : (t + 1) * S.len = t * S.len + S.len := by ring
        simp only [bimvStep, store, vfma]
        by_cases hk : y1 + t * S.len ≤ k ∧ k < y1 + t * S.len + S.len
        · rw [if_pos hk, if_pos (by omega), hv i (by omega) _ (by omega), hv (i + 1) le_rfl _ (by omega)]
          simp only [load, bcast]
          rw [hlow (x1 + i) (by omega), hlow (x1 + i + 1) (by omega), ih2, if_neg (by omega)]
          rw [show y1 + t * S.len + (k - (y1 + t * S.len)) = k by omega, show t * S.len + (k - (y1 + t * S.len)) = k - y1 by omega, Nat.add_assoc x1]
          ring
        · rw [if_neg hk, ih2]
          by_cases hk2 : y1 ≤ k ∧ k < y1 + t * S.len
          · rw [if_pos hk2, if_pos (by omega)]
          · rw [if_neg hk2, if_neg (by omega)])
  have hw' : w' = bimvRow S B dim oT n0 oS (S.len * nb) (S.len * nb) x0 x1 y0 y1 i w := rfl
  unfold bimvRow at hw'
  rw [hcnt] at hw'
  simp only at hw'
  obtain ⟨i0, i1, i2⟩ := hinv
  have r0 : reduce S ((List.range nb).foldl (fun s t => bimvStep S B dim oT n0 oS (S.len * nb) x0 x1 y1 i s (t * S.len)) (set1 0, set1 0, w)).1 =
      ∑ j ∈ Finset.range (S.len * nb), f i j * w (x0 + j) := by
    unfold reduce
    rw [Finset.sum_congr rfl fun l hl => i0 l (Finset.mem_range.mp hl), sum_blocks (fun j => f i j * w (x0 + j)), Nat.mul_comm]
  have r1 : reduce S ((List.range nb).foldl (fun s t => bimvStep S B dim oT n0 oS (S.len * nb) x0 x1 y1 i s (t * S.len)) (set1 0, set1 0, w)).2.1 =
      ∑ j ∈ Finset.range (S.len * nb), f (i + 1) j * w (x0 + j) := by
    unfold reduce
    rw [Finset.sum_congr rfl fun l hl => i1 l (Finset.mem_range.mp hl), sum_blocks (fun j => f (i + 1) j * w (x0 + j)), Nat.mul_comm]
  rw [r0, r1] at hw'
  have hcm : nb * S.len = S.len * nb := Nat.mul_comm _ _
  refine ⟨?_, ?_, ?_, ?_⟩
  · rw [hw']
    simp only [add]
    rw [if_neg (by omega), if_pos trivial, i2, if_neg (by omega)]
  · rw [hw']
    simp only [add]
    rw [if_pos trivial, if_neg (by omega), i2, if_neg (by omega)]
  · intro j hj
    rw [hw']
    simp only [add]
    rw [if_neg (by omega), if_neg (by omega), i2, if_pos (by omega), Nat.add_sub_cancel_left]
  · intro k k0 k1 k2
    rw [hw']
    simp only [add]
    rw [if_neg (by omega), if_neg (by omega), i2, if_neg (by omega)]

theorem bimvK_spec {S : Simd} (hS : S.Ok) {B : Body} {κ : ℝ → ℝ} (hB : B.Ok S κ) {dim : Nat} (hd : 0 < dim) {n0 n1 oT oS x0 x1 y0 y1 : Nat}
    (h0 : 2 ∣ n0) (h1 : S.len ∣ n1) (e1 : oT + dim * n0 ≤ oS) (e2 : oS + dim * n1 ≤ x0) (e3 : x0 + n1 ≤ x1) (e4 : x1 + n0 ≤ y0) (e5 : y0 + n0 ≤ y1)
    (w : Nat → ℝ) :
    let w' := bimvK S B dim oT n0 n0 oS n1 n1 x0 x1 y0 y1 w
    (∀ i < n0, w' (y0 + i) = w (y0 + i) + ∑ j ∈ Finset.range n1, κ (d2 dim w oT n0 i oS n1 j) * w (x0 + j)) ∧
    (∀ j < n1, w' (y1 + j) = w (y1 + j) + ∑ i ∈ Finset.range n0, κ (d2 dim w oT n0 i oS n1 j) * w (x1 + i)) ∧
    ∀ k, (k < y0 ∨ y0 + n0 ≤ k) → (k < y1 ∨ y1 + n1 ≤ k) → w' k = w k := by
  intro w'
  obtain ⟨h, rfl⟩ := h0
  have hcnt : (2 * h + 1) / 2 = h := by omega
  have hinv := foldl_range_ind (fun t (w' : Nat → ℝ) =>
    (∀ i < 2 * t, w' (y0 + i) = w (y0 + i) + ∑ j ∈ Finset.range n1, κ (d2 dim w oT (2 * h) i oS n1 j) * w (x0 + j)) ∧
    (∀ j < n1, w' (y1 + j) = w (y1 + j) + ∑ i ∈ Finset.range (2 * t), κ (d2 dim w oT (2 * h) i oS n1 j) * w (x1 + i)) ∧
    ∀ k, (k < y0 ∨ y0 + 2 * t ≤ k) → (k < y1 ∨ y1 + n1 ≤ k) → w' k = w k)
    (fun w t => bimvRow S B dim oT (2 * h) oS n1 n1 x0 x1 y0 y1 (2 * t) w) w h
    ⟨by intro i hi; omega, by simp, fun _ _ _ => rfl⟩
    (by
      rintro t v ht ⟨ih0, ih1, ih2⟩
      obtain ⟨a0, a1, a2, a3⟩ := bimvRow_spec hS hB hd h1 e1 e2 e3 e4 e5 (i := 2 * t) (by omega) v
      have hlow : ∀ k < y0, v k = w k := fun k hk => ih2 k (Or.inl hk) (Or.inl (by omega))
      have hd2 : ∀ a < 2 * h, ∀ j < n1, d2 dim v oT (2 * h) a oS n1 j = d2 dim w oT (2 * h) a oS n1 j := by
        intro a ha j hj
        refine d2_congr (fun k hk => hlow _ ?_) (fun k hk => hlow _ ?_)
        · have := Nat.mul_le_mul_right (2 * h) hk; rw [Nat.succ_mul] at this; rw [Nat.mul_comm (2 * h) k]; omega
        · have := Nat.mul_le_mul_right n1 hk; rw [Nat.succ_mul] at this; rw [Nat.mul_comm n1 k]; omega
      have hsum : ∀ a < 2 * h, ∑ j ∈ Finset.range n1, κ (d2 dim v oT (2 * h) a oS n1 j) * v (x0 + j) = ∑ j ∈ Finset.range n1, κ (d2 dim w oT (2 * h) a oS n1 j) * w (x0 + j) := by
        intro a ha
        refine Finset.sum_congr rfl fun j hj => ?_
        rw [hd2 a ha j (Finset.mem_range.mp hj), hlow _ (by have := Finset.mem_range.mp hj; omega)]
      refine ⟨fun i hi => ?_, fun j hj => ?_, fun k k0 k1 => ?_⟩
      · by_cases hi0 : i = 2 * t
        · subst hi0
          rw [a0, hsum _ (by omega), ih2 _ (Or.inr (by omega)) (Or.inl (by omega))]
        by_cases hi1 : i = 2 * t + 1
        · subst hi1
          rw [← Nat.add_assoc, a1, hsum _ (by omega), ih2 _ (Or.inr (by omega)) (Or.inl (by omega))]
        · rw [a3 _ (by omega) (by omega) (Or.inl (by omega)), ih0 i (by omega)]
      · rw [a2 j hj, ih1 j hj, show 2 * (t + 1) = 2 * t + 1 + 1 by ring, Finset.sum_range_succ, Finset.sum_range_succ,
          hd2 _ (by omega) j hj, hd2 _ (by omega) j hj, hlow _ (by omega), hlow (x1 + (2 * t + 1)) (by omega)]
        ring
      · rw [a3 k (by omega) (by omega) k1]
        exact ih2 k (by omega) k1)
  have hw' : w' = bimvK S B dim oT (2 * h) (2 * h) oS n1 n1 x0 x1 y0 y1 w := rfl
  unfold bimvK at hw'
  rw [hcnt] at hw'
  rw [hw']
  exact hinv

/-- A scalar routine meets the contract of `krnl_bimv`. -/
theorem scalarBimv_spec {S : Simd} (hS : S.Ok) (heven : 2 ∣ S.len) {B : Body} {κ : ℝ → ℝ} (hB : B.Ok S κ) {dim : Nat} (hd : 0 < dim)
    (kern : (Nat → ℝ) → (Nat → ℝ) → Nat → Nat → ℝ) (hk : ∀ x y, kern x y 0 0 = κ (dist2 dim x y)) :
    BimvSpec S.len dim 1 kern (scalarBimv S B dim) := by
  intro n0 n1 oT oS oX0 oX1 oY0 oY1 w s0 s1 e1 e2 e3 e4 e5
  rw [Nat.mul_one] at e3 e4 e5
  obtain ⟨h1, h2, _⟩ := bimvK_spec hS hB hd (dvd_trans heven s0) s1 e1 e2 e3 e4 e5 w
  have hp : ∀ i j, κ (d2 dim w oT n0 i oS n1 j) = kern (point dim (fun k => w (oT + k)) n0 i) (point dim (fun k => w (oS + k)) n1 j) 0 0 := by
    intro i j
    rw [hk]
    unfold d2 dist2
    congr 1
    refine Finset.sum_congr rfl fun k hk => ?_
    have := Finset.mem_range.mp hk
    simp only [point, if_pos this]
    rw [Nat.mul_comm n0 k, Nat.mul_comm n1 k, Nat.add_assoc, Nat.add_assoc]
  refine ⟨fun a ha i hi => ?_, fun b hb j hj => ?_⟩
  · obtain rfl : a = 0 := by omega
    simp only [Nat.zero_mul, Nat.zero_add, Finset.range_one, Finset.sum_singleton, ← hp]
    exact h1 i hi
  · obtain rfl : b = 0 := by omega
    simp only [Nat.zero_mul, Nat.zero_add, Finset.range_one, Finset.sum_singleton, ← hp]
    exact h2 j hj

end H2Pack.Kern
