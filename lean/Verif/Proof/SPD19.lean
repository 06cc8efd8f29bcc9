import Verif.Proof.SPD18
import Verif.Proof.SPDS1
import Verif.Spec.SPDSample

set_option linter.unusedSectionVars false

/-! # SPDHSS: ranks of the off-diagonal rows and of the samples -/

namespace H2Pack.SPD
open H2Pack.MV (Mat Rep WF kid off kid_mem Nested entry nested_zero)
open H2Pack.ULV (InRow shifted HSS kid_row kid_sub)
open H2Pack.Part (Arr kids ClusterTree Desc)
open Finset

/-- A matrix of rank at most `c` is a product. -/
theorem rank_factor {m n c : Nat} (M : Matrix (Fin m) (Fin n) ℝ) (h : M.rank ≤ c) :
    ∃ F G : Nat → Nat → ℝ, ∀ (i : Fin m) (j : Fin n), M i j = ∑ t ∈ range c, F i t * G t j := by
  rw [Matrix.rank_eq_finrank_span_cols] at h
  obtain ⟨f, _, hf, _⟩ := Submodule.exists_fun_fin_finrank_span_eq ℝ (Set.range M.col)
  have hmem : ∀ j, ∃ d : Fin _ → ℝ, ∑ t, d t • f t = M.col j := by
    intro j
    have : M.col j ∈ Submodule.span ℝ (Set.range f) := by rw [hf]; exact Submodule.subset_span ⟨j, rfl⟩
    exact (Submodule.mem_span_range_iff_exists_fun ℝ).1 this
  choose d hd using hmem
  generalize Module.finrank ℝ (Submodule.span ℝ (Set.range M.col)) = k at *
  refine ⟨fun i t => if h : i < m ∧ t < k then f ⟨t, h.2⟩ ⟨i, h.1⟩ else 0, fun t j => if h : j < n ∧ t < k then d ⟨j, h.1⟩ ⟨t, h.2⟩ else 0, fun i j => ?_⟩
  have e := congrFun (hd j) i
  rw [Finset.sum_apply] at e
  have e' : M i j = ∑ t : Fin k, d j t * f t i := e.symm
  rw [e', ← sum_subset (range_subset_range.2 h), sum_range]
  · refine sum_congr rfl fun t _ => ?_
    beta_reduce
    rw [dif_pos ⟨i.2, t.2⟩, dif_pos ⟨j.2, t.2⟩, mul_comm]
  · intro t _ ht
    rw [mem_range] at ht
    beta_reduce
    rw [dif_neg (fun h => ht h.2), zero_mul]

/-- When no rank is lost, the columns are combinations of the samples. -/
theorem cols_of_rank {m n k : Nat} (M : Matrix (Fin m) (Fin n) ℝ) (O : Matrix (Fin n) (Fin k) ℝ) (h : (M * O).rank = M.rank) (q : Fin n) :
    ∃ c : Fin k → ℝ, ∀ r, M r q = ∑ j, (M * O) r j * c j := by
  have hle : LinearMap.range (M * O).mulVecLin ≤ LinearMap.range M.mulVecLin := by
    rintro x ⟨y, rfl⟩
    exact ⟨O.mulVec y, by simp [Matrix.mulVec_mulVec]⟩
  have heq : LinearMap.range (M * O).mulVecLin = LinearMap.range M.mulVecLin := Submodule.eq_of_le_of_finrank_eq hle h
  have : M.mulVec (Pi.single q 1) ∈ LinearMap.range (M * O).mulVecLin := by rw [heq]; exact ⟨_, rfl⟩
  obtain ⟨c, hc⟩ := this
  refine ⟨c, fun r => ?_⟩
  have := congrFun hc r
  rw [Matrix.mulVecLin_apply] at this
  simp only [Matrix.mulVec_single_one] at this
  exact this.symm

section
variable {P : Params} {R : Rep ℝ} {A : Nat → Nat → ℝ} {nvec : Nat} {vec : Nat → ℝ} {Y : Nat → Nat → Option (Mat ℝ)} {Ty : Nat → Nat → Nat → ℝ}

theorem off_in (R : Rep ℝ) (A : Nat → Nat → ℝ) {v : Nat} {r q : Fin R.size} (hr : InRow R v r) (hq : ¬ InRow R v q) : offRows R A v r q = A r q :=
  if_pos ⟨hr, hq⟩

/-- The contents of the samples. -/
theorem content_samples (hwf : WF R) (hc : Content R nvec Y Ty) (hS : Samples R A nvec vec Y) {v : Nat} (hv : v + 1 < R.arr.nNode) {r : Nat} (hr : InRow R v r) {j : Nat} (hj : j < nvec) :
    Ty (R.arr.level v) r j = ∑ q ∈ range R.size, (if InRow R v q then 0 else A r q) * vec (q * nvec + j) := by
  have hvn : v < R.arr.nNode := by omega
  have hlv := H2Pack.Part.level_pos hwf.tree hv
  -- the leaf of the row
  obtain ⟨w, hw, d, h0, hwr⟩ : ∃ w < R.arr.nNode, Desc R.arr w v ∧ R.arr.nChild w = 0 ∧ InRow R w r := by
    clear hj hlv
    induction v using Nat.strong_induction_on with
    | _ v ih =>
      by_cases h0 : R.arr.nChild v = 0
      · exact ⟨v, hvn, .refl _, h0, hr⟩
      · obtain ⟨k, hk, hkr⟩ := kid_row hwf hvn h0 hr
        obtain ⟨w, a, b, c, d⟩ := ih _ (hwf.tree.childLt v hvn _ (kid_mem hk)) (kid_nonroot hwf hvn (kid_mem hk)) hkr (hwf.tree.kid_lt hvn (kid_mem hk))
        exact ⟨w, a, .step (kid_mem hk) b, c, d⟩
  have hll := desc_level hwf.tree d hvn
  obtain ⟨e, he, hec⟩ := hc w hw h0 (R.arr.level w - R.arr.level v) (by omega)
  obtain ⟨e', he', hec'⟩ := hS w hw h0 (R.arr.level w - R.arr.level v) (by omega) v hvn d (by omega)
  have hee : e = e' := by
    have := he.symm.trans he'
    simpa using this
  subst hee
  have hi : r - R.rowS w < R.rowE w - R.rowS w := by have := hwr.1; have := hwr.2; omega
  have h1 := hec _ hi j hj
  rw [Nat.add_sub_cancel' hwr.1, show R.arr.level w - (R.arr.level w - R.arr.level v) = R.arr.level v by omega] at h1
  rw [← h1, hec' _ hi j hj, Nat.add_sub_cancel' hwr.1]
  refine sum_congr rfl fun q _ => ?_
  by_cases hq : InRow R v q
  · rw [if_pos hq]
    rw [zero_mul]
    exact if_pos hq
  · rw [if_neg hq]
    exact if_neg hq

/-- The products with the random matrix. -/
theorem off_sample (hwf : WF R) (hc : Content R nvec Y Ty) (hS : Samples R A nvec vec Y) {v : Nat} (hv : v + 1 < R.arr.nNode) (r : Fin R.size) (j : Fin nvec) :
    (offRows R A v * randMat R.size nvec vec) r j = if InRow R v r then Ty (R.arr.level v) r j else 0 := by
  rw [Matrix.mul_apply]
  by_cases hr : InRow R v r
  · rw [if_pos hr, content_samples hwf hc hS hv hr j.2, sum_range]
    refine sum_congr rfl fun q _ => ?_
    by_cases hq : InRow R v q
    · rw [if_pos hq]
      have : offRows R A v r q = 0 := if_neg (fun h => h.2 hq)
      rw [this]; simp
    · rw [if_neg hq, off_in R A hr hq]; rfl
  · rw [if_neg hr]
    refine sum_eq_zero fun q _ => ?_
    have : offRows R A v r q = 0 := if_neg (fun h => hr h.1)
    rw [this, zero_mul]

end

end H2Pack.SPD
