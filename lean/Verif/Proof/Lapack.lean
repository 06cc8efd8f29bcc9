import Verif.Proof.ULV11
import Mathlib.Analysis.InnerProductSpace.GramSchmidtOrtho
import Mathlib.Analysis.Real.Cardinality

/-! # Routines with the documented behaviour of GEQRF, ORMQR, GETRF and POTRF exist over the reals -/

set_option linter.unusedSectionVars false

namespace H2Pack.ULV
open Matrix
open scoped MatrixOrder

/-! ## QR -/

theorem qr_exists (m n : Nat) (a : Nat → Nat → ℝ) : ∃ Q : Nat → Nat → ℝ,
    (∀ i < m, ∀ j < m, ∑ t ∈ Finset.range m, Q t i * Q t j = if i = j then 1 else 0) ∧
    ∀ i < m, ∀ j < m, j < i → j < n → ∑ t ∈ Finset.range m, Q t i * a t j = 0 := by
  let f : Fin m → EuclideanSpace ℝ (Fin m) := fun j => WithLp.toLp 2 (fun t => if (j : Nat) < n then a t j else 0)
  let b := InnerProductSpace.gramSchmidtOrthonormalBasis (𝕜 := ℝ) (E := EuclideanSpace ℝ (Fin m)) (by simp) f
  refine ⟨fun t i => if h : i < m ∧ t < m then b ⟨i, h.1⟩ ⟨t, h.2⟩ else 0, ?_, ?_⟩
  · intro i hi j hj
    have h1 := (orthonormal_iff_ite.1 b.orthonormal) ⟨i, hi⟩ ⟨j, hj⟩
    rw [PiLp.inner_apply] at h1
    rw [Finset.sum_range]
    rw [show (if i = j then (1 : ℝ) else 0) = if (⟨i, hi⟩ : Fin m) = ⟨j, hj⟩ then 1 else 0 by simp only [Fin.mk.injEq], ← h1]
    apply Finset.sum_congr rfl
    intro t _
    beta_reduce
    rw [dif_pos ⟨hi, t.2⟩, dif_pos ⟨hj, t.2⟩]
    simp [mul_comm]
  · intro i hi j hj hij hjn
    have h1 := InnerProductSpace.gramSchmidtOrthonormalBasis_inv_triangular (𝕜 := ℝ) (E := EuclideanSpace ℝ (Fin m)) (by simp) f (i := ⟨j, hj⟩) (j := ⟨i, hi⟩) hij
    rw [PiLp.inner_apply] at h1
    rw [Finset.sum_range]
    refine Eq.trans ?_ h1
    apply Finset.sum_congr rfl
    intro t _
    beta_reduce
    rw [dif_pos ⟨hi, t.2⟩]
    show _ = inner ℝ _ (if j < n then a t j else 0)
    rw [if_pos hjn]
    simp [mul_comm, b]

/-- A matrix can be kept in one number. -/
theorem code_exists (m : Nat) : ∃ c : (Fin m → Fin m → ℝ) → ℝ, Function.Injective c := by
  have h : Cardinal.mk (Fin m → Fin m → ℝ) ≤ Cardinal.mk ℝ := by
    rw [Cardinal.mk_real]
    simp only [Cardinal.mk_pi, Cardinal.prod_const, Cardinal.lift_id, Cardinal.mk_real, Cardinal.mk_fin]
    rw [← Cardinal.power_mul]
    rw [show (m : Cardinal) * (m : Cardinal) = ((m * m : Nat) : Cardinal) by push_cast; rfl]
    exact (Cardinal.power_nat_le (Cardinal.aleph0_le_continuum))
  obtain ⟨f⟩ := h
  exact ⟨f, f.injective⟩

/-! ## LU -/

/-- One interchange. -/
def swapRow (k p : Nat) (a : Nat → Nat → ℝ) : Nat → Nat → ℝ := fun i j => if i = k then a p j else if i = p then a k j else a i j

/-- The matrix `L U` of the first `k` columns and rows, plus what is left. -/
def Part (d k : Nat) (a f : Nat → Nat → ℝ) : Prop :=
  ∀ i < d, ∀ j < d, a i j = ∑ t ∈ Finset.range k, (if t < i then f i t else if t = i then 1 else 0) * (if t ≤ j then f t j else 0) +
    if k ≤ i ∧ k ≤ j then f i j else 0

theorem part_swap {d k p : Nat} {a f : Nat → Nat → ℝ} (hk : k < d) (hp : k ≤ p) (hpd : p < d) (h : Part d k a f) : Part d k (swapRow k p a) (swapRow k p f) := by
  have hrow : ∀ t < k, ∀ j, swapRow k p f t j = f t j := by
    intro t ht j
    unfold swapRow
    rw [if_neg (by omega), if_neg (by omega)]
  have key : ∀ i < d, ∀ i' < d, (i' = i ∨ (k ≤ i ∧ k ≤ i')) → (∀ j, swapRow k p a i j = a i' j) → (∀ j, swapRow k p f i j = f i' j) → ∀ j < d,
      swapRow k p a i j = ∑ t ∈ Finset.range k, (if t < i then swapRow k p f i t else if t = i then 1 else 0) * (if t ≤ j then swapRow k p f t j else 0) +
      if k ≤ i ∧ k ≤ j then swapRow k p f i j else 0 := by
    intro i hi i' hi' hc h1 h2 j hj
    rw [h1, h i' hi' j hj, h2]
    congr 1
    · apply Finset.sum_congr rfl
      intro t ht
      have ht := Finset.mem_range.1 ht
      rw [hrow t ht j, h2]
      rcases hc with rfl | ⟨c1, c2⟩
      · rfl
      · rw [if_pos (show t < i by omega), if_pos (show t < i' by omega)]
    · rcases hc with rfl | ⟨c1, c2⟩
      · rfl
      · by_cases hj' : k ≤ j
        · rw [if_pos ⟨c2, hj'⟩, if_pos ⟨c1, hj'⟩]
        · rw [if_neg (fun h => hj' h.2), if_neg (fun h => hj' h.2)]
  intro i hi
  by_cases e1 : i = k
  · exact key i hi p hpd (.inr ⟨by omega, hp⟩) (fun j => by unfold swapRow; rw [if_pos e1]) (fun j => by unfold swapRow; rw [if_pos e1])
  · by_cases e2 : i = p
    · exact key i hi k hk (.inr ⟨by omega, le_rfl⟩) (fun j => by unfold swapRow; rw [if_neg e1, if_pos e2]) (fun j => by unfold swapRow; rw [if_neg e1, if_pos e2])
    · exact key i hi i hi (.inl rfl) (fun j => by unfold swapRow; rw [if_neg e1, if_neg e2]) (fun j => by unfold swapRow; rw [if_neg e1, if_neg e2])

/-- The elimination of a column. -/
noncomputable def elimCol (k : Nat) (f : Nat → Nat → ℝ) : Nat → Nat → ℝ := fun i j =>
  if k < i then if j = k then f i k / f k k else if k < j then f i j - f i k / f k k * f k j else f i j else f i j

theorem part_elim {d k : Nat} {a f : Nat → Nat → ℝ} (hk : k < d) (hz : f k k = 0 → ∀ i < d, k ≤ i → f i k = 0) (h : Part d k a f) : Part d (k + 1) a (elimCol k f) := by
  intro i hi j hj
  rw [h i hi j hj, Finset.sum_range_succ, add_assoc]
  congr 1
  · apply Finset.sum_congr rfl
    intro t ht
    have ht := Finset.mem_range.1 ht
    have e1 : elimCol k f i t = f i t := by
      unfold elimCol
      by_cases h1 : k < i
      · rw [if_pos h1, if_neg (by omega), if_neg (by omega)]
      · rw [if_neg h1]
    have e2 : elimCol k f t j = f t j := by
      unfold elimCol
      rw [if_neg (by omega)]
    rw [e1, e2]
  · have ekk : ∀ j, elimCol k f k j = f k j := fun j => by unfold elimCol; rw [if_neg (by omega)]
    rw [ekk]
    have hq : f i k / f k k * f k k = f i k ∨ ¬ (k ≤ i) := by
      by_cases h1 : k ≤ i
      · left
        by_cases h0 : f k k = 0
        · rw [hz h0 i hi h1, h0]; simp
        · field_simp
      · exact .inr h1
    rcases Nat.lt_trichotomy i k with h1 | h1 | h1
    · rw [if_neg (show ¬ (k ≤ i ∧ k ≤ j) by omega), if_neg (show ¬ (k + 1 ≤ i ∧ k + 1 ≤ j) by omega), if_neg (show ¬ k < i by omega), if_neg (show ¬ k = i by omega)]; simp
    · subst h1
      rw [if_neg (show ¬ i < i by omega), if_pos rfl]
      by_cases h2 : i ≤ j
      · rw [if_pos ⟨le_rfl, h2⟩, if_pos h2, if_neg (show ¬ (i + 1 ≤ i ∧ i + 1 ≤ j) by omega)]; simp
      · rw [if_neg (show ¬ (i ≤ i ∧ i ≤ j) by omega), if_neg h2, if_neg (show ¬ (i + 1 ≤ i ∧ i + 1 ≤ j) by omega)]; simp
    · rw [if_pos h1]
      have eik : elimCol k f i k = f i k / f k k := by unfold elimCol; rw [if_pos h1, if_pos rfl]
      rw [eik]
      rcases Nat.lt_trichotomy j k with h2 | h2 | h2
      · rw [if_neg (show ¬ (k ≤ i ∧ k ≤ j) by omega), if_neg (show ¬ k ≤ j by omega), if_neg (show ¬ (k + 1 ≤ i ∧ k + 1 ≤ j) by omega)]; simp
      · subst h2
        rw [if_pos ⟨by omega, le_rfl⟩, if_pos le_rfl, if_neg (show ¬ (j + 1 ≤ i ∧ j + 1 ≤ j) by omega)]
        rcases hq with hq | hq
        · rw [hq, add_zero]
        · omega
      · have eij : elimCol k f i j = f i j - f i k / f k k * f k j := by unfold elimCol; rw [if_pos h1, if_neg (by omega), if_pos h2]
        rw [if_pos (show k ≤ i ∧ k ≤ j by omega), if_pos (show k ≤ j by omega), if_pos (show k + 1 ≤ i ∧ k + 1 ≤ j by omega), eij]
        ring

theorem lu_exists (d : Nat) (a : Nat → Nat → ℝ) : ∃ (ipiv : Nat → Nat) (f : Nat → Nat → ℝ), (∀ k < d, k + 1 ≤ ipiv k ∧ ipiv k ≤ d) ∧
    ∀ i < d, ∀ j < d, interchange d ipiv a i j = ∑ t ∈ Finset.range d, (if t < i then f i t else if t = i then 1 else 0) * (if t ≤ j then f t j else 0) := by
  have key : ∀ k ≤ d, ∃ (ipiv : Nat → Nat) (f : Nat → Nat → ℝ), (∀ t < k, t + 1 ≤ ipiv t ∧ ipiv t ≤ d) ∧ Part d k (interchange k ipiv a) f := by
    intro k
    induction k with
    | zero =>
      intro _
      refine ⟨fun _ => 0, a, fun _ h => absurd h (by omega), fun i _ j _ => ?_⟩
      simp [interchange]
    | succ k ih =>
      intro hk
      obtain ⟨ipiv, f, h1, h2⟩ := ih (by omega)
      have hpiv : ∃ p, k ≤ p ∧ p < d ∧ (f p k = 0 → ∀ i < d, k ≤ i → f i k = 0) := by
        by_cases hz : ∀ i < d, k ≤ i → f i k = 0
        · exact ⟨k, le_rfl, by omega, fun _ => hz⟩
        · push Not at hz
          obtain ⟨i, hi, hki, hne⟩ := hz
          exact ⟨i, hki, hi, fun h => absurd h hne⟩
      obtain ⟨p, hp1, hp2, hp3⟩ := hpiv
      have hsame : interchange k (Function.update ipiv k (p + 1)) a = interchange k ipiv a := by
        unfold interchange
        apply List.foldl_ext
        intro g t ht
        have ht := List.mem_range.1 ht
        rw [Function.update_of_ne (by omega)]
      have hint : interchange (k + 1) (Function.update ipiv k (p + 1)) a = swapRow k p (interchange k ipiv a) := by
        rw [← hsame]
        unfold interchange
        rw [List.range_succ, List.foldl_append]
        simp only [List.foldl_cons, List.foldl_nil, Function.update_self, Nat.add_sub_cancel]
        rfl
      refine ⟨Function.update ipiv k (p + 1), elimCol k (swapRow k p f), ?_, ?_⟩
      · intro t ht
        by_cases e : t = k
        · subst e; rw [Function.update_self]; omega
        · rw [Function.update_of_ne e]; exact h1 t (by omega)
      · rw [hint]
        refine part_elim (by omega) ?_ (part_swap (by omega) hp1 hp2 h2)
        have hkk : swapRow k p f k k = f p k := by unfold swapRow; rw [if_pos rfl]
        rw [hkk]
        intro h0 i hi hki
        have hz := hp3 h0
        unfold swapRow
        by_cases e1 : i = k
        · rw [if_pos e1]; exact h0
        · rw [if_neg e1]
          by_cases e2 : i = p
          · rw [if_pos e2]; exact hz k (by omega) le_rfl
          · rw [if_neg e2]; exact hz i hi hki
  obtain ⟨ipiv, f, h1, h2⟩ := key d le_rfl
  refine ⟨ipiv, f, h1, fun i hi j hj => ?_⟩
  rw [h2 i hi j hj, if_neg (by omega), add_zero]

/-! ## Cholesky -/

theorem chol_exists (d : Nat) (a : Nat → Nat → ℝ) (h : (Matrix.of fun i j : Fin d => if j ≤ i then a i j else a j i).PosDef) : ∃ l : Nat → Nat → ℝ,
    (∀ i < d, ∀ j ≤ i, ∑ t ∈ Finset.range (j + 1), l i t * l j t = a i j) ∧ ∀ k < d, l k k ≠ 0 := by
  obtain ⟨B, hB⟩ := CStarAlgebra.nonneg_iff_eq_star_mul_self.mp h.posSemidef.nonneg
  rw [star_eq_conjTranspose, conjTranspose_eq_transpose_of_trivial] at hB
  have hdet : B.det ≠ 0 := by
    have := h.det_pos
    rw [hB, Matrix.det_mul, Matrix.det_transpose] at this
    intro h0
    rw [h0] at this
    simp at this
  let b : Nat → Nat → ℝ := fun i j => if h : i < d ∧ j < d then B ⟨i, h.1⟩ ⟨j, h.2⟩ else 0
  have hb : B = mf d d b := by
    ext i j
    simp only [mf, b]
    rw [dif_pos ⟨i.2, j.2⟩]
  obtain ⟨Q, hQ1, hQ2⟩ := qr_exists d d b
  have horth : (mf d d Q)ᵀ * mf d d Q = 1 := by
    ext i j
    rw [Matrix.mul_apply, Matrix.one_apply]
    have := hQ1 i i.2 j j.2
    rw [Finset.sum_range] at this
    rw [show (if i = j then (1 : ℝ) else 0) = if (i : Nat) = j then 1 else 0 by simp only [Fin.ext_iff], ← this]
    rfl
  have horth' : mf d d Q * (mf d d Q)ᵀ = 1 := mul_eq_one_comm.1 horth
  have hup : ∀ i j : Fin d, j < i → ((mf d d Q)ᵀ * B) i j = 0 := by
    intro i j hij
    have := hQ2 i i.2 j j.2 hij j.2
    rw [Finset.sum_range] at this
    rw [hb, Matrix.mul_apply, ← this]
    rfl
  have hA : (Matrix.of fun i j : Fin d => if j ≤ i then a i j else a j i) = ((mf d d Q)ᵀ * B)ᵀ * ((mf d d Q)ᵀ * B) := by
    rw [hB, Matrix.transpose_mul, Matrix.transpose_transpose, Matrix.mul_assoc, ← Matrix.mul_assoc (mf d d Q), horth', Matrix.one_mul]
  generalize hR : (mf d d Q)ᵀ * B = Rm at *
  have hdR : Rm.det ≠ 0 := by
    rw [← hR, Matrix.det_mul, Matrix.det_transpose]
    have := congrArg Matrix.det horth
    rw [Matrix.det_mul, Matrix.det_one] at this
    exact mul_ne_zero (right_ne_zero_of_mul_eq_one this) hdet
  have hprod : Rm.det = ∏ i, Rm i i := Matrix.det_of_upperTriangular (fun i j hij => hup i j hij)
  refine ⟨fun i j => if h : i < d ∧ j < d then Rm ⟨j, h.2⟩ ⟨i, h.1⟩ else 0, ?_, ?_⟩
  · intro i hi j hj
    have e := congrFun (congrFun hA ⟨i, hi⟩) ⟨j, by omega⟩
    rw [Matrix.of_apply, if_pos (show (⟨j, by omega⟩ : Fin d) ≤ ⟨i, hi⟩ from hj), Matrix.mul_apply] at e
    simp only [transpose_apply] at e
    rw [e]
    let F : Nat → ℝ := fun t => (if h : i < d ∧ t < d then Rm ⟨t, h.2⟩ ⟨i, h.1⟩ else 0) * (if h : j < d ∧ t < d then Rm ⟨t, h.2⟩ ⟨j, h.1⟩ else 0)
    have e1 : ∑ t : Fin d, Rm t ⟨i, hi⟩ * Rm t ⟨j, by omega⟩ = ∑ t ∈ Finset.range d, F t := by
      rw [Finset.sum_range]
      apply Finset.sum_congr rfl
      intro t _
      simp only [F]
      rw [dif_pos ⟨hi, t.2⟩, dif_pos ⟨by omega, t.2⟩]
    rw [e1]
    symm
    show ∑ t ∈ Finset.range d, F t = ∑ t ∈ Finset.range (j + 1), F t
    symm
    apply Finset.sum_subset
    · intro t ht
      rw [Finset.mem_range] at *
      omega
    · intro t ht ht'
      rw [Finset.mem_range] at *
      simp only [F]
      rw [dif_pos (⟨by omega, ht⟩ : j < d ∧ t < d), hup ⟨t, ht⟩ ⟨j, by omega⟩ (by show j < t; omega), mul_zero]
  · intro k hk
    beta_reduce
    rw [dif_pos ⟨hk, hk⟩]
    rw [hprod] at hdR
    exact (Finset.prod_ne_zero_iff.1 hdR) ⟨k, hk⟩ (Finset.mem_univ _)

/-! ## All of them -/

theorem qr_data (m n : Nat) (a : Nat → Nat → ℝ) : ∃ (Q : Nat → Nat → ℝ) (r : Nat → Nat → ℝ),
    (∀ i < m, ∀ j < m, ∑ t ∈ Finset.range m, Q t i * Q t j = if i = j then 1 else 0) ∧
    (∀ i < m, ∀ j < m, Q i j = if n = 0 then (if i = j then 1 else 0) else Q i j) ∧
    (n ≤ m → ∀ i < m, ∀ j < n, ∑ t ∈ Finset.range m, Q t i * a t j = if i ≤ j then r i j else 0) := by
  by_cases hn : n = 0
  · refine ⟨fun i j => if i = j then 1 else 0, fun _ _ => 0, ?_, ?_, fun _ i _ j hj => absurd hj (by omega)⟩
    · intro i hi j hj
      rw [Finset.sum_eq_single i]
      · simp
      · intro t _ ht; beta_reduce; rw [if_neg ht, zero_mul]
      · intro h; exact absurd (Finset.mem_range.2 hi) h
    · intro i _ j _; simp
  · obtain ⟨Q, h1, h2⟩ := qr_exists m n a
    refine ⟨Q, fun i j => ∑ t ∈ Finset.range m, Q t i * a t j, h1, fun i _ j _ => by rw [if_neg hn], fun hle i hi j hj => ?_⟩
    by_cases h : i ≤ j
    · rw [if_pos h]
    · rw [if_neg h, h2 i hi j (by omega) (by omega) hj]

/-- There are such routines. -/
theorem lapack_exists : ∃ Lp : Lapack ℝ, Lp.Correct ∧ Lp.Definite := by
  choose Q r hQ1 hQ2 hQ3 using qr_data
  choose c hc using code_exists
  choose ip f hp hf using lu_exists
  classical
  have hl : ∀ (d : Nat) (a : Nat → Nat → ℝ), ∃ l : Nat → Nat → ℝ, (Matrix.of fun i j : Fin d => if j ≤ i then a i j else a j i).PosDef →
      (∀ i < d, ∀ j ≤ i, ∑ t ∈ Finset.range (j + 1), l i t * l j t = a i j) ∧ ∀ k < d, l k k ≠ 0 := by
    intro d a
    by_cases h : (Matrix.of fun i j : Fin d => if j ≤ i then a i j else a j i).PosDef
    · obtain ⟨l, hl⟩ := chol_exists d a h
      exact ⟨l, fun _ => hl⟩
    · exact ⟨fun _ _ => 0, fun h' => absurd h' h⟩
  choose l hl using hl
  let dec : (m : Nat) → ℝ → Fin m → Fin m → ℝ := fun m => Function.invFun (c m)
  have hdec : ∀ m q, dec m (c m q) = q := fun m q => Function.leftInverse_invFun (hc m) q
  let Lp : Lapack ℝ :=
    { geqrf := fun m n a => (r m n a, fun _ => c m fun i j => Q m n a i j)
      orm := fun m k _ tau i j => if k = 0 then (if i = j then 1 else 0) else if h : i < m ∧ j < m then dec m (tau 0) ⟨i, h.1⟩ ⟨j, h.2⟩ else 0
      getrf := fun d a => (if ∀ k < d, f d a k k ≠ 0 then 0 else 1, ip d a, f d a)
      potrf := fun d a => (if (Matrix.of fun i j : Fin d => if j ≤ i then a i j else a j i).PosDef then 0 else 1, l d a) }
  have horm : ∀ m n a, ∀ i < m, ∀ j < m, Lp.orm m n (Lp.geqrf m n a).1 (Lp.geqrf m n a).2 i j = Q m n a i j := by
    intro m n a i hi j hj
    show (if n = 0 then (if i = j then 1 else 0) else if h : i < m ∧ j < m then dec m (c m fun i j => Q m n a i j) ⟨i, h.1⟩ ⟨j, h.2⟩ else 0) = _
    rw [hQ2 m n a i hi j hj, dif_pos ⟨hi, hj⟩, hdec]
  have hpot : ∀ d a, (Lp.potrf d a).1 = 0 ↔ (Matrix.of fun i j : Fin d => if j ≤ i then a i j else a j i).PosDef := by
    intro d a
    show (if _ then 0 else 1) = 0 ↔ _
    split <;> simp_all
  refine ⟨Lp, ⟨?_, ?_, ?_, ?_, ?_, ?_, ?_, ?_⟩, hpot⟩
  · intro m k A A' tau tau' hA ht i hi j hj
    show (if k = 0 then (if i = j then (1 : ℝ) else 0) else if h : i < m ∧ j < m then dec m (tau 0) ⟨i, h.1⟩ ⟨j, h.2⟩ else 0) =
      if k = 0 then (if i = j then 1 else 0) else if h : i < m ∧ j < m then dec m (tau' 0) ⟨i, h.1⟩ ⟨j, h.2⟩ else 0
    by_cases h0 : k = 0
    · rw [if_pos h0, if_pos h0]
    · rw [ht 0 (by omega)]
  · intro m n a hnm i hi j hj
    rw [← hQ1 m n a i hi j hj]
    apply Finset.sum_congr rfl
    intro t ht
    rw [horm m n a t (Finset.mem_range.1 ht) i hi, horm m n a t (Finset.mem_range.1 ht) j hj]
  · intro m n a hnm i hi j hj
    refine Eq.trans ?_ (hQ3 m n a hnm i hi j hj)
    apply Finset.sum_congr rfl
    intro t ht
    rw [horm m n a t (Finset.mem_range.1 ht) i hi]
  · intro d a; exact hp d a
  · intro d a; exact hf d a
  · intro d a
    show (if _ then 0 else 1) = 0 ↔ _
    split <;> simp_all [Lp]
  · intro d a h
    exact (hl d a ((hpot d a).1 h)).1
  · intro d a h
    exact (hl d a ((hpot d a).1 h)).2

end H2Pack.ULV
