import Verif.Proof.FSAI4
import Verif.Proof.Lapack
import Mathlib.Algebra.Order.Ring.Rat
import Mathlib.Tactic.NormNum
import Mathlib.Tactic.IntervalCases

/-!
# Nearest neighbours (C66) and the FSAI preconditioner (C67)

Specification: `Verif/Spec/FSAI.lean`.
-/

namespace H2Pack.AFN
open H2Pack.ULV Finset Matrix

section
variable {K : Type} [Field K] [LinearOrder K]

/-- **C66**.  For all points, every number `m >= 1` of neighbours and every order of the parallel iterations the search terminates, and the list of
point `i` contains `i` itself at the end and before it the `m - 1` points nearest to it among those with smaller indices (all of them if there are fewer);
the result does not depend on the order. -/
theorem C66_exact_knn (dim : Nat) (coord : Nat → Nat → K) (n m : Nat) (hm : 1 ≤ m) :
    ∃ nn : Nat → List Nat, (∀ order : List Nat, order.Perm (List.range n) → Returns (exactKNN dim coord n m order) nn) ∧
      ∀ i < n, Nearest (dist2 dim coord) m i (nn i) := by
  have h : ∀ i, ∃ L, i < n → Returns (exactRow dim coord n m i) L ∧ Nearest (dist2 dim coord) m i L := by
    intro i
    by_cases hi : i < n
    · obtain ⟨L, h⟩ := exactRow_spec dim coord n m i hm hi
      exact ⟨L, fun _ => h⟩
    · exact ⟨[], fun h => absurd h hi⟩
  choose f hf using h
  refine ⟨fun i => if i < n then f i else [], fun order ho => ?_, fun i hi => by simpa [hi] using (hf i hi).2⟩
  have main : ∀ l : List Nat, (∀ i ∈ l, i < n) → ∃ F, ∀ fuel ≥ F, ∀ g : Nat → List Nat,
      l.foldl (fun r i => r.bind fun g => (exactRow dim coord n m i fuel).bind fun L => .ok (Function.update g i L)) (.ok g) =
        Res.ok (fun j => if j ∈ l then f j else g j) := by
    intro l
    induction l with
    | nil => exact fun _ => ⟨0, fun _ _ g => by simp⟩
    | cons a l ih =>
      intro hl
      obtain ⟨F1, h1⟩ := ih (fun i hi => hl i (List.mem_cons_of_mem _ hi))
      obtain ⟨F2, h2⟩ := (hf a (hl a List.mem_cons_self)).1
      refine ⟨F1 + F2, fun fuel hF g => ?_⟩
      rw [List.foldl_cons]
      have e := h2 fuel (by omega)
      simp only [Res.bind]
      rw [e]
      have := h1 fuel (by omega) (Function.update g a (f a))
      simp only [Res.bind] at this ⊢
      rw [this]
      congr 1
      funext j
      by_cases hj : j ∈ l
      · simp [hj]
      · by_cases hja : j = a
        · subst hja; simp [hj]
        · simp [hj, hja]
  obtain ⟨F, hF⟩ := main order (fun i hi => List.mem_range.1 (ho.mem_iff.1 hi))
  refine ⟨F, fun fuel hfu => ?_⟩
  unfold exactKNN
  rw [hF fuel hfu]
  congr 1
  funext j
  by_cases hj : j < n
  · rw [if_pos (ho.mem_iff.2 (List.mem_range.2 hj)), if_pos hj]
  · rw [if_neg (fun h => hj (List.mem_range.1 (ho.mem_iff.1 h))), if_neg hj]

/-- **C66** (no neighbours).  With `fsai_npt = 0` the first iteration writes `nn_idx_i[-1]`. -/
theorem C66_zero (dim : Nat) (coord : Nat → Nat → K) (n : Nat) (i : Nat) (order : List Nat) (fuel : Nat) :
    exactKNN dim coord n 0 (i :: order) fuel = .ub := by
  have : ∀ l : List Nat, l.foldl (fun r i => r.bind fun g => (exactRow dim coord n 0 i fuel).bind fun L => .ok (Function.update g i L)) (Res.ub) = Res.ub := by
    intro l
    induction l with
    | nil => rfl
    | cons a l ih => rw [List.foldl_cons]; exact ih
  unfold exactKNN
  rw [List.foldl_cons]
  have e : exactRow dim coord n 0 i fuel = .ub := by simp [exactRow]
  simp only [Res.bind]
  rw [e]
  exact this order

end

section
variable {n : Nat} {nn : Nat → List Nat} {S G : Matrix (Fin n) (Fin n) ℝ}

/-- Row `i` of `G S`, in terms of the quadratic form. -/
theorem posDef_zero (hS : S.PosDef) {d : Fin n → ℝ} (h : ∀ j, (S *ᵥ d) j = 0 ∨ d j = 0) : d = 0 := by
  by_contra hd
  have := hS.dotProduct_mulVec_pos hd
  rw [dotProduct, Finset.sum_eq_zero] at this
  · exact lt_irrefl _ this
  · intro j _
    rcases h j with h | h
    · rw [h, mul_zero]
    · simp [h]

/-- **C67** (uniqueness).  A positive definite matrix has only one factorized sparse approximate inverse on a pattern: the result is determined by the
points, the kernel and the pattern. -/
theorem C67_unique (hS : S.PosDef) {G' : Matrix (Fin n) (Fin n) ℝ} (h : IsFSAI nn S G) (h' : IsFSAI nn S G') : G = G' := by
  have hsym : Sᵀ = S := by have := hS.isHermitian; rwa [Matrix.IsHermitian, Matrix.conjTranspose_eq_transpose_of_trivial] at this
  have key : ∀ (A : Matrix (Fin n) (Fin n) ℝ), IsFSAI nn S A → ∀ i j : Fin n, (j : Nat) ∈ nn i → j ≠ i → (S *ᵥ fun t => A i t) j = 0 := by
    intro A hA i j hj hji
    rw [← hA.orth i j hj hji, Matrix.mul_apply, Matrix.mulVec, dotProduct]
    refine Finset.sum_congr rfl fun t _ => ?_
    rw [mul_comm, ← congrFun (congrFun hsym j) t, Matrix.transpose_apply]
  have row : ∀ i, (fun t => G i t * G' i i - G' i t * G i i) = 0 := by
    intro i
    refine posDef_zero hS fun j => ?_
    by_cases hji : j = i
    · right; subst hji; ring
    · by_cases hj : (j : Nat) ∈ nn i
      · left
        have e1 := key G h i j hj hji
        have e2 := key G' h' i j hj hji
        have : (fun t => G i t * G' i i - G' i t * G i i) = G' i i • (fun t => G i t) - G i i • (fun t => G' i t) := by
          funext t; simp [mul_comm]
        rw [this, Matrix.mulVec_sub, Matrix.mulVec_smul, Matrix.mulVec_smul]
        simp [e1, e2]
      · right
        rw [h.pattern i j hj, h'.pattern i j hj]; ring
  have hprop : ∀ i t, G i t = G i i / G' i i * G' i t := by
    intro i t
    have := congrFun (row i) t
    simp only [Pi.zero_apply] at this
    have h0 := (h'.diag i).ne'
    field_simp
    linarith
  have hdiag : ∀ i, G i i = G' i i := by
    intro i
    have e1 := h.unit i
    have e2 := h'.unit i
    have : (G * S * Gᵀ) i i = (G i i / G' i i) ^ 2 * (G' * S * G'ᵀ) i i := by
      simp only [Matrix.mul_apply, Matrix.transpose_apply, Finset.mul_sum, Finset.sum_mul]
      refine Finset.sum_congr rfl fun t _ => Finset.sum_congr rfl fun u _ => ?_
      rw [hprop i t, hprop i u]; ring
    rw [e1, e2, mul_one] at this
    have hp : 0 < G i i / G' i i := div_pos (h.diag i) (h'.diag i)
    have : G i i / G' i i = 1 := by nlinarith
    rw [div_eq_one_iff_eq (h'.diag i).ne'] at this
    exact this
  ext i t
  rw [hprop i t, hdiag i, div_self (h'.diag i).ne', one_mul]

/-- `G` is invertible. -/
theorem isFSAI_unit (hn : ∀ i < n, ∀ j ∈ nn i, j ≤ i) (h : IsFSAI nn S G) : IsUnit G.det := by
  have hlow : G.BlockTriangular OrderDual.toDual := by
    intro i j hij
    have hij : i < j := hij
    exact h.pattern i j fun hm => absurd (hn i i.2 j hm) (not_le.2 hij)
  rw [Matrix.det_of_lowerTriangular G hlow]
  exact (Finset.prod_ne_zero_iff.2 fun i _ => (h.diag i).ne').isUnit

/-- **C67** (definiteness).  The preconditioner is symmetric positive definite. -/
theorem C67_posDef (hn : ∀ i < n, ∀ j ∈ nn i, j ≤ i) (h : IsFSAI nn S G) : (Gᵀ * G).PosDef := by
  have := Matrix.PosDef.conjTranspose_mul_self G (by
    exact Matrix.mulVec_injective_of_isUnit ((Matrix.isUnit_iff_isUnit_det _).2 (isFSAI_unit hn h)))
  simpa using this

/-- **C67** (full pattern).  If every row contains all smaller indices, the preconditioner is the inverse. -/
theorem C67_full (hS : Sᵀ = S) (hn : ∀ i < n, ∀ j, j ∈ nn i ↔ j ≤ i) (h : IsFSAI nn S G) : Gᵀ * G * S = 1 ∧ S * (Gᵀ * G) = 1 := by
  have hlow : ∀ i j, i < j → G i j = 0 := fun i j hij => h.pattern i j fun hm => absurd ((hn i i.2 j).1 hm) (not_le.2 hij)
  have hGS : ∀ i j, j < i → (G * S) i j = 0 := fun i j hij => h.orth i j ((hn i i.2 j).2 (le_of_lt hij)) hij.ne
  have hup : ∀ i j, j < i → (G * S * Gᵀ) i j = 0 := by
    intro i j hij
    rw [Matrix.mul_apply]
    refine Finset.sum_eq_zero fun t _ => ?_
    rcases lt_or_ge t i with ht | ht
    · rw [hGS i t ht, zero_mul]
    · rw [Matrix.transpose_apply, hlow j t (lt_of_lt_of_le hij ht), mul_zero]
  have hsym : (G * S * Gᵀ)ᵀ = G * S * Gᵀ := by
    rw [Matrix.transpose_mul, Matrix.transpose_mul, Matrix.transpose_transpose, hS, Matrix.mul_assoc]
  have hone : G * S * Gᵀ = 1 := by
    ext i j
    rcases lt_trichotomy i j with hij | hij | hij
    · rw [← hsym, Matrix.transpose_apply, hup j i hij, Matrix.one_apply_ne hij.ne]
    · subst hij; rw [h.unit i, Matrix.one_apply_eq]
    · rw [hup i j hij, Matrix.one_apply_ne hij.ne']
  have e1 : Gᵀ * (G * S) = 1 := mul_eq_one_comm.1 hone
  rw [Matrix.mul_assoc]
  refine ⟨e1, ?_⟩
  rw [← Matrix.mul_assoc] at e1
  exact mul_eq_one_comm.1 e1

end

/-- **C67**.  For every symmetric kernel, all points and every choice of neighbour lists (each ends with its own point, the others have smaller indices,
no repetition) such that `S = kernel + mu I - P P'` is positive definite: whatever the contents of the fresh memory and the orders of the parallel loops,
the construction terminates without failing, the first CSR matrix is the factorized sparse approximate inverse `G` of `S` on this pattern, the second is its
transpose, and applying the preconditioner multiplies with `G' G`. -/
theorem C67_fsai (F : FsaiIn) (hL : F.lp.Correct) (hD : F.lp.Definite) (hk : ∀ x y, F.kf x y = F.kf y x) (hS : (target F).PosDef)
    {m : Nat} {nn : Nat → List Nat} (hn : ∀ i < F.n, Lower m i (nn i)) (ev : CsrEnv) (h1 : ev.ordG.Perm (List.range F.n)) (h2 : ev.ordGT.Perm (List.range F.n)) :
    ∃ M, Returns (fsaiBuild F nn ev) (some M) ∧ IsFSAI nn (target F) (dense F.n M.g) ∧ dense F.n M.gt = (dense F.n M.g)ᵀ ∧
      ((dense F.n M.g)ᵀ * dense F.n M.g).PosDef ∧
      ∀ (x : Nat → ℝ) (i : Fin F.n), fsaiApply M x i = (((dense F.n M.g)ᵀ * dense F.n M.g) *ᵥ fun j => x j) i := by
  obtain ⟨M, a, b, c, d⟩ := fsaiBuild_spec F hL hD hk hS hn ev h1 h2
  exact ⟨M, a, b, c, C67_posDef (fun i hi => (hn i hi).le) b, d⟩

/-- **C67** (exact solver).  With the exact neighbour search and `fsai_npt >= n`, applying the preconditioner solves with `S`. -/
theorem C67_exact (F : FsaiIn) (hL : F.lp.Correct) (hD : F.lp.Definite) (hk : ∀ x y, F.kf x y = F.kf y x) (hS : (target F).PosDef)
    (dim m : Nat) (hm : F.n ≤ m) (h0 : 1 ≤ m) (order : List Nat) (ho : order.Perm (List.range F.n)) (ev : CsrEnv) (h1 : ev.ordG.Perm (List.range F.n))
    (h2 : ev.ordGT.Perm (List.range F.n)) :
    ∃ nn M, Returns (exactKNN dim F.coord F.n m order) nn ∧ Returns (fsaiBuild F nn ev) (some M) ∧
      ∀ b : Nat → ℝ, (target F *ᵥ fun i => fsaiApply M b i) = fun i : Fin F.n => b i := by
  obtain ⟨nn, r, hnn⟩ := C66_exact_knn dim F.coord F.n m h0
  obtain ⟨M, a, b, c, d, e⟩ := C67_fsai F hL hD hk hS (fun i hi => (hnn i hi).lower) ev h1 h2
  refine ⟨nn, M, r order ho, a, fun x => ?_⟩
  have hfull : ∀ i < F.n, ∀ j, j ∈ nn i ↔ j ≤ i := by
    intro i hi j
    refine ⟨(hnn i hi).lower.le j, fun hj => ?_⟩
    have hlen := (hnn i hi).full
    have : nn i ⊆ List.range (i + 1) := fun x hx => List.mem_range.2 (by have := (hnn i hi).lower.le x hx; omega)
    have hp := ((hnn i hi).lower.nodup.subperm this).perm_of_length_le (by rw [List.length_range]; omega)
    exact hp.mem_iff.2 (List.mem_range.2 (by omega))
  have hsym : (target F)ᵀ = target F := by have := hS.isHermitian; rwa [Matrix.IsHermitian, Matrix.conjTranspose_eq_transpose_of_trivial] at this
  have := (C67_full hsym hfull b).2
  have e' : (fun i : Fin F.n => fsaiApply M x i) = ((dense F.n M.g)ᵀ * dense F.n M.g) *ᵥ fun j => x j := funext (e x)
  rw [e', Matrix.mulVec_mulVec, this, Matrix.one_mulVec]

/-- **C67** (failure).  If the submatrix of `S` for the neighbours of some point is not positive definite, the program stops with an error message. -/
theorem C67_fails (F : FsaiIn) (hD : F.lp.Definite) (hk : ∀ x y, F.kf x y = F.kf y x) {m : Nat} {nn : Nat → List Nat} (hn : ∀ i < F.n, Lower m i (nn i))
    (i : Nat) (hi : i < F.n)
    (hS : ¬ (Matrix.of fun p q : Fin (nn i).length => (F.kf (fun d => F.coord d ((nn i).getD p 0)) (fun d => F.coord d ((nn i).getD q 0)) + (if p = q then F.mu else 0) -
      ∑ t ∈ Finset.range F.n1, F.P ((nn i).getD p 0) t * F.P ((nn i).getD q 0) t)).PosDef) (ev : CsrEnv) (fuel : Nat) : fsaiBuild F nn ev fuel = .ok none := by
  have h := hn i hi
  have hrow : fsaiRow F (nn i) = none := by
    unfold fsaiRow
    dsimp only
    rw [if_neg]
    rw [hD]
    intro hp
    apply hS
    convert hp using 1
    ext p q
    have key : ∀ p q : Fin (nn i).length, q ≤ p → fsaiK F (nn i) p q = F.kf (fun d => F.coord d ((nn i).getD p 0)) (fun d => F.coord d ((nn i).getD q 0)) + (if p = q then F.mu else 0) -
        ∑ t ∈ Finset.range F.n1, F.P ((nn i).getD p 0) t * F.P ((nn i).getD q 0) t := by
      intro p q hpq
      unfold fsaiK
      dsimp only
      have e : (if (p : Nat) = q then F.mu else 0) = (if p = q then F.mu else 0) := by
        by_cases x : p = q
        · rw [if_pos x, if_pos (congrArg Fin.val x)]
        · rw [if_neg x, if_neg (fun y => x (Fin.ext y))]
      rw [e]
      by_cases h1 : 0 < F.n1
      · rw [if_pos ⟨h1, hpq⟩]
      · rw [if_neg (fun x => h1 x.1), show F.n1 = 0 by omega, range_zero, sum_empty, sub_zero]
    simp only [Matrix.of_apply]
    by_cases hpq : q ≤ p
    · rw [if_pos hpq, key p q hpq]
    · rw [if_neg hpq, key q p (le_of_lt (not_le.1 hpq)), hk]
      have : p ≠ q := fun x => hpq x.ge
      rw [if_neg this, if_neg this.symm]
      congr 1
      exact sum_congr rfl fun t _ => mul_comm _ _
  unfold fsaiBuild fsaiVals
  rw [if_neg, if_neg]
  · rfl
  · intro hall
    have := hall i hi
    rw [hrow] at this; cases this
  · rintro ⟨j, hj, e⟩
    have := (hn j hj).last
    rw [e] at this; cases this

/-! ## Non-vacuity -/

/-- Five points on a line: the two nearest points with smaller index of each. -/
example : ∃ nn, exactKNN 1 (fun _ j => [0, 3, 1, 10, 4].getD j (0 : ℚ)) 5 3 [4, 1, 0, 3, 2] 50 = .ok nn ∧
    (List.range 5).map nn = [[0], [0, 1], [0, 1, 2], [1, 2, 3], [1, 2, 4]] := by
  have h : (match exactKNN 1 (fun _ j => [0, 3, 1, 10, 4].getD j (0 : ℚ)) 5 3 [4, 1, 0, 3, 2] 50 with | .ok s => some ((List.range 5).map s) | _ => none) =
      some [[0], [0, 1], [0, 1, 2], [1, 2, 3], [1, 2, 4]] := by
    decide +kernel
  split at h
  · next s e => exact ⟨s, e, by simpa using h⟩
  · cases h

/-- Three points on a line, the kernel `x y`, shift 2, one column in `P`: `S = 2 I + (3/4) v v'` with `v = (1, 2, 3)`. -/
noncomputable def exFsai (Lp : Lapack ℝ) : FsaiIn := ⟨Lp, fun x y => x 0 * y 0, 3, fun _ j => j + 1, 1, fun i _ => (i + 1) / 2, 2⟩

theorem exFsai_posDef (Lp : Lapack ℝ) : (target (exFsai Lp)).PosDef := by
  have e : target (exFsai Lp) = (2 : ℝ) • (1 : Matrix (Fin 3) (Fin 3) ℝ) + (3 / 4 : ℝ) • vecMulVec (fun i : Fin 3 => ((i : Nat) : ℝ) + 1) (star fun i : Fin 3 => ((i : Nat) : ℝ) + 1) := by
    refine Matrix.ext fun (i j : Fin 3) => ?_
    show (((i : Nat) : ℝ) + 1) * (((j : Nat) : ℝ) + 1) + (if i = j then (2 : ℝ) else 0) - ∑ t ∈ Finset.range 1, (((i : Nat) : ℝ) + 1) / 2 * ((((j : Nat) : ℝ) + 1) / 2) =
      2 * (1 : Matrix (Fin 3) (Fin 3) ℝ) i j + 3 / 4 * ((((i : Nat) : ℝ) + 1) * (((j : Nat) : ℝ) + 1))
    rw [Finset.range_one, Finset.sum_singleton, Matrix.one_apply]
    by_cases h : i = j
    · rw [if_pos h, if_pos h]; ring
    · rw [if_neg h, if_neg h]; ring
  rw [e]
  exact Matrix.PosDef.add_posSemidef (Matrix.PosDef.one.smul (by norm_num)) ((posSemidef_vecMulVec_self_star _).smul (by norm_num))

/-- The construction on a pattern that is not full, and the exact solver with the full pattern. -/
example : ∃ Lp : Lapack ℝ, (∃ M, Returns (fsaiBuild (exFsai Lp) (fun i => [[0], [0, 1], [1, 2]].getD i []) ⟨fun _ => 7, fun _ => 7, [2, 0, 1], [0, 1, 2]⟩) (some M) ∧
    dense 3 M.g 2 0 = 0 ∧ 0 < dense 3 M.g 2 2) ∧
    ∃ nn M, Returns (exactKNN 1 (exFsai Lp).coord 3 4 [2, 1, 0]) nn ∧ Returns (fsaiBuild (exFsai Lp) nn ⟨fun _ => 7, fun _ => 7, [2, 0, 1], [0, 1, 2]⟩) (some M) ∧
      ∀ b : Nat → ℝ, (target (exFsai Lp) *ᵥ fun i => fsaiApply M b i) = fun i : Fin 3 => b i := by
  obtain ⟨Lp, hL, hD⟩ := lapack_exists
  refine ⟨Lp, ?_, ?_⟩
  · obtain ⟨M, h1, h2, _⟩ := C67_fsai (exFsai Lp) hL hD (fun x y => mul_comm _ _) (exFsai_posDef Lp) (m := 2) (nn := fun i => [[0], [0, 1], [1, 2]].getD i [])
      (by intro i hi; have hi : i < 3 := hi; interval_cases i <;> exact ⟨by decide, by decide, by decide, by decide⟩)
      ⟨fun _ => 7, fun _ => 7, [2, 0, 1], [0, 1, 2]⟩ (by show [2, 0, 1].Perm (List.range 3); decide) (by show [0, 1, 2].Perm (List.range 3); decide)
    exact ⟨M, h1, h2.pattern (⟨2, by decide⟩ : Fin 3) (⟨0, by decide⟩ : Fin 3) (by show 0 ∉ [1, 2]; decide), h2.diag (⟨2, by decide⟩ : Fin 3)⟩
  · exact C67_exact (exFsai Lp) hL hD (fun x y => mul_comm _ _) (exFsai_posDef Lp) 1 4 (by show 3 ≤ 4; decide) (by decide) [2, 1, 0]
      (by show [2, 1, 0].Perm (List.range 3); decide) ⟨fun _ => 7, fun _ => 7, [2, 0, 1], [0, 1, 2]⟩
      (by show [2, 0, 1].Perm (List.range 3); decide) (by show [0, 1, 2].Perm (List.range 3); decide)

end H2Pack.AFN
