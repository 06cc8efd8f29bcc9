import Verif.Proof.PCG2
import Verif.Props.Nystrom
import Mathlib.LinearAlgebra.Matrix.Charpoly.Coeff

/-!
# C70, C71: the preconditioned conjugate gradient solver

Specification: `Verif/Spec/PCG.lean`.
-/

namespace H2Pack.PCG
open Matrix Finset Polynomial

variable {n : Nat}

/-! ## Any linear operator -/

theorem step_res {a : Args n} {A : Matrix (Fin n) (Fin n) ℝ} (hax : ∀ v, a.ax v = A *ᵥ v) {s s' : St n} (h : step a s = some s')
    (hr : s.r = a.b - A *ᵥ s.x) : s'.r = a.b - A *ᵥ s'.x ∧ s'.rn = norm2 s'.r ∧ s'.iter = s.iter + 1 := by
  unfold step at h
  dsimp only at h
  generalize hp : (if s.iter = 0 then applyM a s.r else fun i => applyM a s.r i + (∑ i, s.r i * applyM a s.r i) / s.rho * s.p i) = p at h
  generalize (∑ i, s.r i * applyM a s.r i) = rho at h
  by_cases c1 : s.rho = 0
  · rw [if_pos c1] at h; cases h
  · rw [if_neg c1] at h
    by_cases c2 : (∑ i, p i * a.ax p i) = 0
    · rw [if_pos c2] at h; cases h
    · rw [if_neg c2] at h
      generalize (rho / ∑ i, p i * a.ax p i) = al at h
      cases h
      refine ⟨?_, rfl, rfl⟩
      dsimp only
      have e : (fun i => s.x i + al * p i) = s.x + al • p := rfl
      rw [e, Matrix.mulVec_add, Matrix.mulVec_smul, hax]
      funext i
      rw [hr]
      simp only [Pi.sub_apply, Pi.add_apply, Pi.smul_apply, smul_eq_mul]
      ring

theorem loop_res {a : Args n} {A : Matrix (Fin n) (Fin n) ℝ} (hax : ∀ v, a.ax v = A *ᵥ v) (f : Nat) : ∀ {s s' : St n}, loop a f s = some s' →
    s.r = a.b - A *ᵥ s.x → s.rn = norm2 s.r → s.iter + f = a.maxIter →
    s'.r = a.b - A *ᵥ s'.x ∧ s'.rn = norm2 s'.r ∧ s'.iter ≤ a.maxIter ∧ (s'.iter = a.maxIter ∨ s'.rn ≤ norm2 a.b * a.tol) := by
  induction f with
  | zero =>
    intro s s' h hr hn hi
    cases h
    exact ⟨hr, hn, by omega, Or.inl (by omega)⟩
  | succ f ih =>
    intro s s' h hr hn hi
    unfold loop at h
    split at h
    · cases hs : step a s with
      | none => rw [hs] at h; cases h
      | some t =>
        rw [hs] at h
        obtain ⟨h1, h2, h3⟩ := step_res hax hs hr
        exact ih h h1 h2 (by omega)
    · next hc =>
      cases h
      refine ⟨hr, hn, by omega, Or.inr (not_lt.1 fun h => hc ⟨by omega, h⟩)⟩

/-- **C70** Whatever the system, the preconditioner and the limits are: if the solver returns without a division by zero, then `flag` is 0 exactly if the
returned vector satisfies `|b - A x| <= tol |b|`, `relres` is `|b - A x| / |b|`, and if `flag` is 1, the maximal number of iterations has been done. -/
theorem C70_flag (a : Args n) (A : Matrix (Fin n) (Fin n) ℝ) (hax : ∀ v, a.ax v = A *ᵥ v) (p0 : Fin n → ℝ) (h0 : Nat → ℝ) (o : Out n) (h : pcg a p0 h0 = some o) :
    (o.flag = 0 ∨ o.flag = 1) ∧ (o.flag = 0 ↔ norm2 (a.b - A *ᵥ o.x) ≤ norm2 a.b * a.tol) ∧ o.iter ≤ a.maxIter ∧ (o.flag = 1 → o.iter = a.maxIter) ∧
    (a.b ≠ 0 → o.relres = some (norm2 (a.b - A *ᵥ o.x) / norm2 a.b)) ∧ (a.b = 0 → o.relres = none) := by
  unfold pcg at h
  cases hl : loop a a.maxIter (init a p0 h0) with
  | none => rw [hl] at h; cases h
  | some s =>
    rw [hl] at h
    cases h
    obtain ⟨h1, h2, h3, h4⟩ := loop_res hax a.maxIter hl (by
      show (fun i => a.b i - a.ax a.x0 i) = _
      rw [hax]; rfl) rfl (by show 0 + a.maxIter = _; omega)
    rw [← h1]
    dsimp only
    refine ⟨?_, ?_, h3, ?_, fun hb => ?_, fun hb => ?_⟩
    · split
      · exact Or.inl rfl
      · exact Or.inr rfl
    · rw [← h2]
      by_cases hc : s.rn ≤ norm2 a.b * a.tol
      · simp [hc]
      · simp [hc]
    · intro hf
      rcases h4 with h4 | h4
      · exact h4
      · rw [if_pos h4] at hf; cases hf
    · rw [if_neg fun h => hb (norm2_zero.1 h), h2]
    · rw [if_pos (norm2_zero.2 hb)]

/-! ## Positive definite systems -/

theorem pcg_eq {A B : Matrix (Fin n) (Fin n) ℝ} {a : Args n} (ho : Operators a A B) (hA : A.PosDef) (hB : B.PosDef) (htol : 0 ≤ a.tol) (p0 : Fin n → ℝ) (h0 : Nat → ℝ) :
    ∃ k o, pcg a p0 h0 = some o ∧ o.iter = k ∧ k ≤ a.maxIter ∧ o.x = (cg A B a.x0 (a.b - A *ᵥ a.x0) k).x ∧
      (∀ i < k, norm2 a.b * a.tol < norm2 (cg A B a.x0 (a.b - A *ᵥ a.x0) i).r) ∧
      (k = a.maxIter ∨ norm2 (cg A B a.x0 (a.b - A *ᵥ a.x0) k).r ≤ norm2 a.b * a.tol) ∧
      ∀ i, o.hist i = if i < k then norm2 (cg A B a.x0 (a.b - A *ᵥ a.x0) (i + 1)).r else h0 i := by
  obtain ⟨k, e, h1, h2, h3⟩ := loop_eq (x0 := a.x0) (r0 := a.b - A *ᵥ a.x0) ho hA hB htol p0 h0 a.maxIter 0 (by omega) (fun i hi => absurd hi (by omega))
  have hi : init a p0 h0 = stOf A B a.x0 (a.b - A *ᵥ a.x0) p0 h0 0 := by
    have hr : (fun i => a.b i - a.ax a.x0 i) = a.b - A *ᵥ a.x0 := by rw [ho.1]; rfl
    unfold init stOf
    dsimp only
    rw [hr, St.mk.injEq]
    refine ⟨rfl, rfl, rfl, rfl, rfl, rfl, ?_⟩
    funext i
    rw [if_neg (by omega)]
  unfold pcg
  rw [hi, e]
  exact ⟨k, _, rfl, rfl, h1, rfl, h2, h3, fun i => rfl⟩

theorem cg_ne {A B : Matrix (Fin n) (Fin n) ℝ} {a : Args n} (htol : 0 ≤ a.tol) {k : Nat} {r0 : Fin n → ℝ}
    (h : ∀ i < k, norm2 a.b * a.tol < norm2 (cg A B a.x0 r0 i).r) : ∀ i < k, (cg A B a.x0 r0 i).r ≠ 0 := by
  intro i hi h'
  have := h i hi
  rw [norm2_zero.2 h'] at this
  exact absurd this (not_lt.2 (mul_nonneg (norm2_nonneg _) htol))

/-- **C71** For every symmetric positive definite system and preconditioner, every start vector and tolerance the solver never divides by zero.  After `k`
iterations the error of the returned vector is `q(B A)` times the first error, for a polynomial `q` of degree at most `k` with `q(0) = 1`, and
no such polynomial gives a smaller error in the energy norm; entry `i` of `res_vec` is the (absolute) norm of the residual after `i + 1` iterations. -/
theorem C71_optimal (a : Args n) {A B : Matrix (Fin n) (Fin n) ℝ} (ho : Operators a A B) (hA : A.PosDef) (hB : B.PosDef) (htol : 0 ≤ a.tol) (p0 : Fin n → ℝ) (h0 : Nat → ℝ) :
    ∃ o, pcg a p0 h0 = some o ∧ (∃ q : ℝ[X], q.natDegree ≤ o.iter ∧ q.eval 0 = 1 ∧ o.x = polyIter A B a.b a.x0 q) ∧
      (∀ q : ℝ[X], q.natDegree ≤ o.iter → q.eval 0 = 1 → errA A a.b o.x ≤ errA A a.b (polyIter A B a.b a.x0 q)) ∧
      (∀ i < o.iter, ∃ o', pcg { a with maxIter := i + 1 } p0 h0 = some o' ∧ o.hist i = norm2 (a.b - A *ᵥ o'.x)) ∧ ∀ i, o.iter ≤ i → o.hist i = h0 i := by
  obtain ⟨k, o, e, hk, hm, hx, h1, h2, h3⟩ := pcg_eq ho hA hB htol p0 h0
  refine ⟨o, e, ?_, ?_, ?_, ?_⟩
  · rw [hk, hx]; exact cg_attained hA rfl k
  · rw [hk, hx]; exact fun q hq hq0 => cg_opt hA hB rfl k (cg_ne htol h1) hq hq0
  · intro i hi
    rw [hk] at hi
    obtain ⟨k', o', e', hk', hm', hx', h1', h2', h3'⟩ := pcg_eq (a := { a with maxIter := i + 1 }) ho hA hB htol p0 h0
    refine ⟨o', e', ?_⟩
    have hm' : k' ≤ i + 1 := hm'
    have h2' : k' = i + 1 ∨ norm2 (cg A B a.x0 (a.b - A *ᵥ a.x0) k').r ≤ norm2 a.b * a.tol := h2'
    have hx' : o'.x = (cg A B a.x0 (a.b - A *ᵥ a.x0) k').x := hx'
    have : k' = i + 1 := by
      rcases h2' with h | h
      · exact h
      · by_contra hne
        exact absurd (h1 k' (by omega)) (not_lt.2 h)
    rw [h3 i, if_pos hi, hx', this, cg_res (b := a.b) rfl]
  · intro i hi
    rw [hk] at hi
    rw [h3 i, if_neg (by omega)]

/-- **C71** (finite termination).  If a polynomial with `q(0) = 1` annihilates `B A` (every matrix of size `n` has one of degree `n`), the solver
converges in at most `deg q` iterations, for every tolerance. -/
theorem C71_poly (a : Args n) {A B : Matrix (Fin n) (Fin n) ℝ} (ho : Operators a A B) (hA : A.PosDef) (hB : B.PosDef) (htol : 0 ≤ a.tol) (p0 : Fin n → ℝ) (h0 : Nat → ℝ)
    (q : ℝ[X]) (hq0 : q.eval 0 = 1) (hq : aeval (B * A) q = 0) (hm : q.natDegree ≤ a.maxIter) :
    ∃ o, pcg a p0 h0 = some o ∧ o.flag = 0 ∧ o.iter ≤ q.natDegree ∧ (a.tol = 0 → A *ᵥ o.x = a.b) := by
  obtain ⟨k, o, e, hk, hm', hx, h1, h2, h3⟩ := pcg_eq ho hA hB htol p0 h0
  obtain ⟨-, f2, f3, -, -⟩ := C70_flag a A ho.1 p0 h0 o e
  have hdone : (∀ i < q.natDegree, (cg A B a.x0 (a.b - A *ᵥ a.x0) i).r ≠ 0) → (cg A B a.x0 (a.b - A *ᵥ a.x0) q.natDegree).r = 0 := by
    intro hne
    have := cg_opt hA hB rfl q.natDegree hne le_rfl hq0
    have hz : errA A a.b (polyIter A B a.b a.x0 q) = 0 := by
      unfold errA polyIter
      rw [hq, Matrix.zero_mulVec]; simp
    rw [hz] at this
    unfold errA at this
    have hv : A⁻¹ *ᵥ a.b - (cg A B a.x0 (a.b - A *ᵥ a.x0) q.natDegree).x = 0 := by
      by_contra hne
      exact absurd (bil_pos hA hne) (not_lt.2 this)
    rw [← cg_err hA rfl, hv, Matrix.mulVec_zero]
  have hkd : k ≤ q.natDegree := by
    by_contra hlt
    have hne := cg_ne htol h1
    exact hne q.natDegree (by omega) (hdone fun i hi => hne i (by omega))
  have hfin : norm2 (cg A B a.x0 (a.b - A *ᵥ a.x0) k).r ≤ norm2 a.b * a.tol := by
    rcases h2 with h | h
    · have : k = q.natDegree := by omega
      rw [this] at h1 ⊢
      rw [hdone (cg_ne htol h1), norm2_zero.2 rfl]
      exact mul_nonneg (norm2_nonneg _) htol
    · exact h
  have hfl : norm2 (a.b - A *ᵥ o.x) ≤ norm2 a.b * a.tol := by rw [hx, ← cg_res rfl]; exact hfin
  refine ⟨o, e, f2.2 hfl, by omega, fun ht => ?_⟩
  rw [ht, mul_zero] at hfl
  have := norm2_zero.1 (le_antisymm hfl (norm2_nonneg _))
  exact (sub_eq_zero.1 this).symm

/-- **C71** (at most `n` iterations). -/
theorem C71_finite (a : Args n) {A B : Matrix (Fin n) (Fin n) ℝ} (ho : Operators a A B) (hA : A.PosDef) (hB : B.PosDef) (htol : 0 ≤ a.tol) (p0 : Fin n → ℝ) (h0 : Nat → ℝ)
    (hm : n ≤ a.maxIter) : ∃ o, pcg a p0 h0 = some o ∧ o.flag = 0 ∧ o.iter ≤ n ∧ (a.tol = 0 → A *ᵥ o.x = a.b) := by
  have hu : IsUnit (B * A).det := by
    rw [Matrix.det_mul]
    exact ((Matrix.isUnit_iff_isUnit_det _).1 hB.isUnit).mul ((Matrix.isUnit_iff_isUnit_det _).1 hA.isUnit)
  have hc : (B * A).charpoly.eval 0 ≠ 0 := by
    rw [Matrix.eval_charpoly, map_zero, zero_sub, Matrix.det_neg]
    exact mul_ne_zero (pow_ne_zero _ (by norm_num)) hu.ne_zero
  have hd : (C ((B * A).charpoly.eval 0)⁻¹ * (B * A).charpoly).natDegree = n := by
    rw [natDegree_C_mul (inv_ne_zero hc), Matrix.charpoly_natDegree_eq_dim, Fintype.card_fin]
  obtain ⟨o, h1, h2, h3, h4⟩ := C71_poly a ho hA hB htol p0 h0 (C ((B * A).charpoly.eval 0)⁻¹ * (B * A).charpoly)
    (by rw [eval_mul, eval_C, inv_mul_cancel₀ hc]) (by rw [map_mul, Matrix.aeval_self_charpoly, mul_zero]) (by omega)
  exact ⟨o, h1, h2, by omega, h4⟩

/-- **C71** (exact preconditioner).  One iteration is enough. -/
theorem C71_exact_precond (a : Args n) {A B : Matrix (Fin n) (Fin n) ℝ} (ho : Operators a A B) (hA : A.PosDef) (hB : B.PosDef) (htol : 0 ≤ a.tol) (p0 : Fin n → ℝ) (h0 : Nat → ℝ)
    (hBA : B * A = 1) (hm : 1 ≤ a.maxIter) : ∃ o, pcg a p0 h0 = some o ∧ o.flag = 0 ∧ o.iter ≤ 1 ∧ (a.tol = 0 → A *ᵥ o.x = a.b) := by
  have hd : (1 - X : ℝ[X]).natDegree ≤ 1 := (natDegree_sub_le _ _).trans (max_le (by simp) natDegree_X_le)
  obtain ⟨o, h1, h2, h3, h4⟩ := C71_poly a ho hA hB htol p0 h0 (1 - X) (by simp) (by rw [hBA]; simp) (by omega)
  exact ⟨o, h1, h2, by omega, h4⟩

/-- One factor of the error bound. -/
theorem contract {A B : Matrix (Fin n) (Fin n) ℝ} (hA : A.PosDef) (hB : B.PosDef) {lo hi : ℝ} (h0 : 0 < lo) (hlh : lo ≤ hi)
    (hlo : (B - lo • A⁻¹).PosSemidef) (hhi : (hi • A⁻¹ - B).PosSemidef) (v : Fin n → ℝ) :
    ((1 - (2 / (lo + hi)) • (B * A)) *ᵥ v) ⬝ᵥ (A *ᵥ ((1 - (2 / (lo + hi)) • (B * A)) *ᵥ v)) ≤ ((hi - lo) / (hi + lo)) ^ 2 * (v ⬝ᵥ (A *ᵥ v)) := by
  have hu : IsUnit A.det := (Matrix.isUnit_iff_isUnit_det _).1 hA.isUnit
  have hAs : Aᵀ = A := by have := hA.isHermitian; rwa [Matrix.IsHermitian, Matrix.conjTranspose_eq_transpose_of_trivial] at this
  -- the two forms
  have f1 : ∀ u, 0 ≤ u ⬝ᵥ (A *ᵥ (B *ᵥ (A *ᵥ u))) - lo * (u ⬝ᵥ (A *ᵥ u)) := by
    intro u
    have := hlo.dotProduct_mulVec_nonneg (A *ᵥ u)
    rw [Matrix.sub_mulVec, dotProduct_sub, Matrix.smul_mulVec, dotProduct_smul, Matrix.mulVec_mulVec u A⁻¹ A, Matrix.nonsing_inv_mul _ hu, Matrix.one_mulVec, smul_eq_mul] at this
    simp only [star_trivial] at this
    rw [dotProduct_comm (A *ᵥ u) u] at this
    have e : (A *ᵥ u) ⬝ᵥ (B *ᵥ (A *ᵥ u)) = u ⬝ᵥ (A *ᵥ (B *ᵥ (A *ᵥ u))) := by rw [dotProduct_comm, bil_symm hA]
    rwa [e] at this
  have f2 : ∀ u, 0 ≤ hi * (u ⬝ᵥ (A *ᵥ u)) - u ⬝ᵥ (A *ᵥ (B *ᵥ (A *ᵥ u))) := by
    intro u
    have := hhi.dotProduct_mulVec_nonneg (A *ᵥ u)
    rw [Matrix.sub_mulVec, dotProduct_sub, Matrix.smul_mulVec, dotProduct_smul, Matrix.mulVec_mulVec u A⁻¹ A, Matrix.nonsing_inv_mul _ hu, Matrix.one_mulVec, smul_eq_mul] at this
    simp only [star_trivial] at this
    rw [dotProduct_comm (A *ᵥ u) u] at this
    have e : (A *ᵥ u) ⬝ᵥ (B *ᵥ (A *ᵥ u)) = u ⬝ᵥ (A *ᵥ (B *ᵥ (A *ᵥ u))) := by rw [dotProduct_comm, bil_symm hA]
    rwa [e] at this
  -- moments
  set w := B *ᵥ (A *ᵥ v) with hw
  set y := B *ᵥ (A *ᵥ w) with hy
  have s1 : w ⬝ᵥ (A *ᵥ w) = v ⬝ᵥ (A *ᵥ y) := by
    rw [bil_symm hA v y, dotProduct_comm y, hy, bil_symm hB (A *ᵥ v) (A *ᵥ w), ← hw, dotProduct_comm]
  set m0 := v ⬝ᵥ (A *ᵥ v) with hm0
  set m1 := v ⬝ᵥ (A *ᵥ w) with hm1
  set m2 := w ⬝ᵥ (A *ᵥ w) with hm2
  set m3 := w ⬝ᵥ (A *ᵥ y) with hm3
  have s2 : w ⬝ᵥ (A *ᵥ v) = m1 := bil_symm hA _ _
  have g1 := f1 (hi • v - w)
  have g2 := f2 (w - lo • v)
  have e1 : A *ᵥ (B *ᵥ (A *ᵥ (hi • v - w))) = hi • (A *ᵥ w) - A *ᵥ y := by
    simp only [Matrix.mulVec_sub, Matrix.mulVec_smul]; rw [← hw, ← hy]
  have e2 : A *ᵥ (B *ᵥ (A *ᵥ (w - lo • v))) = A *ᵥ y - lo • (A *ᵥ w) := by
    simp only [Matrix.mulVec_sub, Matrix.mulVec_smul]; rw [← hw, ← hy]
  rw [e1] at g1
  rw [e2] at g2
  simp only [Matrix.mulVec_sub, Matrix.mulVec_smul, sub_dotProduct, dotProduct_sub, smul_dotProduct, dotProduct_smul, smul_eq_mul, s2, ← s1, ← hm0, ← hm1, ← hm2, ← hm3] at g1 g2
  have goal1 : (1 - (2 / (lo + hi)) • (B * A)) *ᵥ v = v - (2 / (lo + hi)) • w := by
    rw [Matrix.sub_mulVec, Matrix.one_mulVec, Matrix.smul_mulVec, ← Matrix.mulVec_mulVec]
  rw [goal1]
  simp only [Matrix.mulVec_sub, Matrix.mulVec_smul, sub_dotProduct, dotProduct_sub, smul_dotProduct, dotProduct_smul, smul_eq_mul, s2, ← s1, ← hm0, ← hm1, ← hm2, ← hm3]
  have hs : 0 < lo + hi := by linarith
  have hkey : 0 ≤ (lo + hi) * m1 - m2 - lo * hi * m0 := by
    rcases eq_or_lt_of_le hlh with h | h
    · -- equal bounds: the forms vanish
      subst h
      have p1 := f1 v
      have p2 := f2 v
      rw [← hw, ← hm1, ← hm0] at p1 p2
      have p3 := f2 (w - lo • v)
      have p4 := f1 (w - lo • v)
      have hz : m1 = lo * m0 := by linarith
      -- the form of `A B A - lo A` is zero, so the matrix is zero on `v`
      have key : ∀ t : ℝ, 0 ≤ t * t * ((w - lo • v) ⬝ᵥ (A *ᵥ (B *ᵥ (A *ᵥ (w - lo • v)))) - lo * ((w - lo • v) ⬝ᵥ (A *ᵥ (w - lo • v)))) + 2 * t * ((w - lo • v) ⬝ᵥ (A *ᵥ (w - lo • v))) := by
        intro t
        have := f1 (v + t • (w - lo • v))
        have ee : A *ᵥ (B *ᵥ (A *ᵥ (v + t • (w - lo • v)))) = A *ᵥ w + t • (A *ᵥ (B *ᵥ (A *ᵥ (w - lo • v)))) := by
          simp only [Matrix.mulVec_add, Matrix.mulVec_smul]; rw [← hw]
        rw [ee] at this
        rw [e2] at this ⊢
        simp only [Matrix.mulVec_add, Matrix.mulVec_sub, Matrix.mulVec_smul, add_dotProduct, dotProduct_add, sub_dotProduct, dotProduct_sub, smul_dotProduct, dotProduct_smul, smul_eq_mul, s2, ← s1, ← hm0, ← hm1, ← hm2, ← hm3] at this ⊢
        nlinarith
      have hq : (w - lo • v) ⬝ᵥ (A *ᵥ (B *ᵥ (A *ᵥ (w - lo • v)))) - lo * ((w - lo • v) ⬝ᵥ (A *ᵥ (w - lo • v))) = 0 := by linarith
      have k1 := key (-1)
      rw [hq] at k1
      have hpos : 0 ≤ (w - lo • v) ⬝ᵥ (A *ᵥ (w - lo • v)) := by simpa using hA.posSemidef.dotProduct_mulVec_nonneg (w - lo • v)
      have hzero : (w - lo • v) ⬝ᵥ (A *ᵥ (w - lo • v)) = 0 := by linarith
      simp only [Matrix.mulVec_sub, Matrix.mulVec_smul, sub_dotProduct, dotProduct_sub, smul_dotProduct, dotProduct_smul, smul_eq_mul, s2, ← hm0, ← hm1, ← hm2] at hzero
      linarith
    · have : 0 ≤ (hi - lo) * ((lo + hi) * m1 - m2 - lo * hi * m0) := by nlinarith
      exact nonneg_of_mul_nonneg_right this (by linarith)
  have hfin : ((hi - lo) / (hi + lo)) ^ 2 * m0 - (m0 - 2 / (lo + hi) * m1 - 2 / (lo + hi) * (m1 - 2 / (lo + hi) * m2)) = (2 / (lo + hi)) ^ 2 * ((lo + hi) * m1 - m2 - lo * hi * m0) := by
    have hs' : lo + hi ≠ 0 := hs.ne'
    rw [add_comm hi lo]
    field_simp
    ring
  have := mul_nonneg (sq_nonneg (2 / (lo + hi))) hkey
  linarith

/-- **C71** (rate).  If the preconditioner lies between `lo A^-1` and `hi A^-1`, the square of the energy norm of the error after `k` iterations is at most
`((hi - lo) / (hi + lo)) ^ (2 k)` times that of the start vector. -/
theorem C71_rate (a : Args n) {A B : Matrix (Fin n) (Fin n) ℝ} (ho : Operators a A B) (hA : A.PosDef) (hB : B.PosDef) (htol : 0 ≤ a.tol) (p0 : Fin n → ℝ) (h0 : Nat → ℝ)
    {lo hi : ℝ} (hl0 : 0 < lo) (hlh : lo ≤ hi) (hlo : (B - lo • A⁻¹).PosSemidef) (hhi : (hi • A⁻¹ - B).PosSemidef) :
    ∃ o, pcg a p0 h0 = some o ∧ errA A a.b o.x ≤ ((hi - lo) / (hi + lo)) ^ (2 * o.iter) * errA A a.b a.x0 := by
  obtain ⟨o, e, -, h1, -⟩ := C71_optimal a ho hA hB htol p0 h0
  refine ⟨o, e, ?_⟩
  have hd : ((1 - C (2 / (lo + hi)) * X : ℝ[X]) ^ o.iter).natDegree ≤ o.iter := by
    have h1 : (1 - C (2 / (lo + hi)) * X : ℝ[X]).natDegree ≤ 1 := (natDegree_sub_le _ _).trans (max_le (by simp) ((natDegree_C_mul_le _ _).trans natDegree_X_le))
    refine natDegree_pow_le.trans ?_
    exact (Nat.mul_le_mul_left _ h1).trans (by omega)
  refine (h1 _ hd (by simp)).trans ?_
  have hae : aeval (B * A) ((1 - C (2 / (lo + hi)) * X : ℝ[X]) ^ o.iter) = (1 - (2 / (lo + hi)) • (B * A)) ^ o.iter := by
    rw [map_pow, map_sub, map_one, map_mul, aeval_X, aeval_C, Algebra.algebraMap_eq_smul_one, smul_mul_assoc, one_mul]
  unfold errA polyIter
  rw [sub_sub_cancel, hae]
  generalize A⁻¹ *ᵥ a.b - a.x0 = v
  generalize o.iter = k
  induction k with
  | zero => simp
  | succ k ih =>
    rw [pow_succ', ← Matrix.mulVec_mulVec]
    refine (contract hA hB hl0 hlh hlo hhi _).trans ?_
    rw [show 2 * (k + 1) = 2 + 2 * k by ring, pow_add, mul_assoc]
    exact mul_le_mul_of_nonneg_left ih (sq_nonneg _)

/-- **C71** with the AFN preconditioner of C68: the solver for `K + mu I` converges in at most `n` iterations. -/
theorem C71_afn (E : AFN.Env) (hL : E.lp.Correct) (hD : E.lp.Definite) {kf : (Nat → ℝ) → (Nat → ℝ) → ℝ} (hk : ∀ x y, kf x y = kf y x) {mu : ℝ}
    {coord : Nat → Nat → ℝ} (hK : (AFN.kmat kf mu n coord).PosDef) {perm : Nat → Nat} (hp : AFN.IsOrder n perm) {est maxK : Nat} (he : maxK ≤ est) (hm : maxK ≤ n)
    {m : Nat} {nn : Nat → List Nat} (hn : ∀ i < n - maxK, AFN.Lower m i (nn i))
    (ev : AFN.CsrEnv) (h1 : ev.ordG.Perm (List.range (n - maxK))) (h2 : ev.ordGT.Perm (List.range (n - maxK))) :
    ∃ P, Returns (AFN.precondBuild E kf mu n coord est maxK perm nn ev) (some P) ∧
      ∀ (b x0 p0 y0 : Fin n → ℝ) (tol : ℝ) (maxIter : Nat) (h0 : Nat → ℝ), 0 ≤ tol → n ≤ maxIter →
        ∃ o, pcg ⟨fun v => AFN.kmat kf mu n coord *ᵥ v, some fun v i => AFN.precondApply P (fun j => if h : j < n then v ⟨j, h⟩ else 0) (fun j => if h : j < n then y0 ⟨j, h⟩ else 0) i, b, x0, tol, maxIter⟩ p0 h0 = some o ∧
          o.flag = 0 ∧ norm2 (b - AFN.kmat kf mu n coord *ᵥ o.x) ≤ norm2 b * tol := by
  obtain ⟨P, B, T, G, a1, a2, a3, -⟩ := AFN.C68_afn E hL hD hk hK hp he hm hn ev h1 h2
  refine ⟨P, a1, fun b x0 p0 y0 tol maxIter h0 ht hmi => ?_⟩
  have hop : Operators ⟨fun v => AFN.kmat kf mu n coord *ᵥ v, some fun v i => AFN.precondApply P (fun j => if h : j < n then v ⟨j, h⟩ else 0) (fun j => if h : j < n then y0 ⟨j, h⟩ else 0) i, b, x0, tol, maxIter⟩ (AFN.kmat kf mu n coord) B := by
    refine ⟨fun v => rfl, fun v => ?_⟩
    funext i
    refine ((a2 _ _).1 i).trans ?_
    congr 2
    funext j
    rw [dif_pos j.2]
  obtain ⟨o, e, f, -⟩ := C71_finite _ hop hK a3 ht p0 h0 hmi
  obtain ⟨-, g, -⟩ := C70_flag _ (AFN.kmat kf mu n coord) hop.1 p0 h0 o e
  exact ⟨o, e, f, g.1 f⟩

/-! ## Non-vacuity -/

/-- A system of size 2 with a diagonal preconditioner that is not exact: at most two iterations, not zero. -/
example : ∃ o, pcg (n := 2) ⟨fun v => !![2, 1; 1, 3] *ᵥ v, some fun v => !![1 / 2, 0; 0, 1 / 3] *ᵥ v, ![1, 0], 0, 0, 5⟩ 0 (fun _ => 0) = some o ∧ o.flag = 0 ∧ o.iter ≤ 2 ∧ 1 ≤ o.iter ∧
    (!![2, 1; 1, 3] : Matrix (Fin 2) (Fin 2) ℝ) *ᵥ o.x = ![1, 0] := by
  have hA : (!![2, 1; 1, 3] : Matrix (Fin 2) (Fin 2) ℝ).PosDef := by
    have e : (!![2, 1; 1, 3] : Matrix (Fin 2) (Fin 2) ℝ) = diagonal ![1, 2] + vecMulVec ![1, 1] (star ![1, 1]) := by
      ext i j; fin_cases i <;> fin_cases j <;> norm_num [Matrix.vecMulVec]
    rw [e]
    exact (Matrix.PosDef.diagonal (by intro i; fin_cases i <;> norm_num)).add_posSemidef (posSemidef_vecMulVec_self_star _)
  have hB : (!![1 / 2, 0; 0, 1 / 3] : Matrix (Fin 2) (Fin 2) ℝ).PosDef := by
    have e : (!![1 / 2, 0; 0, 1 / 3] : Matrix (Fin 2) (Fin 2) ℝ) = diagonal ![1 / 2, 1 / 3] := by
      ext i j; fin_cases i <;> fin_cases j <;> simp
    rw [e]
    exact Matrix.PosDef.diagonal (by intro i; fin_cases i <;> norm_num)
  obtain ⟨o, h1, h2, h3, h4⟩ := C71_finite (n := 2) ⟨fun v => !![2, 1; 1, 3] *ᵥ v, some fun v => !![1 / 2, 0; 0, 1 / 3] *ᵥ v, ![1, 0], 0, 0, 5⟩
    ⟨fun v => rfl, fun v => rfl⟩ hA hB le_rfl 0 (fun _ => 0) (by decide)
  refine ⟨o, h1, h2, h3, ?_, h4 rfl⟩
  by_contra h0
  obtain ⟨o', g1, ⟨q, q1, q2, q3⟩, -⟩ := C71_optimal (n := 2) ⟨fun v => !![2, 1; 1, 3] *ᵥ v, some fun v => !![1 / 2, 0; 0, 1 / 3] *ᵥ v, ![1, 0], 0, 0, 5⟩
    ⟨fun v => rfl, fun v => rfl⟩ hA hB le_rfl 0 (fun _ => 0)
  rw [h1] at g1
  cases g1
  have hq : q = 1 := by
    rw [eq_C_of_natDegree_eq_zero (show q.natDegree = 0 by omega)] at q2 ⊢
    rw [eval_C] at q2
    rw [q2, C_1]
  rw [hq] at q3
  unfold polyIter at q3
  rw [map_one, Matrix.one_mulVec, sub_sub_cancel] at q3
  have := h4 rfl
  rw [q3] at this
  have h5 := congrFun this 0
  simp at h5

end H2Pack.PCG
