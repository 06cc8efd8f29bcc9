import Verif.Proof.ULV10
import Mathlib.Analysis.SpecialFunctions.Log.Basic

/-! # C32, C33, C34: the ULV factorizations and solves -/

set_option linter.unusedSectionVars false

namespace H2Pack.ULV
open Matrix
open H2Pack.MV
open H2Pack.Part (Arr kids ClusterTree Desc)

section
variable {K : Type} [Field K] {R : Rep K} {W : Nat → Nat → Nat → K}

/-! ## The order of the user's vectors -/

/-- Rows of the tree and rows of the user's vectors. -/
theorem order_equiv (h : WF R) : ∃ e : Fin R.size ≃ Fin R.size, ∀ i < R.nPoint, ∀ a < R.kdim, ∀ r : Fin R.size, r.1 = i * R.kdim + a →
    (e r).1 = R.coordIdx i * R.kdim + a := by
  have P := pmtIdx_pair R h.perm (fun _ => 0, fun _ => 0)
  have hsz : R.size = R.nPoint * R.kdim := rfl
  have f1 : ∀ r : Fin R.size, (pmtIdx R (fun _ => 0, fun _ => 0)).1 r.1 < R.size := by
    intro r
    obtain ⟨i, hi, a, ha, e⟩ := row_split (n := R.nPoint) (kd := R.kdim) r.2
    rw [e, P.fwd i hi a ha]
    exact row_lt (perm_lt h.perm hi) ha
  have f2 : ∀ r : Fin R.size, (pmtIdx R (fun _ => 0, fun _ => 0)).2 r.1 < R.size := by
    intro r
    obtain ⟨p, hp, a, ha, e⟩ := row_split (n := R.nPoint) (kd := R.kdim) r.2
    obtain ⟨i, hi, rfl⟩ := perm_surj h.perm hp
    rw [e, P.bwd i hi a ha]
    exact row_lt hi ha
  refine ⟨⟨fun r => ⟨_, f1 r⟩, fun r => ⟨_, f2 r⟩, ?_, ?_⟩, ?_⟩
  · intro r
    obtain ⟨i, hi, a, ha, e⟩ := row_split (n := R.nPoint) (kd := R.kdim) r.2
    apply Fin.ext
    show (pmtIdx R _).2 ((pmtIdx R _).1 r.1) = r.1
    rw [e, P.fwd i hi a ha, P.bwd i hi a ha]
  · intro r
    obtain ⟨p, hp, a, ha, e⟩ := row_split (n := R.nPoint) (kd := R.kdim) r.2
    obtain ⟨i, hi, rfl⟩ := perm_surj h.perm hp
    apply Fin.ext
    show (pmtIdx R _).1 ((pmtIdx R _).2 r.1) = r.1
    rw [e, P.bwd i hi a ha, P.fwd i hi a ha]
  · intro i hi a ha r e
    show (pmtIdx R _).1 r.1 = _
    rw [e, P.fwd i hi a ha]

theorem represents_iff (h : WF R) (shift : K) : ∃ e : Fin R.size ≃ Fin R.size,
    (∀ i < R.nPoint, ∀ a < R.kdim, ∀ r : Fin R.size, r.1 = i * R.kdim + a → (e r).1 = R.coordIdx i * R.kdim + a) ∧
    ∀ A, Represents R W shift A ↔ A.submatrix e e = AllM R W shift := by
  obtain ⟨e, he⟩ := order_equiv h
  have hsz : R.size = R.nPoint * R.kdim := rfl
  refine ⟨e, he, fun A => ⟨fun hA => ?_, fun hA => ?_⟩⟩
  · ext r q
    obtain ⟨i, hi, a, ha, er⟩ := row_split (n := R.nPoint) (kd := R.kdim) r.2
    obtain ⟨j, hj, b, hb, eq⟩ := row_split (n := R.nPoint) (kd := R.kdim) q.2
    rw [Matrix.submatrix_apply, hA i hi a ha j hj b hb _ _ (he i hi a ha r er) (he j hj b hb q eq)]
    unfold AllM
    rw [er, eq]
  · intro i hi a ha j hj b hb r q er eq
    have h1 := congrFun (congrFun hA ⟨i * R.kdim + a, row_lt hi ha⟩) ⟨j * R.kdim + b, row_lt hj hb⟩
    rw [Matrix.submatrix_apply] at h1
    have e1 : e ⟨i * R.kdim + a, row_lt hi ha⟩ = r := Fin.ext ((he i hi a ha _ rfl).trans er.symm)
    have e2 : e ⟨j * R.kdim + b, row_lt hj hb⟩ = q := Fin.ext ((he j hj b hb _ rfl).trans eq.symm)
    rw [e1, e2] at h1
    exact h1

/-- There is exactly one such matrix. -/
theorem represents_unique (h : WF R) (W : Nat → Nat → Nat → K) (shift : K) : ∃! A, Represents R W shift A := by
  obtain ⟨e, _, hr⟩ := represents_iff (W := W) h shift
  refine ⟨(AllM R W shift).submatrix e.symm e.symm, (hr _).2 ?_, fun A hA => ?_⟩
  · ext r q; simp
  · rw [← (hr A).1 hA]
    ext r q; simp

/-- From the tree's order to the user's. -/
theorem user_solution (h : WF R) {shift : K} {A : Matrix (Fin R.size) (Fin R.size) K} (hA : Represents R W shift A) (g : (Nat → Nat) × (Nat → Nat))
    {x b dp : Nat → K} (hs : AllM R W shift *ᵥ vec R (permuteFwd R g x dp) = vec R (permuteFwd R g b dp)) :
    (A *ᵥ fun q => x q) = fun r : Fin R.size => b r := by
  obtain ⟨e, he, hr⟩ := represents_iff (W := W) h shift
  have hfw : ∀ z : Nat → K, vec R (permuteFwd R g z dp) = (fun r : Fin R.size => z r) ∘ e := by
    intro z
    funext r
    have hsz : R.size = R.nPoint * R.kdim := rfl
    obtain ⟨i, hi, a, ha, er⟩ := row_split (n := R.nPoint) (kd := R.kdim) r.2
    show permuteFwd R g z dp r = z (e r)
    rw [he i hi a ha r er, er, (C26_permutations R h.perm g z dp dp).1 i hi a ha]
  rw [hfw, hfw, ← (hr A).1 hA, Matrix.submatrix_mulVec_equiv] at hs
  have := congrArg (fun f => f ∘ e.symm) hs
  simpa [Function.comp_assoc] using this

theorem user_det (h : WF R) {shift : K} {A : Matrix (Fin R.size) (Fin R.size) K} (hA : Represents R W shift A) : A.det = (AllM R W shift).det := by
  obtain ⟨e, _, hr⟩ := represents_iff (W := W) h shift
  rw [← (hr A).1 hA, Matrix.det_submatrix_equiv_self]

/-! ## C32 -/

/-- C32: the LU factorization runs to its end without error, whatever the order in which the nodes of a level are handled. -/
theorem C32_lu_factorize_returns {Lp : Lapack K} (hL : Lp.Correct) (lg : K → K) (H : HSS R) {getB getD : Nat → Nat → Option (Blk K)}
    (hb : Blocks R getB getD) (shift : K) {ord : Nat → List Nat} (ho : Order R ord) : ∃ st, luFactorize Lp lg R getB getD shift ord = .ok st := by
  obtain ⟨st, e, _⟩ := lu_facts (shift := shift) hL (lg := lg) H hb ho
  exact ⟨st, e⟩

/-- C32: after a successful LU factorization, the solve with `op = 3` returns `x` with `(A + shift I) x = b` in the order of the user's
vectors, and writes nothing else; the matrix is nonsingular. -/
theorem C32_lu_solve {Lp : Lapack K} (hL : Lp.Correct) (lg : K → K) (H : HSS R) (hW : Nested R W) {getB getD : Nat → Nat → Option (Blk K)}
    (hb : Blocks R getB getD) (shift : K) {ord up down : Nat → List Nat} (ho : Order R ord) (hu : Order R up) (hd : Order R down)
    {st : FSt K} (hst : luFactorize Lp lg R getB getD shift ord = .ok st) (hok : st.ok = true)
    {A : Matrix (Fin R.size) (Fin R.size) K} (hA : Represents R W shift A)
    (g : (Nat → Nat) × (Nat → Nat)) (dp dx b : Nat → K) :
    A.det ≠ 0 ∧ ∃ x, luSolve Lp R st.fac up down g dp dx 3 b = .ok (some x) ∧ (A *ᵥ fun q => x q) = (fun r : Fin R.size => b r) ∧
      ∀ k, R.nPoint * R.kdim ≤ k → x k = dx k := by
  obtain ⟨st', e, h1, _⟩ := lu_facts (shift := shift) hL (lg := lg) H hb ho
  rw [e] at hst
  cases hst
  obtain ⟨⟨X, hF⟩, hp⟩ := h1 hok
  have hs := lu_solves hF H hp hu hd g
  have hAB := sweeps H hW hF.ok hF.elim hu hd
  obtain ⟨x, e1, e2, e3⟩ := hs.result H.wf hAB dp dx b
  refine ⟨?_, x, e1, user_solution H.wf hA g e2, e3⟩
  rw [user_det H.wf hA]
  intro h0
  have := congrArg Matrix.det hAB
  rw [Matrix.det_mul, Matrix.det_mul, h0] at this
  simp at this

/-- C32: `op = 1` followed by `op = 2` gives what `op = 3` gives. -/
theorem C32_lu_two_steps {Lp : Lapack K} (hL : Lp.Correct) (lg : K → K) (H : HSS R) {getB getD : Nat → Nat → Option (Blk K)}
    (hb : Blocks R getB getD) (shift : K) {ord up down : Nat → List Nat} (ho : Order R ord) (hu : Order R up) (hd : Order R down)
    {st : FSt K} (hst : luFactorize Lp lg R getB getD shift ord = .ok st) (hok : st.ok = true)
    (g : (Nat → Nat) × (Nat → Nat)) (dp dp1 dp2 dx dx1 b : Nat → K) :
    ∃ y x, luSolve Lp R st.fac up down g dp1 dx1 1 b = .ok (some y) ∧ luSolve Lp R st.fac up down g dp2 dx 2 y = .ok (some x) ∧
      luSolve Lp R st.fac up down g dp dx 3 b = .ok (some x) := by
  obtain ⟨st', e, h1, _⟩ := lu_facts (shift := shift) hL (lg := lg) H hb ho
  rw [e] at hst
  cases hst
  obtain ⟨⟨X, hF⟩, hp⟩ := h1 hok
  exact (lu_solves hF H hp hu hd g).twoSteps H.wf dp dp1 dp2 dx dx1 b

/-! ## C33 -/

/-- C33: the Cholesky factorization runs to its end without error. -/
theorem C33_chol_factorize_returns {Lp : Lapack K} (hL : Lp.Correct) (lg : K → K) (H : HSS R) (hD : SymD R) {getB getD : Nat → Nat → Option (Blk K)}
    (hb : Blocks R getB getD) (shift : K) {ord : Nat → List Nat} (ho : Order R ord) : ∃ st, cholFactorize Lp lg R getB getD shift ord = .ok st := by
  obtain ⟨st, e, _⟩ := chol_facts (shift := shift) hL (lg := lg) H hD hb ho
  exact ⟨st, e⟩

/-- C33: after a successful Cholesky factorization, the solve with `op = 3` returns `x` with `(A + shift I) x = b`. -/
theorem C33_chol_solve {Lp : Lapack K} (hL : Lp.Correct) (lg : K → K) (H : HSS R) (hD : SymD R) (hW : Nested R W)
    {getB getD : Nat → Nat → Option (Blk K)} (hb : Blocks R getB getD) (shift : K) {ord up down : Nat → List Nat} (ho : Order R ord) (hu : Order R up)
    (hd : Order R down) {st : FSt K} (hst : cholFactorize Lp lg R getB getD shift ord = .ok st) (hok : st.ok = true)
    {A : Matrix (Fin R.size) (Fin R.size) K} (hA : Represents R W shift A)
    (g : (Nat → Nat) × (Nat → Nat)) (dp dx b : Nat → K) :
    A.det ≠ 0 ∧ ∃ x, cholSolve Lp R st.fac up down g dp dx 3 b = .ok (some x) ∧ (A *ᵥ fun q => x q) = (fun r : Fin R.size => b r) ∧
      ∀ k, R.nPoint * R.kdim ≤ k → x k = dx k := by
  obtain ⟨st', e, h1, _⟩ := chol_facts (shift := shift) hL (lg := lg) H hD hb ho
  rw [e] at hst
  cases hst
  obtain ⟨X, hF⟩ := h1 hok
  have hs := chol_solves hF H hu hd g
  have hAB := sweeps H hW hF.ok hF.elim hu hd
  obtain ⟨x, e1, e2, e3⟩ := hs.result H.wf hAB dp dx b
  refine ⟨?_, x, e1, user_solution H.wf hA g e2, e3⟩
  rw [user_det H.wf hA]
  intro h0
  have := congrArg Matrix.det hAB
  rw [Matrix.det_mul, Matrix.det_mul, h0] at this
  simp at this

/-- C33: `op = 1` followed by `op = 2` gives what `op = 3` gives. -/
theorem C33_chol_two_steps {Lp : Lapack K} (hL : Lp.Correct) (lg : K → K) (H : HSS R) (hD : SymD R) {getB getD : Nat → Nat → Option (Blk K)}
    (hb : Blocks R getB getD) (shift : K) {ord up down : Nat → List Nat} (ho : Order R ord) (hu : Order R up) (hd : Order R down)
    {st : FSt K} (hst : cholFactorize Lp lg R getB getD shift ord = .ok st) (hok : st.ok = true)
    (g : (Nat → Nat) × (Nat → Nat)) (dp dp1 dp2 dx dx1 b : Nat → K) :
    ∃ y x, cholSolve Lp R st.fac up down g dp1 dx1 1 b = .ok (some y) ∧ cholSolve Lp R st.fac up down g dp2 dx 2 y = .ok (some x) ∧
      cholSolve Lp R st.fac up down g dp dx 3 b = .ok (some x) := by
  obtain ⟨st', e, h1, _⟩ := chol_facts (shift := shift) hL (lg := lg) H hD hb ho
  rw [e] at hst
  cases hst
  obtain ⟨X, hF⟩ := h1 hok
  exact (chol_solves hF H hu hd g).twoSteps H.wf dp dp1 dp2 dx dx1 b

/-- Another `op` gives an error message and changes nothing. -/
theorem C32_other_op (Lp : Lapack K) (fac : Nat → Option (NodeFac K)) (up down : Nat → List Nat) (g : (Nat → Nat) × (Nat → Nat)) (dp dx b : Nat → K) {op : Nat}
    (hop : op = 0 ∨ 3 < op) : luSolve Lp R fac up down g dp dx op b = .ok none ∧ cholSolve Lp R fac up down g dp dx op b = .ok none := by
  unfold luSolve cholSolve
  rw [if_pos (by omega), if_pos (by omega)]
  exact ⟨rfl, rfl⟩

end

/-! ## C34 -/

section
variable {R : Rep ℝ} {W : Nat → Nat → Nat → ℝ}

theorem log_abs_like : LogLike (fun x : ℝ => Real.log |x|) :=
  ⟨by simp, by simp, fun x y hx hy => by rw [abs_mul, Real.log_mul (abs_ne_zero.2 hx) (abs_ne_zero.2 hy)]⟩

/-- C34: after a successful LU factorization, `HSS_logdet` is `log |det(A + shift I)|`. -/
theorem C34_lu_logdet {Lp : Lapack ℝ} (hL : Lp.Correct) (H : HSS R) (hW : Nested R W) {getB getD : Nat → Nat → Option (Blk ℝ)}
    (hb : Blocks R getB getD) (shift : ℝ) {ord : Nat → List Nat} (ho : Order R ord)
    {st : FSt ℝ} (hst : luFactorize Lp (fun x => Real.log |x|) R getB getD shift ord = .ok st) (hok : st.ok = true)
    {A : Matrix (Fin R.size) (Fin R.size) ℝ} (hA : Represents R W shift A) : A.det ≠ 0 ∧ st.logdet = Real.log |A.det| := by
  obtain ⟨st', e, h1, _⟩ := lu_facts (shift := shift) hL (lg := fun x => Real.log |x|) H hb ho
  rw [e] at hst
  cases hst
  obtain ⟨⟨X, hF⟩, _⟩ := h1 hok
  rw [user_det H.wf hA]
  exact hF.logdet H hW log_abs_like ho

/-- C34: the same for the Cholesky factorization. -/
theorem C34_chol_logdet {Lp : Lapack ℝ} (hL : Lp.Correct) (H : HSS R) (hD : SymD R) (hW : Nested R W) {getB getD : Nat → Nat → Option (Blk ℝ)}
    (hb : Blocks R getB getD) (shift : ℝ) {ord : Nat → List Nat} (ho : Order R ord)
    {st : FSt ℝ} (hst : cholFactorize Lp (fun x => Real.log |x|) R getB getD shift ord = .ok st) (hok : st.ok = true)
    {A : Matrix (Fin R.size) (Fin R.size) ℝ} (hA : Represents R W shift A) : A.det ≠ 0 ∧ st.logdet = Real.log |A.det| := by
  obtain ⟨st', e, h1, _⟩ := chol_facts (shift := shift) hL (lg := fun x => Real.log |x|) H hD hb ho
  rw [e] at hst
  cases hst
  obtain ⟨X, hF⟩ := h1 hok
  rw [user_det H.wf hA]
  exact hF.logdet H hW log_abs_like ho

end

end H2Pack.ULV
