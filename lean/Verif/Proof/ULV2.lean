import Verif.Proof.ULV
import Mathlib.Data.Matrix.ColumnRowPartitioned
import Mathlib.Tactic.LinearCombination
import Mathlib.Tactic.FieldSimp

/-! # Elimination at one node -/

namespace H2Pack.ULV
open Matrix
open H2Pack.MV (Mat)

section
variable {K : Type} [Field K]

/-- Block elimination after an orthogonal change of basis. -/
theorem elim_core {ι κ : Type} [Fintype ι] [DecidableEq ι] [Fintype κ] [DecidableEq κ] (T11 : Matrix ι ι K) (T12 : Matrix ι κ K)
    (T21 : Matrix κ ι K) (T22 a b : Matrix κ κ K) (hab : a * T22 * b = 1) :
    fromBlocks 1 (-(T12 * b * a)) 0 a * fromBlocks T11 T12 T21 T22 * fromBlocks 1 0 (-(b * (a * T21))) b =
      fromBlocks (T11 - T12 * b * (a * T21)) 0 0 1 := by
  simp only [Matrix.fromBlocks_multiply, Matrix.one_mul, Matrix.mul_one, Matrix.zero_mul, Matrix.mul_zero, zero_add, add_zero]
  have h1 : T12 * b * a * T22 * b = T12 * b := by
    rw [Matrix.mul_assoc (T12 * b * a), Matrix.mul_assoc (T12 * b), ← Matrix.mul_assoc a, hab, Matrix.mul_one]
  congr 1
  · rw [Matrix.neg_mul, Matrix.neg_mul, Matrix.mul_neg, Matrix.add_mul, Matrix.neg_mul, ← Matrix.mul_assoc T12 b, ← Matrix.mul_assoc (T12 * b * a * T22), h1,
      Matrix.mul_assoc (T12 * b) a]
    abel
  · rw [Matrix.neg_mul, Matrix.add_mul, Matrix.neg_mul, h1]
    abel
  · rw [Matrix.mul_neg, ← Matrix.mul_assoc (a * T22), hab, Matrix.one_mul]
    abel

/-- What a node's step and the sweeps do, in matrix form. -/
structure NodeOk (n d : Nat) (tD Dm : Nat → Nat → K) (g h : Matrix (Ix n d) (Ix n d) K) (up down : (Nat → K) → Nat → K) : Prop where
  elim : g * mat n d tD * h = fromBlocks (mf n n Dm) 0 0 1
  up : ∀ (x : Nat → K) (i : Ix n d), up x (pos i) = (g *ᵥ fun j => x (pos j)) i
  down : ∀ (x : Nat → K) (i : Ix n d), down x (pos i) = (h *ᵥ fun j => x (pos j)) i

/-- What becomes of the basis of a node. -/
structure BasisOk (n d : Nat) (tU Um : Nat → Nat → K) (g h : Matrix (Ix n d) (Ix n d) K) : Prop where
  left : g * colm n d n tU = fromRows (mf n n Um) 0
  right : hᵀ * colm n d n tU = fromRows (mf n n Um) 0

/-- What is needed of `x ↦ log |x|`. -/
structure LogLike (lg : K → K) : Prop where
  one : lg 1 = 0
  neg : lg (-1) = 0
  mul : ∀ x y, x ≠ 0 → y ≠ 0 → lg (x * y) = lg x + lg y

theorem LogLike.sign {lg : K → K} (h : LogLike lg) {s p : K} (hs : s * s = 1) (hp : p ≠ 0) : lg (s * p) = lg p := by
  have h0 : s ≠ 0 := by rintro rfl; simp at hs
  rw [h.mul s p h0 hp]
  have : (s - 1) * (s + 1) = 0 := by ring_nf; rw [pow_two, hs]; ring
  rcases mul_eq_zero.1 this with e | e
  · rw [sub_eq_zero.1 e, h.one, zero_add]
  · rw [eq_neg_of_add_eq_zero_left e, h.neg, zero_add]

theorem mat_blocks (n d : Nat) (t : Nat → Nat → K) :
    mat n d t = fromBlocks (mf n n t) (mf n d fun i j => t i (n + j)) (mf d n fun i j => t (n + i) j) (mf d d fun i j => t (n + i) (n + j)) := by
  ext (i | i) (j | j) <;> rfl

theorem mat_orth {n d : Nat} {Q : Nat → Nat → K}
    (h : ∀ i < n + d, ∀ j < n + d, ∑ t ∈ Finset.range (n + d), Q t i * Q t j = if i = j then 1 else 0) : (mat n d Q)ᵀ * mat n d Q = 1 := by
  ext i j
  rw [Matrix.mul_apply]
  simp only [transpose_apply, mat]
  rw [sum_pos (fun t => Q t (pos i) * Q t (pos j)), h _ (pos_lt i) _ (pos_lt j), Matrix.one_apply]
  by_cases e : i = j
  · rw [if_pos e, if_pos (by rw [e])]
  · rw [if_neg e, if_neg (fun h => e (pos_inj h))]

theorem mat_conj (n d : Nat) (Q D : Nat → Nat → K) :
    mat n d (mulR (n + d) (mulTL (n + d) Q D) Q) = (mat n d Q)ᵀ * mat n d D * mat n d Q := by
  ext i j
  rw [Matrix.mul_apply]
  simp only [mat, mulR, mulTL]
  rw [← sum_pos (fun t => (∑ s ∈ Finset.range (n + d), Q s (pos i) * D s t) * Q t (pos j))]
  apply Finset.sum_congr rfl
  intro t _
  rw [Matrix.mul_apply, ← sum_pos (fun s => Q s (pos i) * D s (pos t))]
  rfl

theorem basis_rows {n d : Nat} {Q tU A : Nat → Nat → K}
    (h : ∀ i < n + d, ∀ j < n, ∑ t ∈ Finset.range (n + d), Q t i * tU t j = if i ≤ j then A i j else 0) :
    (mat n d Q)ᵀ * colm n d n tU = fromRows (mf n n (upperPart n A).e) 0 := by
  ext i j
  rw [Matrix.mul_apply]
  simp only [transpose_apply, mat, colm]
  rw [sum_pos (fun t => Q t (pos i) * tU t j), h _ (pos_lt i) _ j.2]
  rcases i with i | i
  · rw [Matrix.fromRows_apply_inl]
    simp only [pos, mf, upperPart]
    by_cases e : (i : Nat) ≤ j
    · exact (if_pos e).trans (if_neg (by omega)).symm
    · exact (if_neg e).trans (if_pos (by omega)).symm
  · rw [Matrix.fromRows_apply_inr]
    have := j.2
    exact if_neg (by simp only [pos]; omega)

/-- The two triangular factors with the change of basis. -/
theorem basis_ok {n d : Nat} {Q : Matrix (Ix n d) (Ix n d) K} {tU Um : Nat → Nat → K} (hQ : Qᵀ * colm n d n tU = fromRows (mf n n Um) 0)
    (C : Matrix (Fin n) (Fin d) K) (a : Matrix (Fin d) (Fin d) K) (F : Matrix (Fin d) (Fin n) K) (b : Matrix (Fin d) (Fin d) K) :
    BasisOk n d tU Um (fromBlocks 1 C 0 a * Qᵀ) (Q * fromBlocks 1 0 F b) := by
  have key : ∀ (X : Matrix (Fin n) (Fin d) K) (Y : Matrix (Fin d) (Fin d) K),
      fromBlocks (1 : Matrix (Fin n) (Fin n) K) X (0 : Matrix (Fin d) (Fin n) K) Y * fromRows (mf n n Um) (0 : Matrix (Fin d) (Fin n) K) = fromRows (mf n n Um) 0 := by
    intro X Y
    rw [Matrix.fromBlocks_mul_fromRows]
    simp
  constructor
  · rw [Matrix.mul_assoc, hQ, key]
  · rw [Matrix.transpose_mul, Matrix.mul_assoc, hQ, Matrix.fromBlocks_transpose, Matrix.transpose_one, Matrix.transpose_zero, key]

theorem det_gh {n d : Nat} {Q : Matrix (Ix n d) (Ix n d) K} (hQ : Qᵀ * Q = 1) (C : Matrix (Fin n) (Fin d) K) (a : Matrix (Fin d) (Fin d) K)
    (F : Matrix (Fin d) (Fin n) K) (b : Matrix (Fin d) (Fin d) K) :
    (fromBlocks 1 C 0 a * Qᵀ).det * (Q * fromBlocks 1 0 F b).det = a.det * b.det := by
  have h := congrArg Matrix.det hQ
  rw [Matrix.det_mul, Matrix.det_one, Matrix.det_transpose] at h
  rw [Matrix.det_mul, Matrix.det_mul, Matrix.det_transpose, Matrix.det_fromBlocks_zero₂₁, Matrix.det_fromBlocks_zero₁₂, Matrix.det_one, one_mul, one_mul]
  linear_combination a.det * b.det * h

/-- The matrix stored for later use is the one used in the factorization. -/
theorem applyQ_eq {Lp : Lapack K} (hL : Lp.Correct) (m n : Nat) (qr : (Nat → Nat → K) × (Nat → K)) {i j : Nat} (hi : i < m) (hj : j < m) :
    applyQ Lp m (packQ m n qr) i j = Lp.orm m n qr.1 qr.2 i j := by
  unfold applyQ packQ
  apply hL.ormCongr
  · intro i hi j hj
    dsimp only
    rw [if_pos hi]
  · intro j hj
    dsimp only
    rw [if_neg (by omega)]
  · exact hi
  · exact hj

theorem mulVec_pos {n d : Nat} (Q : Nat → Nat → K) (x : Nat → K) (i : Ix n d) :
    (mat n d Q *ᵥ fun j => x (pos j)) i = ∑ t ∈ Finset.range (n + d), Q (pos i) t * x t := by
  rw [Matrix.mulVec, dotProduct, ← sum_pos (fun t => Q (pos i) t * x t)]
  rfl

theorem mulVecT_pos {n d : Nat} (Q : Nat → Nat → K) (x : Nat → K) (i : Ix n d) :
    ((mat n d Q)ᵀ *ᵥ fun j => x (pos j)) i = ∑ t ∈ Finset.range (n + d), Q t (pos i) * x t := by
  rw [Matrix.mulVec, dotProduct, ← sum_pos (fun t => Q t (pos i) * x t)]
  rfl

/-- The local up sweep as a product. -/
theorem up_blocks {n d : Nat} {Q : Matrix (Ix n d) (Ix n d) K} {C : Matrix (Fin n) (Fin d) K} {a : Matrix (Fin d) (Fin d) K} {x : Nat → K}
    {b0 x2 y : Nat → K} (hb : ∀ i : Ix n d, b0 (pos i) = (Qᵀ *ᵥ fun j => x (pos j)) i)
    (hx2 : ∀ i : Fin d, x2 i = (a *ᵥ fun j : Fin d => b0 (n + j)) i)
    (hy1 : ∀ i : Fin n, y i = b0 i - (C *ᵥ fun j : Fin d => x2 j) i) (hy2 : ∀ i : Fin d, y (n + i) = x2 i) (i : Ix n d) :
    y (pos i) = ((fromBlocks 1 (-(C * a)) 0 a * Qᵀ) *ᵥ fun j => x (pos j)) i := by
  have e2 : (fun j : Fin d => x2 j) = a *ᵥ fun j : Fin d => b0 (n + j) := funext hx2
  have eq : (Qᵀ *ᵥ fun j => x (pos j)) = Sum.elim (fun j : Fin n => b0 j) (fun j : Fin d => b0 (n + j)) := by
    funext i
    rw [← hb i]
    rcases i with i | i <;> rfl
  rw [← Matrix.mulVec_mulVec, eq, Matrix.fromBlocks_mulVec]
  rcases i with i | i
  · simp only [Sum.elim_inl, Sum.elim_comp_inl, Sum.elim_comp_inr, pos]
    rw [hy1 i, e2, Matrix.one_mulVec, Pi.add_apply, Matrix.neg_mulVec, Pi.neg_apply, ← Matrix.mulVec_mulVec]
    ring
  · simp only [Sum.elim_inr, Sum.elim_comp_inl, Sum.elim_comp_inr, pos]
    rw [hy2 i, hx2 i, Matrix.zero_mulVec, zero_add]

/-- The local down sweep as a product. -/
theorem down_blocks {n d : Nat} {Q : Matrix (Ix n d) (Ix n d) K} {F : Matrix (Fin d) (Fin n) K} {b : Matrix (Fin d) (Fin d) K} {x : Nat → K}
    {b2 x2 x0 y : Nat → K} (hb2 : ∀ i : Fin d, b2 i = x (n + i) - (F *ᵥ fun j : Fin n => x j) i)
    (hx2 : ∀ i : Fin d, x2 i = (b *ᵥ fun j : Fin d => b2 j) i)
    (hx1 : ∀ i : Fin n, x0 i = x i) (hx0 : ∀ i : Fin d, x0 (n + i) = x2 i)
    (hy : ∀ i : Ix n d, y (pos i) = (Q *ᵥ fun j => x0 (pos j)) i) (i : Ix n d) :
    y (pos i) = ((Q * fromBlocks 1 0 (-(b * F)) b) *ᵥ fun j => x (pos j)) i := by
  rw [hy i, ← Matrix.mulVec_mulVec]
  congr 2
  funext i
  have eq : (fun j : Ix n d => x (pos j)) = Sum.elim (fun j : Fin n => x j) (fun j : Fin d => x (n + j)) := by
    funext i
    rcases i with i | i <;> rfl
  have e2 : (fun j : Fin d => b2 j) = (fun j : Fin d => x (n + j)) - F *ᵥ fun j : Fin n => x j := funext hb2
  rw [eq, Matrix.fromBlocks_mulVec]
  rcases i with i | i
  · simp only [Sum.elim_inl, Sum.elim_comp_inl, Sum.elim_comp_inr, pos]
    rw [hx1 i, Matrix.one_mulVec, Matrix.zero_mulVec, add_zero]
  · simp only [Sum.elim_inr, Sum.elim_comp_inl, Sum.elim_comp_inr, pos]
    rw [hx0 i, hx2 i, e2, Matrix.mulVec_sub, Matrix.neg_mulVec, Matrix.mulVec_mulVec, Pi.add_apply, Pi.neg_apply, Pi.sub_apply]
    ring

/-- The record written for a node. -/
def Step.toFac (s : Step K) (idx : List Nat) : NodeFac K := ⟨s.ls, idx, s.pLen, s.p, s.q, s.l⟩

/-- LU below the root. -/
theorem luStep_ok {Lp : Lapack K} (hL : Lp.Correct) (lg : K → K) (tU tD : Mat K) {n d : Nat} (hn : tU.ncol = n) (hm : tU.nrow = n + d)
    (hinfo : (luStep Lp lg tU tD).info = 0) (idx : List Nat) :
    ∃ g h : Matrix (Ix n d) (Ix n d) K,
      NodeOk n d tD.e (deref (luStep Lp lg tU tD).dm).e g h (luUpLocal Lp false ((luStep Lp lg tU tD).toFac idx))
        (luDownLocal Lp false ((luStep Lp lg tU tD).toFac idx)) ∧
      BasisOk n d tU.e (deref (luStep Lp lg tU tD).um).e g h ∧
      ∃ δ, g.det * h.det * δ = 1 ∧ (LogLike lg → (luStep Lp lg tU tD).ld = lg δ) := by
  obtain ⟨r, c, u⟩ := tU
  obtain ⟨r', c', D⟩ := tD
  dsimp only at hn hm
  subst c r
  have hlt : ∀ k, (n + k < n) = False := fun k => eq_false (by omega)
  unfold luStep at *
  dsimp only at *
  simp only [Nat.add_sub_cancel_left] at hinfo ⊢
  generalize hqr : Lp.geqrf (n + d) n u = qr at *
  generalize hQ : Lp.orm (n + d) n qr.1 qr.2 = Q at *
  have horth : ∀ i < n + d, ∀ j < n + d, ∑ t ∈ Finset.range (n + d), Q t i * Q t j = if i = j then 1 else 0 := by
    have := hL.orth (n + d) n u (by omega)
    rw [hqr, hQ] at this
    exact this
  have hQU : ∀ i < n + d, ∀ j < n, ∑ t ∈ Finset.range (n + d), Q t i * u t j = if i ≤ j then qr.1 i j else 0 := by
    have := hL.qr (n + d) n u (by omega)
    rw [hqr, hQ] at this
    exact this
  have hconj := mat_conj n d Q D
  generalize ht : mulR (n + d) (mulTL (n + d) Q D) Q = t at *
  have hpiv := hL.piv d (fun i j => t (n + i) (n + j))
  have hlu := hL.lu d (fun i j => t (n + i) (n + j))
  have hluI := hL.luInfo d (fun i j => t (n + i) (n + j))
  generalize Lp.getrf d (fun i j => t (n + i) (n + j)) = f at *
  have hdiag : ∀ k < d, f.2.2 k k ≠ 0 := by
    by_cases h0 : 0 < d
    · rw [if_pos h0] at hinfo
      exact hluI.1 hinfo
    · intro k hk; omega
  obtain ⟨hperm, hint⟩ := permOf_spec d f.2.1 hpiv (fun i j => t (n + i) (n + j))
  generalize permOf d f.2.1 = perm at *
  generalize hlude : f.2.2 = lu at *
  -- the factors
  have hfac : permM K d perm * mf d d (fun i j => t (n + i) (n + j)) = lowM true d lu * upM d lu := by
    rw [permM_mul hperm]
    ext i j
    simp only [mf]
    rw [← hint, hlu _ i.2 _ j.2, Matrix.mul_apply, Finset.sum_range]
    apply Finset.sum_congr rfl
    intro s _
    simp only [lowM, upM]
    by_cases h1 : (s : Nat) < i
    · rw [if_pos h1, if_pos h1]
    · rw [if_neg h1, if_neg h1]
      by_cases h2 : i = s
      · rw [if_pos h2, if_pos (by rw [h2])]; rfl
      · rw [if_neg h2, if_neg (fun e => h2 (Fin.ext e.symm))]
  have hLu := isUnit_lowM (K := K) true d lu (by simp)
  have hUu := isUnit_upM d lu hdiag
  set a := (lowM true d lu)⁻¹ * permM K d perm with ha
  set b := (upM d lu)⁻¹ with hb
  have hab : a * mf d d (fun i j => t (n + i) (n + j)) * b = 1 := by
    rw [ha, Matrix.mul_assoc (lowM true d lu)⁻¹, hfac, ← Matrix.mul_assoc, Matrix.nonsing_inv_mul _ hLu, Matrix.one_mul, Matrix.mul_nonsing_inv _ hUu]
  have hF : mf d n (fun i j => fsub true lu (fun r => t (n + perm r) j) i) = a * mf d n (fun i j => t (n + i) j) := by
    rw [fsub_cols true d n lu (fun r j => t (n + perm r) j) (by simp), ha, Matrix.mul_assoc, permM_mul hperm (fun i j => t (n + i) j)]
  have hC : mf n d (fun i j => fsub false (fun r c => lu c r) (fun c => t i (n + c)) j) = mf n d (fun i j => t i (n + j)) * b :=
    fsub_rows n d lu (fun i c => t i (n + c)) hdiag
  have hQm := mat_orth horth
  refine ⟨fromBlocks 1 (-(mf n d (fun i j => t i (n + j)) * b * a)) 0 a * (mat n d Q)ᵀ,
    mat n d Q * fromBlocks 1 0 (-(b * (a * mf d n (fun i j => t (n + i) j)))) b, ⟨?_, ?_, ?_⟩, ?_, ?_⟩
  · -- elimination
    rw [← Matrix.mul_assoc, Matrix.mul_assoc _ _ (mat n d D), Matrix.mul_assoc _ _ (mat n d Q), ← hconj, mat_blocks n d t, elim_core _ _ _ _ _ _ hab]
    congr 1
    rw [← hC, ← hF]
    ext i j
    rw [Matrix.sub_apply, Matrix.mul_apply]
    simp only [mf, deref, Option.getD_some]
    rw [Finset.sum_range]
  · -- up sweep
    intro x i
    rw [← hC]
    refine up_blocks (y := luUpLocal Lp false _ x) (Q := mat n d Q) (C := mf n d (fun i j => fsub false (fun r c => lu c r) (fun c => t i (n + c)) j)) (a := a) (x := x)
      (b0 := fun i => ∑ t ∈ Finset.range (n + d), applyQ Lp (n + d) (packQ (n + d) n qr) t i * x t) ?_ ?_ ?_ ?_ i
      (x2 := fun i => fsub true lu (fun k => ∑ t ∈ Finset.range (n + d), applyQ Lp (n + d) (packQ (n + d) n qr) t (n + perm k) * x t) i)
    · intro i
      rw [mulVecT_pos]
      apply Finset.sum_congr rfl
      intro s hs
      rw [applyQ_eq hL _ _ _ (Finset.mem_range.1 hs) (pos_lt i), hQ]
    · intro i
      beta_reduce
      rw [fsub_inv true d lu _ (by simp) i, ha, ← Matrix.mulVec_mulVec]
      congr 2
      funext j
      rw [permM_mulVec hperm (fun k => ∑ t ∈ Finset.range (n + d), applyQ Lp (n + d) (packQ (n + d) n qr) t (n + k) * x t)]
    · intro i
      unfold luUpLocal Step.toFac
      dsimp only
      simp only [Nat.add_sub_cancel_left, hlt, Bool.false_eq_true, if_false]
      rw [if_pos i.2]
      congr 1
      rw [Matrix.mulVec, dotProduct, Finset.sum_range]
      apply Finset.sum_congr rfl
      intro s _
      simp only [mf]
      rw [if_pos i.2]
    · intro i
      unfold luUpLocal Step.toFac
      dsimp only
      simp only [Nat.add_sub_cancel_left, hlt, Bool.false_eq_true, if_false]
  · -- down sweep
    intro x i
    rw [← hF]
    refine down_blocks (y := luDownLocal Lp false _ x) (Q := mat n d Q) (F := mf d n (fun i j => fsub true lu (fun r => t (n + perm r) j) i)) (b := b) (x := x)
      (b2 := fun i => x (n + i) - ∑ s ∈ Finset.range n, fsub true lu (fun r => t (n + perm r) s) i * x s)
      (x2 := fun i => bsub d lu (fun i => x (n + i) - ∑ s ∈ Finset.range n, fsub true lu (fun r => t (n + perm r) s) i * x s) i)
      (x0 := fun k => if k < n then x k else bsub d lu (fun i => x (n + i) - ∑ s ∈ Finset.range n, fsub true lu (fun r => t (n + perm r) s) i * x s) (k - n))
      ?_ ?_ ?_ ?_ ?_ i
    · intro i
      rw [Matrix.mulVec, dotProduct, Finset.sum_range]
      rfl
    · intro i
      beta_reduce
      rw [bsub_inv d lu _ hdiag i]
    · intro i; beta_reduce; rw [if_pos i.2]
    · intro i; simp
    · intro i
      rw [mulVec_pos Q (fun k => if k < n then x k else bsub d lu (fun i => x (n + i) - ∑ s ∈ Finset.range n, fsub true lu (fun r => t (n + perm r) s) i * x s) (k - n)) i]
      unfold luDownLocal Step.toFac
      dsimp only
      simp only [Nat.add_sub_cancel_left, hlt, Bool.false_eq_true, if_false]
      apply Finset.sum_congr rfl
      intro s hs
      rw [applyQ_eq hL _ _ _ (pos_lt i) (Finset.mem_range.1 hs), hQ]
      congr 1
      by_cases h1 : s < n
      · rw [if_pos h1, if_pos h1]
      · rw [if_neg h1, if_neg h1]
        congr 1
        funext i
        congr 1
        apply Finset.sum_congr rfl
        intro s hs
        rw [if_pos (Finset.mem_range.1 hs)]
  · exact basis_ok (basis_rows hQU) _ _ _ _
  · -- determinants
    have hP := congrArg Matrix.det (permM_orth (K := K) hperm)
    rw [Matrix.det_mul, Matrix.det_one, Matrix.det_transpose] at hP
    have hne : diagProd d lu ≠ 0 := by
      rw [diagProd_eq, Finset.prod_ne_zero_iff]
      intro i _; exact hdiag i i.2
    refine ⟨(permM K d perm).det * diagProd d lu, ?_, ?_⟩
    · rw [det_gh hQm, ha, hb, Matrix.det_mul, Matrix.det_nonsing_inv, Matrix.det_nonsing_inv, det_lowM, det_upM, ← diagProd_eq]
      simp only [if_true, Finset.prod_const_one, Ring.inverse_one, one_mul, Ring.inverse_eq_inv']
      rw [mul_mul_mul_comm, hP, one_mul, inv_mul_cancel₀ hne]
    · intro hlg
      rw [hlg.sign hP hne]
      by_cases h0 : 0 < d
      · rw [if_pos h0]
      · rw [if_neg h0]
        have : d = 0 := by omega
        subst this
        exact hlg.one.symm


/-- The LU factorization of a square matrix, as two inverses. -/
theorem lu_factor {Lp : Lapack K} (hL : Lp.Correct) {d : Nat} {T : Nat → Nat → K} (hinfo : (Lp.getrf d T).1 = 0) :
    IsPerm d (permOf d (Lp.getrf d T).2.1) ∧ (∀ k < d, (Lp.getrf d T).2.2 k k ≠ 0) ∧
    ((lowM true d (Lp.getrf d T).2.2)⁻¹ * permM K d (permOf d (Lp.getrf d T).2.1)) * mf d d T * (upM d (Lp.getrf d T).2.2)⁻¹ = 1 ∧
    ∃ s : K, s * s = 1 ∧
      ((lowM true d (Lp.getrf d T).2.2)⁻¹ * permM K d (permOf d (Lp.getrf d T).2.1)).det * ((upM d (Lp.getrf d T).2.2)⁻¹).det *
        (s * diagProd d (Lp.getrf d T).2.2) = 1 := by
  have hpiv := hL.piv d T
  have hlu := hL.lu d T
  have hdiag := (hL.luInfo d T).1 hinfo
  generalize Lp.getrf d T = f at *
  obtain ⟨hperm, hint⟩ := permOf_spec d f.2.1 hpiv T
  generalize permOf d f.2.1 = perm at *
  generalize hlude : f.2.2 = lu at *
  have hfac : permM K d perm * mf d d T = lowM true d lu * upM d lu := by
    rw [permM_mul hperm]
    ext i j
    simp only [mf]
    rw [← hint, hlu _ i.2 _ j.2, Matrix.mul_apply, Finset.sum_range]
    apply Finset.sum_congr rfl
    intro s _
    simp only [lowM, upM]
    by_cases h1 : (s : Nat) < i
    · rw [if_pos h1, if_pos h1]
    · rw [if_neg h1, if_neg h1]
      by_cases h2 : i = s
      · rw [if_pos h2, if_pos (by rw [h2])]; rfl
      · rw [if_neg h2, if_neg (fun e => h2 (Fin.ext e.symm))]
  have hLu := isUnit_lowM (K := K) true d lu (by simp)
  have hUu := isUnit_upM d lu hdiag
  have hP := congrArg Matrix.det (permM_orth (K := K) hperm)
  rw [Matrix.det_mul, Matrix.det_one, Matrix.det_transpose] at hP
  have hne : diagProd d lu ≠ 0 := by
    rw [diagProd_eq, Finset.prod_ne_zero_iff]
    intro i _; exact hdiag i i.2
  refine ⟨hperm, hdiag, ?_, (permM K d perm).det, hP, ?_⟩
  · rw [Matrix.mul_assoc (lowM true d lu)⁻¹, hfac, ← Matrix.mul_assoc, Matrix.nonsing_inv_mul _ hLu, Matrix.one_mul, Matrix.mul_nonsing_inv _ hUu]
  · rw [Matrix.det_mul, Matrix.det_nonsing_inv, Matrix.det_nonsing_inv, det_lowM, det_upM, ← diagProd_eq]
    simp only [if_true, Finset.prod_const_one, Ring.inverse_one, one_mul, Ring.inverse_eq_inv']
    rw [mul_mul_mul_comm, hP, one_mul, inv_mul_cancel₀ hne]

theorem diagProd_ne {d : Nat} {l : Nat → Nat → K} (h : ∀ k < d, l k k ≠ 0) : diagProd d l ≠ 0 := by
  rw [diagProd_eq, Finset.prod_ne_zero_iff]
  intro i _; exact h i i.2

theorem mat_zero (d : Nat) (t : Nat → Nat → K) (i j : Fin d) : mat 0 d t (.inr i) (.inr j) = t i j := by
  simp [mat, pos]

/-- LU at the root. -/
theorem luRoot_ok {Lp : Lapack K} (hL : Lp.Correct) (lg : K → K) (tU tD : Mat K) {d : Nat} (hm : tU.nrow = d)
    (hinfo : (luRoot Lp lg tU tD).info = 0) (idx : List Nat) :
    ∃ g h : Matrix (Ix 0 d) (Ix 0 d) K,
      (∀ Dm, NodeOk 0 d tD.e Dm g h (luUpLocal Lp true ((luRoot Lp lg tU tD).toFac idx)) (luDownLocal Lp true ((luRoot Lp lg tU tD).toFac idx))) ∧
      ∃ δ, g.det * h.det * δ = 1 ∧ (LogLike lg → (luRoot Lp lg tU tD).ld = lg δ) := by
  obtain ⟨r, c, u⟩ := tU
  obtain ⟨r', c', D⟩ := tD
  dsimp only at hm
  subst r
  unfold luRoot at *
  dsimp only at *
  obtain ⟨hperm, hdiag, hab, s, hs, hdet⟩ := lu_factor hL hinfo
  generalize Lp.getrf d D = f at *
  generalize permOf d f.2.1 = perm at *
  generalize f.2.2 = lu at *
  set a := (lowM true d lu)⁻¹ * permM K d perm with ha
  set b := (upM d lu)⁻¹ with hb
  have hmb : mat 0 d D = fromBlocks 0 0 0 (mf d d D) := by
    ext (i | i) (j | j)
    · exact i.elim0
    · exact i.elim0
    · exact j.elim0
    · rw [mat_zero]; rfl
  refine ⟨fromBlocks 1 0 0 a * (1 : Matrix (Ix 0 d) (Ix 0 d) K)ᵀ, (1 : Matrix (Ix 0 d) (Ix 0 d) K) * fromBlocks 1 0 0 b, fun Dm => ⟨?_, ?_, ?_⟩, ?_⟩
  · rw [hmb, Matrix.transpose_one, Matrix.mul_one, Matrix.one_mul, Matrix.fromBlocks_multiply, Matrix.fromBlocks_multiply]
    simp only [Matrix.mul_zero, Matrix.zero_mul, zero_add, add_zero, hab]
    congr 1
    ext i j
    exact i.elim0
  · intro x i
    have h0 : (0 : Matrix (Fin 0) (Fin d) K) = -((0 : Matrix (Fin 0) (Fin d) K) * a) := by simp
    rw [h0]
    refine up_blocks (y := luUpLocal Lp true _ x) (Q := 1) (C := 0) (a := a) (x := x) (b0 := x)
      (x2 := fun i => fsub true lu (fun k => x (perm k)) i) ?_ ?_ ?_ ?_ i
    · intro i; rw [Matrix.transpose_one, Matrix.one_mulVec]
    · intro i
      beta_reduce
      simp only [Nat.zero_add]
      rw [fsub_inv true d lu _ (by simp) i, ha, ← Matrix.mulVec_mulVec]
      congr 2
      funext j
      rw [permM_mulVec hperm x]
    · intro i; exact i.elim0
    · intro i
      unfold luUpLocal Step.toFac
      dsimp only
      simp
  · intro x i
    have h0 : (0 : Matrix (Fin d) (Fin 0) K) = -(b * (0 : Matrix (Fin d) (Fin 0) K)) := by simp
    rw [h0]
    refine down_blocks (y := luDownLocal Lp true _ x) (Q := 1) (F := 0) (b := b) (x := x) (b2 := x) (x2 := fun i => bsub d lu x i) (x0 := fun i => bsub d lu x i) ?_ ?_ ?_ ?_ ?_ i
    · intro i; simp
    · intro i
      beta_reduce
      rw [bsub_inv d lu _ hdiag i]
    · intro i; exact i.elim0
    · intro i; simp
    · intro i
      rw [Matrix.one_mulVec]
      unfold luDownLocal Step.toFac
      dsimp only
      simp
  · refine ⟨s * diagProd d lu, ?_, fun hlg => ?_⟩
    · rw [det_gh (by simp)]
      exact hdet
    · rw [hlg.sign hs (diagProd_ne hdiag)]

/-- The Cholesky factorization of a square matrix. -/
theorem chol_factor {Lp : Lapack K} (hL : Lp.Correct) {d : Nat} {T l : Nat → Nat → K} (hinfo : (Lp.potrf d T).1 = 0)
    (hl : l = fun i j => if i < j then 0 else (Lp.potrf d T).2 i j) (hsym : ∀ i < d, ∀ j < d, T i j = T j i) :
    (∀ k < d, l k k ≠ 0) ∧ (lowM false d l)⁻¹ * mf d d T * (upM d (fun r c => l c r))⁻¹ = 1 ∧
      ((lowM false d l)⁻¹).det * ((upM d (fun r c => l c r))⁻¹).det * (diagProd d l * diagProd d l) = 1 := by
  have hch := hL.chol d T hinfo
  have hdiag : ∀ k < d, l k k ≠ 0 := by
    intro k hk
    rw [hl]
    simpa using hL.cholDiag d T hinfo k hk
  have hl' : ∀ i j, j ≤ i → (Lp.potrf d T).2 i j = l i j := by
    intro i j h
    rw [hl]
    simp only
    rw [if_neg (by omega)]
  clear hl
  have key : ∀ i < d, ∀ j ≤ i, ∑ t ∈ Finset.range (j + 1), l i t * l j t = T i j := by
    intro i hi j hj
    rw [← hch i hi j hj]
    apply Finset.sum_congr rfl
    intro t ht
    rw [Finset.mem_range] at ht
    rw [hl' i t (by omega), hl' j t (by omega)]
  have hlow : ∀ i t : Fin d, lowM false d l i t = if (t : Nat) ≤ i then l i t else 0 := by
    intro i t
    simp only [lowM]
    by_cases h : (t : Nat) < i
    · rw [if_pos h, if_pos (by omega)]
    · rw [if_neg h]
      by_cases e : i = t
      · subst e; simp
      · rw [if_neg e, if_neg (fun h' => e (Fin.ext (by omega)))]
  have hLL : mf d d T = lowM false d l * upM d (fun r c => l c r) := by
    rw [upM_eq]
    have key2 : ∀ i j : Fin d, (j : Nat) ≤ i → (lowM false d l * (lowM false d l)ᵀ) i j = T i j := by
      intro i j hij
      rw [← key i i.2 j hij, Matrix.mul_apply]
      simp only [transpose_apply, hlow]
      rw [← Finset.sum_range (fun t : Nat => (if t ≤ (i : Nat) then l i t else 0) * (if t ≤ (j : Nat) then l j t else 0))]
      rw [sum_upto j.2 _ (by intro t h1 h2; rw [if_neg (show ¬ t ≤ (j : Nat) by omega), mul_zero]), Finset.sum_range_succ]
      congr 1
      · apply Finset.sum_congr rfl
        intro t ht
        rw [Finset.mem_range] at ht
        rw [if_pos (by omega), if_pos (by omega)]
      · rw [if_pos hij, if_pos le_rfl]
    ext i j
    by_cases h : (j : Nat) ≤ i
    · exact (key2 i j h).symm
    · have h1 := key2 j i (by omega)
      have h2 : (lowM false d l * (lowM false d l)ᵀ)ᵀ = lowM false d l * (lowM false d l)ᵀ := by
        rw [Matrix.transpose_mul, Matrix.transpose_transpose]
      change T i j = (lowM false d l * (lowM false d l)ᵀ) i j
      rw [hsym i i.2 j j.2, ← h1]
      exact congrFun (congrFun h2 i) j
  have hLu := isUnit_lowM false d l (fun _ => hdiag)
  have hUu := isUnit_upM d (fun r c => l c r) hdiag
  have hne := diagProd_ne hdiag
  refine ⟨hdiag, ?_, ?_⟩
  · rw [hLL, ← Matrix.mul_assoc, Matrix.nonsing_inv_mul _ hLu, Matrix.one_mul, Matrix.mul_nonsing_inv _ hUu]
  · rw [Matrix.det_nonsing_inv, Matrix.det_nonsing_inv, det_lowM, det_upM, ← diagProd_eq]
    simp only [Bool.false_eq_true, if_false, Ring.inverse_eq_inv', ← diagProd_eq]
    field_simp

/-- A function of two numbers is symmetric below a bound. -/
def Sym (m : Nat) (t : Nat → Nat → K) : Prop := ∀ i < m, ∀ j < m, t i j = t j i

theorem conj_sym {m : Nat} {Q D : Nat → Nat → K} (h : Sym m D) : Sym m (mulR m (mulTL m Q D) Q) := by
  intro i hi j hj
  unfold mulR mulTL
  simp only [Finset.sum_mul]
  rw [Finset.sum_comm]
  apply Finset.sum_congr rfl
  intro s hs
  apply Finset.sum_congr rfl
  intro t ht
  rw [h s (Finset.mem_range.1 hs) t (Finset.mem_range.1 ht)]
  ring

/-- Cholesky below the root. -/
theorem cholStep_ok {Lp : Lapack K} (hL : Lp.Correct) (lg : K → K) (tU tD : Mat K) {n d : Nat} (hn : tU.ncol = n) (hm : tU.nrow = n + d)
    (hsym : Sym (n + d) tD.e) (hinfo : (cholStep Lp lg tU tD).info = 0) (idx : List Nat) :
    ∃ g h : Matrix (Ix n d) (Ix n d) K,
      NodeOk n d tD.e (deref (cholStep Lp lg tU tD).dm).e g h (cholUpLocal Lp ((cholStep Lp lg tU tD).toFac idx))
        (cholDownLocal Lp ((cholStep Lp lg tU tD).toFac idx)) ∧
      BasisOk n d tU.e (deref (cholStep Lp lg tU tD).um).e g h ∧
      ∃ δ, g.det * h.det * δ = 1 ∧ (LogLike lg → (cholStep Lp lg tU tD).ld = lg δ) := by
  obtain ⟨r, c, u⟩ := tU
  obtain ⟨r', c', D⟩ := tD
  dsimp only at hn hm hsym
  subst c r
  have hlt : ∀ k, (n + k < n) = False := fun k => eq_false (by omega)
  unfold cholStep at *
  dsimp only at *
  simp only [Nat.add_sub_cancel_left] at hinfo ⊢
  generalize hqr : Lp.geqrf (n + d) n u = qr at *
  generalize hQ : Lp.orm (n + d) n qr.1 qr.2 = Q at *
  have horth : ∀ i < n + d, ∀ j < n + d, ∑ t ∈ Finset.range (n + d), Q t i * Q t j = if i = j then 1 else 0 := by
    have := hL.orth (n + d) n u (by omega)
    rw [hqr, hQ] at this
    exact this
  have hQU : ∀ i < n + d, ∀ j < n, ∑ t ∈ Finset.range (n + d), Q t i * u t j = if i ≤ j then qr.1 i j else 0 := by
    have := hL.qr (n + d) n u (by omega)
    rw [hqr, hQ] at this
    exact this
  have hconj := mat_conj n d Q D
  have htsym := conj_sym (Q := Q) hsym
  generalize ht : mulR (n + d) (mulTL (n + d) Q D) Q = t at *
  have hd0 : d = 0 ∨ (Lp.potrf d (fun i j => t (n + i) (n + j))).1 = 0 := by
    by_cases h0 : 0 < d
    · rw [if_pos h0] at hinfo
      exact Or.inr hinfo
    · left; omega
  generalize hl : (fun i j => if i < j then 0 else (Lp.potrf d (fun i j => t (n + i) (n + j))).2 i j) = l at *
  have hfac : (∀ k < d, l k k ≠ 0) ∧ (lowM false d l)⁻¹ * mf d d (fun i j => t (n + i) (n + j)) * (upM d (fun r c => l c r))⁻¹ = 1 ∧
      ((lowM false d l)⁻¹).det * ((upM d (fun r c => l c r))⁻¹).det * (diagProd d l * diagProd d l) = 1 := by
    rcases hd0 with h0 | h0
    · subst h0
      refine ⟨by omega, ?_, ?_⟩
      · ext i; exact i.elim0
      · simp [diagProd]
    · exact chol_factor hL h0 hl.symm (fun i hi j hj => htsym _ (by omega) _ (by omega))
  have e1 : ∀ i j, (if i < j then 0 else (Lp.potrf d (fun i j => t (n + i) (n + j))).2 i j) = l i j := fun i j => congrFun (congrFun hl i) j
  simp only [e1]
  obtain ⟨hdiag, hab, hdet⟩ := hfac
  set a := (lowM false d l)⁻¹ with ha
  set b := (upM d (fun r c => l c r))⁻¹ with hb
  have hF : mf d n (fun i j => fsub false l (fun r => t (n + r) j) i) = a * mf d n (fun i j => t (n + i) j) :=
    fsub_cols false d n l (fun r j => t (n + r) j) (fun _ => hdiag)
  have hC : mf n d (fun i j => fsub false l (fun r => t (n + r) i) j) = mf n d (fun i j => t i (n + j)) * b := by
    rw [hb, ← fsub_rows n d (fun r c => l c r) (fun i c => t i (n + c)) hdiag]
    ext i j
    simp only [mf]
    rw [fsub_inv false d l _ (fun _ => hdiag) j, fsub_inv false d l _ (fun _ => hdiag) j]
    congr 2
    funext r
    exact htsym _ (by have := r.2; omega) _ (by have := i.2; omega)
  have hQm := mat_orth horth
  refine ⟨fromBlocks 1 (-(mf n d (fun i j => t i (n + j)) * b * a)) 0 a * (mat n d Q)ᵀ,
    mat n d Q * fromBlocks 1 0 (-(b * (a * mf d n (fun i j => t (n + i) j)))) b, ⟨?_, ?_, ?_⟩, ?_, ?_⟩
  · -- elimination
    rw [← Matrix.mul_assoc, Matrix.mul_assoc _ _ (mat n d D), Matrix.mul_assoc _ _ (mat n d Q), ← hconj, mat_blocks n d t, elim_core _ _ _ _ _ _ hab]
    congr 1
    rw [← hC, ← hF]
    ext i j
    rw [Matrix.sub_apply, Matrix.mul_apply]
    simp only [mf, deref, Option.getD_some]
    rw [Finset.sum_range]
  · -- up sweep
    intro x i
    rw [← hC]
    refine up_blocks (y := cholUpLocal Lp _ x) (Q := mat n d Q) (C := mf n d (fun i j => fsub false l (fun r => t (n + r) i) j)) (a := a) (x := x)
      (b0 := fun i => ∑ t ∈ Finset.range (n + d), applyQ Lp (n + d) (packQ (n + d) n qr) t i * x t) ?_ ?_ ?_ ?_ i
      (x2 := fun i => fsub false l (fun k => ∑ t ∈ Finset.range (n + d), applyQ Lp (n + d) (packQ (n + d) n qr) t (n + k) * x t) i)
    · intro i
      rw [mulVecT_pos]
      apply Finset.sum_congr rfl
      intro s hs
      rw [applyQ_eq hL _ _ _ (Finset.mem_range.1 hs) (pos_lt i), hQ]
    · intro i
      beta_reduce
      rw [fsub_inv false d l _ (fun _ => hdiag) i, ha]
    · intro i
      unfold cholUpLocal Step.toFac
      dsimp only
      simp only [Nat.add_sub_cancel_left, hlt, if_false]
      rw [if_pos i.2]
      congr 1
      rw [Matrix.mulVec, dotProduct, Finset.sum_range]
      apply Finset.sum_congr rfl
      intro s _
      simp only [mf]
      rw [if_pos i.2]
    · intro i
      unfold cholUpLocal Step.toFac
      dsimp only
      simp only [Nat.add_sub_cancel_left, hlt, if_false]
  · -- down sweep
    intro x i
    rw [← hF]
    refine down_blocks (y := cholDownLocal Lp _ x) (Q := mat n d Q) (F := mf d n (fun i j => fsub false l (fun r => t (n + r) j) i)) (b := b) (x := x)
      (b2 := fun i => x (n + i) - ∑ s ∈ Finset.range n, fsub false l (fun r => t (n + r) s) i * x s)
      (x2 := fun i => bsub d (fun r c => l c r) (fun i => x (n + i) - ∑ s ∈ Finset.range n, fsub false l (fun r => t (n + r) s) i * x s) i)
      (x0 := fun k => if k < n then x k else bsub d (fun r c => l c r) (fun i => x (n + i) - ∑ s ∈ Finset.range n, fsub false l (fun r => t (n + r) s) i * x s) (k - n))
      ?_ ?_ ?_ ?_ ?_ i
    · intro i
      rw [Matrix.mulVec, dotProduct, Finset.sum_range]
      rfl
    · intro i
      beta_reduce
      rw [bsub_inv d (fun r c => l c r) _ hdiag i]
    · intro i; beta_reduce; rw [if_pos i.2]
    · intro i; simp
    · intro i
      rw [mulVec_pos Q (fun k => if k < n then x k else bsub d (fun r c => l c r) (fun i => x (n + i) - ∑ s ∈ Finset.range n, fsub false l (fun r => t (n + r) s) i * x s) (k - n)) i]
      unfold cholDownLocal Step.toFac
      dsimp only
      simp only [Nat.add_sub_cancel_left, hlt, if_false]
      apply Finset.sum_congr rfl
      intro s hs
      rw [applyQ_eq hL _ _ _ (pos_lt i) (Finset.mem_range.1 hs), hQ]
      congr 1
      by_cases h1 : s < n
      · rw [if_pos h1, if_pos h1]
      · rw [if_neg h1, if_neg h1]
        congr 1
        funext i
        congr 1
        apply Finset.sum_congr rfl
        intro s hs
        rw [if_pos (Finset.mem_range.1 hs)]
  · exact basis_ok (basis_rows hQU) _ _ _ _
  · refine ⟨diagProd d l * diagProd d l, ?_, ?_⟩
    · rw [det_gh hQm]
      exact hdet
    · intro hlg
      rw [hlg.mul _ _ (diagProd_ne hdiag) (diagProd_ne hdiag), ← two_mul]
      by_cases h0 : 0 < d
      · rw [if_pos h0]
      · rw [if_neg h0]
        have : d = 0 := by omega
        subst this
        rw [show diagProd 0 l = 1 from rfl, hlg.one, mul_zero]

theorem cholStep_sym (Lp : Lapack K) (lg : K → K) (tU tD : Mat K) (h : Sym tU.nrow tD.e) (hn : tU.ncol ≤ tU.nrow) :
    Sym tU.ncol (deref (cholStep Lp lg tU tD).dm).e := by
  have := conj_sym (Q := Lp.orm tU.nrow tU.ncol (Lp.geqrf tU.nrow tU.ncol tU.e).1 (Lp.geqrf tU.nrow tU.ncol tU.e).2) h
  intro i hi j hj
  unfold cholStep
  simp only [deref, Option.getD_some]
  rw [this i (by omega) j (by omega)]
  congr 1
  apply Finset.sum_congr rfl
  intro s _
  ring

/-- Cholesky at the root. -/
theorem cholRoot_ok {Lp : Lapack K} (hL : Lp.Correct) (lg : K → K) (tU tD : Mat K) {d : Nat} (hm : tU.nrow = d)
    (hsym : Sym d tD.e) (hinfo : (cholRoot Lp lg tU tD).info = 0) (idx : List Nat) :
    ∃ g h : Matrix (Ix 0 d) (Ix 0 d) K,
      (∀ Dm, NodeOk 0 d tD.e Dm g h (cholUpRootLocal ((cholRoot Lp lg tU tD).toFac idx)) (cholDownRootLocal ((cholRoot Lp lg tU tD).toFac idx))) ∧
      ∃ δ, g.det * h.det * δ = 1 ∧ (LogLike lg → (cholRoot Lp lg tU tD).ld = lg δ) := by
  obtain ⟨r, c, u⟩ := tU
  obtain ⟨r', c', D⟩ := tD
  dsimp only at hm hsym
  subst r
  unfold cholRoot at *
  dsimp only at *
  generalize hl : (fun i j => if i < j then 0 else (Lp.potrf d D).2 i j) = l at *
  obtain ⟨hdiag, hab, hdet⟩ := chol_factor hL hinfo hl.symm hsym
  set a := (lowM false d l)⁻¹ with ha
  set b := (upM d (fun r c => l c r))⁻¹ with hb
  have hmb : mat 0 d D = fromBlocks 0 0 0 (mf d d D) := by
    ext (i | i) (j | j)
    · exact i.elim0
    · exact i.elim0
    · exact j.elim0
    · rw [mat_zero]; rfl
  refine ⟨fromBlocks 1 0 0 a * (1 : Matrix (Ix 0 d) (Ix 0 d) K)ᵀ, (1 : Matrix (Ix 0 d) (Ix 0 d) K) * fromBlocks 1 0 0 b, fun Dm => ⟨?_, ?_, ?_⟩, ?_⟩
  · rw [hmb, Matrix.transpose_one, Matrix.mul_one, Matrix.one_mul, Matrix.fromBlocks_multiply, Matrix.fromBlocks_multiply]
    simp only [Matrix.mul_zero, Matrix.zero_mul, zero_add, add_zero, hab]
    congr 1
    ext i j
    exact i.elim0
  · intro x i
    have h0 : (0 : Matrix (Fin 0) (Fin d) K) = -((0 : Matrix (Fin 0) (Fin d) K) * a) := by simp
    rw [h0]
    refine up_blocks (y := cholUpRootLocal _ x) (Q := 1) (C := 0) (a := a) (x := x) (b0 := x)
      (x2 := fun i => fsub false l x i) ?_ ?_ ?_ ?_ i
    · intro i; rw [Matrix.transpose_one, Matrix.one_mulVec]
    · intro i
      beta_reduce
      simp only [Nat.zero_add]
      rw [fsub_inv false d l _ (fun _ => hdiag) i, ha]
    · intro i; exact i.elim0
    · intro i
      unfold cholUpRootLocal Step.toFac
      dsimp only
      simp
  · intro x i
    have h0 : (0 : Matrix (Fin d) (Fin 0) K) = -(b * (0 : Matrix (Fin d) (Fin 0) K)) := by simp
    rw [h0]
    refine down_blocks (y := cholDownRootLocal _ x) (Q := 1) (F := 0) (b := b) (x := x) (b2 := x) (x2 := fun i => bsub d (fun r c => l c r) x i)
      (x0 := fun i => bsub d (fun r c => l c r) x i) ?_ ?_ ?_ ?_ ?_ i
    · intro i; simp
    · intro i
      beta_reduce
      rw [bsub_inv d (fun r c => l c r) _ hdiag i]
    · intro i; exact i.elim0
    · intro i; simp
    · intro i
      rw [Matrix.one_mulVec]
      rfl
  · refine ⟨diagProd d l * diagProd d l, ?_, fun hlg => ?_⟩
    · rw [det_gh (by simp)]
      exact hdet
    · rw [hlg.mul _ _ (diagProd_ne hdiag) (diagProd_ne hdiag), ← two_mul]

end

end H2Pack.ULV
