import Verif.Props.FSAIBlock
import Verif.Props.PCG

/-! # C99 with C71: conjugate gradients with the block FSAI preconditioner (examples/SPDHSS-H2/pcg_tests.c:121-137) -/

namespace H2Pack.FSB
open H2Pack.ULV H2Pack.AFN H2Pack.PCG Finset Matrix

variable {F : In} {k : Nat} {nn : Nat → List Nat}

/-- The array of the entries of `v`. -/
def arr {m : Nat} (v : Fin m → ℝ) : Nat → ℝ := fun i => if h : i < m then v ⟨i, h⟩ else 0

/-- **C99** (solver).  The application of the preconditioner returns for every input, and conjugate gradients with it solve every positive definite system of the
size of the preconditioner to every tolerance in at most as many iterations as there are unknowns.  If the pattern has all smaller points and the matrix is the
kernel matrix plus the shift in the order of the user, one iteration is enough.  `e` is the permutation the arrays `fwd` and `bwd` hold. -/
theorem C99_pcg (hL : F.lp.Correct) (hD : F.lp.Definite) (hs : Solves F.solve) (hkd : 0 < F.kd) (hS : (target F).PosDef) (hP : Pattern F.n k nn)
    {nThread : Nat} (ht : 1 ≤ nThread) (ht' : nThread ≤ F.n * F.kd) (ev : Env) (h1 : ev.ordG.Perm (List.range (F.n * F.kd))) (h2 : ev.ordGT.Perm (List.range (F.n * F.kd)))
    (h3 : ev.ordC.Perm (List.range nThread)) (e : Equiv.Perm (Fin (F.n * F.kd))) (fwd bwd : Nat → Nat) (hb : ∀ i : Fin (F.n * F.kd), bwd i = e i)
    (hf : ∀ i : Fin (F.n * F.kd), fwd i = e.symm i) :
    ∃ Q, Returns (build F k nThread nn ev) (some Q) ∧
      ∀ (merge : List (List (Nat × ℝ)) → List (Nat × ℝ)), (∀ l, (merge l).Perm l.flatten) → ∀ fr0 lr0 y0 y1 x : Nat → ℝ,
        ∃ M : (Fin (F.n * F.kd) → ℝ) → Fin (F.n * F.kd) → ℝ,
          (∀ v, ∃ x', apply (F.n * F.kd) Q fwd bwd merge fr0 lr0 y0 y1 (arr v) x = .ok x' ∧ ∀ i : Fin (F.n * F.kd), x' i = M v i) ∧
          ∀ A : Matrix (Fin (F.n * F.kd)) (Fin (F.n * F.kd)) ℝ, A.PosDef → ∀ (b u0 p0 : Fin (F.n * F.kd) → ℝ) (tol : ℝ) (maxIter : Nat) (h0 : Nat → ℝ), 0 ≤ tol →
            F.n * F.kd ≤ maxIter →
            ∃ o, pcg ⟨fun v => A *ᵥ v, some M, b, u0, tol, maxIter⟩ p0 h0 = some o ∧ o.flag = 0 ∧ o.iter ≤ F.n * F.kd ∧
              norm2 (b - A *ᵥ o.x) ≤ norm2 b * tol ∧
              ((∀ i < F.n, ∀ j < i, j ∈ nn i) → (∀ i j, A i j = target F (e i) (e j)) → o.iter ≤ 1) := by
  obtain ⟨Q, G, a1, a2, a3⟩ := C99_block_fsai hL hD hs hkd hS hP ht ht' ev h1 h2 h3
  have hbl : ∀ r < F.n * F.kd, bwd r < F.n * F.kd := fun r hr => by rw [hb ⟨r, hr⟩]; exact (e _).2
  refine ⟨Q, a1, fun merge hm fr0 lr0 y0 y1 x => ?_⟩
  have hap : ∀ v : Fin (F.n * F.kd) → ℝ, ∃ x', apply (F.n * F.kd) Q fwd bwd merge fr0 lr0 y0 y1 (arr v) x = .ok x' ∧
      ∀ i : Fin (F.n * F.kd), x' i = ((Gᵀ * G).submatrix e e *ᵥ v) i := by
    intro v
    obtain ⟨x', b1, b2, -⟩ := a3 fwd bwd hbl merge hm fr0 lr0 y0 y1 (arr v) x
    refine ⟨x', b1, fun i => (b2 i i.2).trans ?_⟩
    have e1 : (fun c : Fin (F.n * F.kd) => arr v (fwd c)) = v ∘ e.symm := by
      funext c
      rw [hf c]
      exact dif_pos (e.symm c).2
    have e2 : (⟨bwd i, hbl i i.2⟩ : Fin (F.n * F.kd)) = e i := Fin.ext (hb i)
    rw [e1, e2, Matrix.submatrix_mulVec_equiv]
    rfl
  have hB : ((Gᵀ * G).submatrix e e).PosDef := (C99_spd a2).submatrix e.injective
  refine ⟨fun v => (Gᵀ * G).submatrix e e *ᵥ v, hap, fun A hA b u0 p0 tol maxIter h0 htol hmi => ?_⟩
  have hop : Operators ⟨fun v => A *ᵥ v, some fun v => (Gᵀ * G).submatrix e e *ᵥ v, b, u0, tol, maxIter⟩ A ((Gᵀ * G).submatrix e e) := ⟨fun v => rfl, fun v => rfl⟩
  obtain ⟨o, o1, o2, o3, -⟩ := C71_finite _ hop hA hB htol p0 h0 hmi
  obtain ⟨-, g, -⟩ := C70_flag _ A hop.1 p0 h0 o o1
  refine ⟨o, o1, o2, o3, g.1 o2, fun hfull hAe => ?_⟩
  have hn : 1 ≤ maxIter := le_trans (le_trans ht ht') hmi
  have hAt : A = (target F).submatrix e e := by ext i j; exact hAe i j
  have hSt : (target F)ᵀ = target F := by
    have := hS.isHermitian
    rwa [Matrix.IsHermitian, Matrix.conjTranspose_eq_transpose_of_trivial] at this
  have hBA : (Gᵀ * G).submatrix e e * A = 1 := by
    rw [hAt, Matrix.submatrix_mul_equiv, C99_exact a2 hSt fun r j hj => hfull _ (Nat.div_lt_of_lt_mul (lt_of_lt_of_eq r.2 (Nat.mul_comm _ _))) j hj, Matrix.submatrix_one_equiv]
  obtain ⟨o', p1, -, p3, -⟩ := C71_exact_precond _ hop hA hB htol p0 h0 hBA hn
  rw [o1] at p1
  cases p1
  exact p3

/-- A case: three points, two components, two threads, the points in reverse order for the user. -/
example : ∃ lp : Lapack ℝ, ∃ e : Equiv.Perm (Fin ((exIn lp).n * (exIn lp).kd)), e ≠ 1 ∧ (∀ i : Fin ((exIn lp).n * (exIn lp).kd), 5 - (i : Nat) = (e i : Nat)) ∧
    (∀ i : Fin ((exIn lp).n * (exIn lp).kd), 5 - (i : Nat) = (e.symm i : Nat)) ∧ lp.Correct ∧ lp.Definite ∧ Solves (exIn lp).solve ∧ (target (exIn lp)).PosDef ∧
    Pattern (exIn lp).n 3 (fun _ => [1, 0, 2]) ∧ (∀ i < (exIn lp).n, ∀ j < i, j ∈ [1, 0, 2]) ∧ ((target (exIn lp)).submatrix e e).PosDef := by
  obtain ⟨lp, hL, hD⟩ := H2Pack.ULV.lapack_exists
  refine ⟨lp, (Fin.revPerm : Equiv.Perm (Fin 6)), ?_, ?_, ?_, hL, hD, exIn_solves lp, exIn_posDef lp, ?_, ?_, (exIn_posDef lp).submatrix (Equiv.injective _)⟩
  · show (Fin.revPerm : Equiv.Perm (Fin 6)) ≠ 1
    decide
  · show ∀ i : Fin 6, 5 - (i : Nat) = (Fin.revPerm i : Fin 6)
    decide
  · show ∀ i : Fin 6, 5 - (i : Nat) = (Fin.revPerm.symm i : Fin 6)
    decide
  · show ∀ i < 3, _
    decide
  · show ∀ i < 3, _
    decide

end H2Pack.FSB
