import Verif.Proof.AFNP4
import Verif.Props.AFNPrecond

/-! # C69: the Nyström preconditioner -/

namespace H2Pack.AFN
open H2Pack.ULV Finset Matrix

theorem order_perm {n : Nat} {perm : Nat → Nat} (h : IsOrder n perm) : ∃ e : Fin n ≃ Fin n, ∀ s, ((e s : Fin n) : Nat) = perm s := by
  obtain ⟨h1, h2⟩ := order_facts h
  let f : Fin n → Fin n := fun s => ⟨perm s, h1 _ s.2⟩
  have hf : Function.Injective f := fun s t hst => Fin.ext (h2 _ s.2 _ t.2 (congrArg Fin.val hst))
  exact ⟨Equiv.ofBijective f ((Fintype.bijective_iff_injective_and_card f).2 ⟨hf, rfl⟩), fun s => rfl⟩

theorem FunOf.reorder {n : Nat} {h : ℝ → ℝ} {A B : Matrix (Fin n) (Fin n) ℝ} (e : Fin n ≃ Fin n) (hB : FunOf h (A.submatrix e e) B) :
    FunOf h A (B.submatrix e.symm e.symm) := by
  intro w v hv
  have h1 : A.submatrix e e *ᵥ (v ∘ e) = w • (v ∘ e) := by
    rw [Matrix.submatrix_mulVec_equiv]
    rw [Function.comp_assoc, Equiv.self_comp_symm, Function.comp_id, hv]
    rfl
  have h2 := hB w _ h1
  rw [Matrix.submatrix_mulVec_equiv, Equiv.symm_symm, h2]
  funext i
  simp

theorem FunOf.le_one {n : Nat} {h : ℝ → ℝ} {A B : Matrix (Fin n) (Fin n) ℝ} (hA : A.IsHermitian) (hB : FunOf h A B)
    (hp : ∀ w v, v ≠ 0 → A *ᵥ v = w • v → h w ≤ 1) : (1 - B).PosSemidef := by
  have hB' : FunOf (fun w => 1 - h w) A (1 - B) := by
    intro w v hv
    rw [Matrix.sub_mulVec, Matrix.one_mulVec, hB w v hv, sub_smul, one_smul]
  rw [hB'.eq hA]
  set Q : Matrix (Fin n) (Fin n) ℝ := (hA.eigenvectorUnitary).1 with hQ
  have hQQ : Qᵀ * Q = 1 := by
    have := (Matrix.mem_unitaryGroup_iff' (A := Q)).1 hA.eigenvectorUnitary.2
    rwa [Matrix.star_eq_conjTranspose, Matrix.conjTranspose_eq_transpose_of_trivial] at this
  have hd : (diagonal (fun i => 1 - h (hA.eigenvalues i))).PosSemidef := Matrix.PosSemidef.diagonal fun i => by
    rw [Pi.zero_apply, sub_nonneg]
    refine hp _ (fun t => Q t i) ?_ (hA.mulVec_eigenvectorBasis i)
    intro h0
    have := congrFun (congrFun hQQ i) i
    rw [Matrix.mul_apply, Matrix.one_apply_eq] at this
    rw [sum_eq_zero] at this
    · exact zero_ne_one this
    · intro t _
      have h1 : Q t i = 0 := congrFun h0 t
      rw [h1, mul_zero]
  have := hd.mul_mul_conjTranspose_same Q
  rwa [Matrix.conjTranspose_eq_transpose_of_trivial] at this

section
variable {kf : (Nat → ℝ) → (Nat → ℝ) → ℝ} {n1 n : Nat} {coord : Nat → Nat → ℝ} {lm : Nat → Nat} {nu : ℝ}

theorem nysHat_herm (hW : (lmBlock kf n1 coord lm nu).PosDef) : (nysHat kf n1 n coord lm nu).IsHermitian := by
  have h : ((lmBlock kf n1 coord lm nu)⁻¹)ᵀ = (lmBlock kf n1 coord lm nu)⁻¹ := by
    have := hW.inv.isHermitian
    rwa [Matrix.IsHermitian, Matrix.conjTranspose_eq_transpose_of_trivial] at this
  rw [Matrix.IsHermitian, Matrix.conjTranspose_eq_transpose_of_trivial]
  unfold nysHat
  rw [Matrix.transpose_mul, Matrix.transpose_mul, h, Matrix.transpose_transpose, Matrix.mul_assoc]

/-- The nonzero eigenvalues of the approximation are eigenvalues of the pencil. -/
theorem nysHat_eig (hW : (lmBlock kf n1 coord lm nu).PosDef) {w : ℝ} (hw : w ≠ 0) {v : Fin n → ℝ} (hv : v ≠ 0) (h : nysHat kf n1 n coord lm nu *ᵥ v = w • v) :
    w ∈ lmEig kf n1 n coord lm nu := by
  have hu : IsUnit (lmBlock kf n1 coord lm nu).det := (Matrix.isUnit_iff_isUnit_det _).1 hW.isUnit
  have e1 : (lmRows kf n1 n coord lm)ᵀ *ᵥ (((lmBlock kf n1 coord lm nu)⁻¹ * lmRows kf n1 n coord lm) *ᵥ v) = w • v := by
    rw [← h, Matrix.mulVec_mulVec, ← Matrix.mul_assoc]; rfl
  refine ⟨((lmBlock kf n1 coord lm nu)⁻¹ * lmRows kf n1 n coord lm) *ᵥ v, ?_, ?_⟩
  · intro h0
    rw [h0, Matrix.mulVec_zero] at e1
    exact (smul_ne_zero hw hv) e1.symm
  · rw [← Matrix.mulVec_mulVec, e1, Matrix.mulVec_smul, Matrix.mulVec_mulVec, ← Matrix.mul_assoc, Matrix.mul_nonsing_inv _ hu, Matrix.one_mul]

end

/-- **C69** For any kernel, points and order of the points: if fewer landmarks than the allowed number are enough (`1 <= est < maxK`) and the shifted kernel
matrix of the landmarks is positive definite, the Nyström preconditioner can be built.  Applying it multiplies with the matrix that acts on the eigenvectors
of the Nyström approximation with eigenvalue `w` as multiplication with `(max (lo - nu) 0 + mu) / (max (w - nu) 0 + mu)`, and does not change the
eigenvectors with `sqrt w < 10 eps sqrt hi`, where `lo` and `hi` are the smallest and the largest of the `est` eigenvalues of the approximation.  For `mu > 0` it is
symmetric positive definite and none of its eigenvalues is larger than one. -/
theorem C69_nystrom (E : Env) (hL : E.lp.Correct) (hD : E.lp.Definite) (hQ : E.lq.Correct) (hQa : Ascending E.lq) (heps : 0 < E.eps)
    {kf : (Nat → ℝ) → (Nat → ℝ) → ℝ} (hk : ∀ x y, kf x y = kf y x) {mu : ℝ} {n : Nat} {coord : Nat → Nat → ℝ} {perm : Nat → Nat} (ho : IsOrder n perm)
    {est maxK : Nat} (he : est < maxK) (h1 : 1 ≤ est) (h2 : est ≤ n) {nu : ℝ}
    (hnu : nu = Real.sqrt n * E.ulp (∑ a, ∑ j, lmRows kf est n coord perm a j ^ 2)) (hW : (lmBlock kf est coord perm nu).PosDef)
    (hC : lmRows kf est n coord perm ≠ 0) (nn : Nat → List Nat) (ev : CsrEnv) :
    ∃ (P : Precond) (lo hi : ℝ) (B : Matrix (Fin n) (Fin n) ℝ), Returns (precondBuild E kf mu n coord est maxK perm nn ev) (some P) ∧ Applies P n B ∧
      IsLeast (lmEig kf est n coord perm nu) lo ∧ IsGreatest (lmEig kf est n coord perm nu) hi ∧
      FunOf (fun w => if ¬ Real.sqrt w < Real.sqrt hi * E.eps * 10 then (max (lo - nu) 0 + mu) / (max (w - nu) 0 + mu) else 1) (nysHat kf est n coord perm nu) B ∧
      (0 < mu → B.PosDef ∧ (1 - B).PosSemidef) := by
  obtain ⟨e, hee⟩ := order_perm ho
  obtain ⟨o1, o2⟩ := order_facts ho
  set k : Nat → Nat → ℝ := fun i j => kf (fun d => coord d (perm i)) (fun d => coord d (perm j)) with hkd
  have hCe : ∀ (a : Fin est) (j : Fin n), (lmRows kf est n coord perm).submatrix id e a j = k a j := by
    intro a j
    show kf _ (fun d => coord d (e j)) = _
    rw [hee]
    rfl
  have hnu' : nysNu E est n k = nu := by
    rw [hnu]
    unfold nysNu
    congr 2
    rw [sum_range]
    refine sum_congr rfl fun a _ => ?_
    rw [sum_range]
    conv_rhs => rw [← Equiv.sum_comp e]
    refine sum_congr rfl fun j _ => ?_
    rw [← hCe a j, pow_two]; rfl
  have hWd : ∀ a b : Fin est, lmBlock kf est coord perm nu a b = k a b + if a = b then nysNu E est n k else 0 := by
    intro a b; rw [hnu']; rfl
  have hCne : (lmRows kf est n coord perm).submatrix id e ≠ 0 := by
    intro h0
    apply hC
    ext a j
    have := congrFun (congrFun h0 a) (e.symm j)
    rw [Matrix.submatrix_apply, Equiv.apply_symm_apply] at this
    exact this
  obtain ⟨N, lo, hi, B, b1, b2, b3, b4, b5, b6, b7⟩ := nysBuild_spec hL hD hQ hQa heps mu (n2 := n - est) (n := n) (by omega) h1 (k1 := k)
    (fun i _ j _ => hk _ _) hWd hW hCe hCne
  have hCC : (lmRows kf est n coord perm).submatrix id e * ((lmRows kf est n coord perm).submatrix id e)ᵀ = lmRows kf est n coord perm * (lmRows kf est n coord perm)ᵀ := by
    rw [Matrix.transpose_submatrix, Matrix.submatrix_mul_equiv, Matrix.submatrix_id_id]
  have hhat : ((lmRows kf est n coord perm).submatrix id e)ᵀ * (lmBlock kf est coord perm nu)⁻¹ * (lmRows kf est n coord perm).submatrix id e =
      (nysHat kf est n coord perm nu).submatrix e e := by
    ext i j
    simp only [nysHat, Matrix.mul_apply, Matrix.transpose_apply, Matrix.submatrix_apply, id]
  rw [hCC] at b2 b3
  rw [hhat, hnu'] at b6
  have b6' := b6.reorder e
  refine ⟨⟨n, est, perm, .inl N⟩, lo, hi, B.submatrix e.symm e.symm, ?_, ?_, b2, b3, b6', ?_⟩
  · refine ⟨0, fun fuel _ => ?_⟩
    unfold precondBuild
    dsimp only
    rw [if_pos he, if_pos he, ← hkd, b1]
    rfl
  · intro x y0
    have hs := fold_scatter (perm := perm) (n := n) (py := nysApply est n N fun i => x (perm i)) (y0 := y0) o2
    refine ⟨fun i => ?_, fun i hi => hs.2 i fun j hj => by have := o1 j hj; omega⟩
    have hi : ((i : Fin n) : Nat) = perm (e.symm i) := by rw [← hee, Equiv.apply_symm_apply]
    have : precondApply ⟨n, est, perm, .inl N⟩ x y0 i = nysApply est n N (fun i => x (perm i)) (e.symm i) := by
      rw [hi]
      have := hs.1 _ (e.symm i).2
      exact this
    rw [this, b7, Matrix.submatrix_mulVec_equiv]
    refine congrFun (congrArg _ ?_) _
    funext s
    show x (perm _) = x _
    rw [Equiv.symm_symm, hee]
  · intro hmu
    have hpos : ∀ w, 0 < max (w - nu) 0 + mu := fun w => by have := le_max_right (w - nu) 0; linarith
    refine ⟨b6'.posDef (nysHat_herm hW) fun w v _ _ => ?_, b6'.le_one (nysHat_herm hW) fun w v hv hwv => ?_⟩
    · split
      · exact div_pos (hpos _) (hpos _)
      · exact one_pos
    · split
      · next hkeep =>
        rw [div_le_one (hpos _)]
        have hw : w ≠ 0 := by
          rintro rfl
          apply hkeep
          rw [Real.sqrt_zero]
          have := Real.sqrt_pos.2 b5
          positivity
        have := b2.2 (nysHat_eig hW hw hv hwv)
        have := max_le_max (sub_le_sub_right this nu) (le_refl (0 : ℝ))
        linarith
      · exact le_refl _

/-- **C69** (rank zero).  If the estimated rank is zero, the last eigenvalue read is `S[-1]`: undefined behaviour. -/
theorem C69_rank_zero (E : Env) (kf : (Nat → ℝ) → (Nat → ℝ) → ℝ) (mu : ℝ) (n : Nat) (coord : Nat → Nat → ℝ) (maxK : Nat) (hm : 0 < maxK) (perm : Nat → Nat)
    (nn : Nat → List Nat) (ev : CsrEnv) (fuel : Nat) : precondBuild E kf mu n coord 0 maxK perm nn ev fuel = .ub := by
  unfold precondBuild nysBuild
  dsimp only
  rw [if_pos hm, if_pos hm, if_pos rfl]
  rfl

/-! ## Non-vacuity -/

/-- Three points on a line, two landmarks. -/
example : ∃ (E : Env) (P : Precond) (B : Matrix (Fin 3) (Fin 3) ℝ),
    Returns (precondBuild E (fun x y => x 0 * y 0 + if x 0 = y 0 then 1 else 0) 2 3 exLine.coord 2 3 (fun i => [2, 0, 1].getD i 0) (fun _ => []) ⟨fun _ => 7, fun _ => 7, [], []⟩) (some P) ∧
    Applies P 3 B ∧ B.PosDef := by
  obtain ⟨Lp, hL, hD⟩ := lapack_exists
  obtain ⟨Lq, hQ, hA⟩ := ascending_exists
  have hW : (lmBlock (fun x y => x 0 * y 0 + if x 0 = y 0 then 1 else 0) 2 exLine.coord (fun i => [2, 0, 1].getD i 0) (0 : ℝ)).PosDef := by
    have e : lmBlock (fun x y => x 0 * y 0 + if x 0 = y 0 then 1 else 0) 2 exLine.coord (fun i => [2, 0, 1].getD i 0) (0 : ℝ) =
        (1 : Matrix (Fin 2) (Fin 2) ℝ) + vecMulVec (fun i : Fin 2 => (([2, 0, 1].getD i 0 : Nat) : ℝ) + 1) (star fun i : Fin 2 => (([2, 0, 1].getD i 0 : Nat) : ℝ) + 1) := by
      refine Matrix.ext fun (i j : Fin 2) => ?_
      show ((([2, 0, 1].getD i 0 : Nat) : ℝ) + 1) * ((([2, 0, 1].getD j 0 : Nat) : ℝ) + 1) + (if (([2, 0, 1].getD i 0 : Nat) : ℝ) + 1 = (([2, 0, 1].getD j 0 : Nat) : ℝ) + 1 then (1 : ℝ) else 0) + (if i = j then (0 : ℝ) else 0) =
        (1 : Matrix (Fin 2) (Fin 2) ℝ) i j + ((([2, 0, 1].getD i 0 : Nat) : ℝ) + 1) * ((([2, 0, 1].getD j 0 : Nat) : ℝ) + 1)
      fin_cases i <;> fin_cases j <;> norm_num [Matrix.one_apply]
    rw [e]
    exact Matrix.PosDef.one.add_posSemidef (posSemidef_vecMulVec_self_star _)
  obtain ⟨P, lo, hi, B, a, b, _, _, _, c⟩ := C69_nystrom ⟨Lp, Lq, fun _ => 0, 1 / 100⟩ hL hD hQ hA (by norm_num) (kf := fun x y => x 0 * y 0 + if x 0 = y 0 then 1 else 0)
    (fun x y => by rw [mul_comm]; congr 1; exact if_congr eq_comm rfl rfl) (mu := 2) (n := 3) (coord := exLine.coord) (perm := fun i => [2, 0, 1].getD i 0)
    (by unfold IsOrder; decide) (est := 2) (maxK := 3) (by decide) (by decide) (by decide) (nu := 0) (by simp) hW
    (by
      intro h
      have := congrFun (congrFun h (1 : Fin 2)) (0 : Fin 3)
      have : (((0 : Nat) : ℝ) + 1) * (((0 : Nat) : ℝ) + 1) + (if ((0 : Nat) : ℝ) + 1 = ((0 : Nat) : ℝ) + 1 then (1 : ℝ) else 0) = 0 := this
      norm_num at this)
    (fun _ => []) ⟨fun _ => 7, fun _ => 7, [], []⟩
  exact ⟨_, P, B, a, b, (c (by norm_num)).1⟩

end H2Pack.AFN
