import Verif.Proof.ULV12

/-! # A successful Cholesky factorization proves the matrix positive definite -/

set_option linter.unusedSectionVars false

namespace H2Pack.ULV
open Matrix
open H2Pack.MV
open H2Pack.Part (Arr kids ClusterTree Desc)
open scoped MatrixOrder

section
variable {R : Rep ℝ} {shift : ℝ} {W : Nat → Nat → Nat → ℝ}

theorem pd_inv {ι : Type} [Fintype ι] [DecidableEq ι] {M : Matrix ι ι ℝ} (h : M.PosDef) : ∃ g : Matrix ι ι ℝ, g * M * gᵀ = 1 := by
  obtain ⟨B, hB⟩ := CStarAlgebra.nonneg_iff_eq_star_mul_self.mp h.posSemidef.nonneg
  rw [star_eq_conjTranspose, conjTranspose_eq_transpose_of_trivial] at hB
  have hBu : IsUnit B.det := by
    have := h.det_pos
    rw [hB, Matrix.det_mul, Matrix.det_transpose] at this
    rw [isUnit_iff_ne_zero]
    intro h
    rw [h] at this
    simp at this
  have hBt : IsUnit (Bᵀ).det := by rw [Matrix.det_transpose]; exact hBu
  refine ⟨(Bᵀ)⁻¹, ?_⟩
  rw [hB, Matrix.transpose_nonsing_inv, Matrix.transpose_transpose, ← Matrix.mul_assoc, Matrix.nonsing_inv_mul _ hBt, Matrix.one_mul, Matrix.mul_nonsing_inv _ hBu]

theorem pd_of_conj {ι : Type} [Fintype ι] [DecidableEq ι] {G A : Matrix ι ι ℝ} (h : G * A * Gᵀ = 1) : A.PosDef := by
  have hd := congrArg Matrix.det h
  rw [Matrix.det_mul, Matrix.det_mul, Matrix.det_one, Matrix.det_transpose] at hd
  have hG : IsUnit G.det := isUnit_iff_ne_zero.2 (fun e => by rw [e] at hd; simp at hd)
  have hGt : IsUnit (Gᵀ).det := by rw [Matrix.det_transpose]; exact hG
  have e : A = ((Gᵀ)⁻¹)ᵀ * 1 * (Gᵀ)⁻¹ := by
    rw [← h, Matrix.transpose_nonsing_inv, Matrix.transpose_transpose]
    calc A = (G⁻¹ * G) * A * (Gᵀ * (Gᵀ)⁻¹) := by rw [Matrix.nonsing_inv_mul _ hG, Matrix.mul_nonsing_inv _ hGt, Matrix.one_mul, Matrix.mul_one]
      _ = _ := by simp only [Matrix.mul_assoc]
  rw [e]
  exact posDef_conj Matrix.PosDef.one (C := Gᵀ) (Matrix.mul_nonsing_inv _ hGt)

theorem sym_full {d : Nat} {t : Nat → Nat → ℝ} (h : ∀ i < d, ∀ j < d, t i j = t j i) :
    (Matrix.of fun i j : Fin d => if j ≤ i then t i j else t j i) = mf d d t := by
  ext i j
  rw [Matrix.of_apply]
  by_cases hij : j ≤ i
  · rw [if_pos hij]; rfl
  · rw [if_neg hij]; exact (h i i.2 j j.2).symm

/-- The operators of a node that has been factorized. -/
theorem chol_node {Lp : Lapack ℝ} (hL : Lp.Correct) (hD : Lp.Definite) (lg : ℝ → ℝ) (tU tD : Mat ℝ) {n d : Nat} (hn : tU.ncol = n) (hm : tU.nrow = n + d)
    (hsym : Sym (n + d) tD.e) (hinfo : (cholStep Lp lg tU tD).info = 0) :
    ∃ g : Matrix (Ix n d) (Ix n d) ℝ, g * mat n d tD.e * gᵀ = fromBlocks (mf n n (deref (cholStep Lp lg tU tD).dm).e) 0 0 1 ∧
      BasisOk n d tU.e (deref (cholStep Lp lg tU tD).um).e g gᵀ := by
  have h1 := mat_orth (hL.orth (n + d) n tU.e (by omega))
  have h3 := basis_rows (hL.qr (n + d) n tU.e (by omega))
  have hts : Sym (n + d) (conjD Lp tU tD) := by
    unfold conjD
    rw [hm]
    exact conj_sym hsym
  have hpd : (mf d d fun i j => conjD Lp tU tD (n + i) (n + j)).PosDef := by
    have hs : ∀ i < d, ∀ j < d, conjD Lp tU tD (n + i) (n + j) = conjD Lp tU tD (n + j) (n + i) := fun i hi j hj => hts _ (by omega) _ (by omega)
    rw [← sym_full hs]
    have hinfo : (if 0 < tU.nrow - tU.ncol then (Lp.potrf (tU.nrow - tU.ncol) (fun i j => conjD Lp tU tD (tU.ncol + i) (tU.ncol + j))).1 else 0) = 0 := hinfo
    rw [hn, show tU.nrow - n = d by omega] at hinfo
    by_cases h0 : 0 < d
    · rw [if_pos h0] at hinfo
      exact (hD d _).1 hinfo
    · have : d = 0 := by omega
      subst this
      have : (Matrix.of fun i j : Fin 0 => if j ≤ i then conjD Lp tU tD (n + i) (n + j) else conjD Lp tU tD (n + j) (n + i)) = 1 := Subsingleton.elim _ _
      rw [this]
      exact Matrix.PosDef.one
  have hmat : (mat n d (conjD Lp tU tD))ᵀ = mat n d (conjD Lp tU tD) := by
    ext i j
    exact hts _ (pos_lt j) _ (pos_lt i)
  have hS := cholStep_schur hL lg tU tD hn hm hsym hinfo
  unfold conjD at hmat hpd hS
  rw [hm, hn] at hmat hpd hS
  obtain ⟨g, _, g2, g3⟩ := pd_node' (tU := tU.e) (um := (deref (cholStep Lp lg tU tD).um).e) h1 (by rw [h3, ← hm, ← hn]; rfl) hS hmat hpd
  exact ⟨g, g2, g3⟩

theorem chol_success {Lp : Lapack ℝ} (hL : Lp.Correct) (hD : Lp.Definite) (lg : ℝ → ℝ) (H : HSS R) (hs : SymD R) (hW : Nested R W) {Hs : Nat → NodeH ℝ} {L : List Nat}
    (hT : Topo R L) (hall : ∀ v < R.arr.nNode, v ∈ L) (hn : ∀ v ∈ L, NodeSpec (cholStep Lp lg) (cholRoot Lp lg) R shift Hs v) : (AllM R W shift).PosDef := by
  have hsym : ∀ v < R.arr.nNode, ∀ tU tD, Asm R shift Hs v tU tD → Sym (mm R v) tD.e := by
    intro v hv tU tD hA
    apply asm_sym H hs hv _ hA
    intro c hc
    exact chol_sym Lp lg H hs hT hn c (hall c (H.wf.tree.kid_lt hv hc)) (by have := H.wf.tree.childLevel v hv c hc; omega)
  have hq : ∀ v, ∃ (tU tD : Mat ℝ) (g : Matrix (Ix (nn R v) (mm R v - nn R v)) (Ix (nn R v) (mm R v - nn R v)) ℝ), v < R.arr.nNode →
      Asm R shift Hs v tU tD ∧ IdxOk R Hs v (Hs v).fac.idx ∧
      g * mat (nn R v) (mm R v - nn R v) tD.e * gᵀ = fromBlocks (mf _ _ (Hs v).dm.e) 0 0 1 ∧
      (1 ≤ R.arr.level v → BasisOk (nn R v) (mm R v - nn R v) tU.e (Hs v).um.e g gᵀ) := by
    intro v
    by_cases hv : v < R.arr.nNode
    · obtain ⟨tU, tD, idx, h1, h2, h3, h4⟩ := hn v (hall v hv)
      have hle := nn_le_mm H hv
      have hsy := hsym v hv tU tD h1
      have hI : IdxOk R Hs v (Hs v).fac.idx := by rw [h4]; exact h2
      by_cases hl : 1 ≤ R.arr.level v
      · have hst : stepAt (cholStep Lp lg) (cholRoot Lp lg) R v tU tD = cholStep Lp lg tU tD := by
          unfold stepAt; rw [if_pos (show 0 < R.arr.level v by omega)]
        rw [hst] at h3 h4
        obtain ⟨g, g1, g2⟩ := chol_node hL hD lg tU tD (n := nn R v) (d := mm R v - nn R v) (by rw [h1.ncol hl, nn_pos hl])
          (by rw [h1.nrow]; omega) (by rw [show nn R v + (mm R v - nn R v) = mm R v by omega]; exact hsy) h3
        refine ⟨tU, tD, g, fun _ => ⟨h1, hI, ?_, fun _ => ?_⟩⟩
        · rw [h4]; exact g1
        · rw [h4]; exact g2
      · have h0 : R.arr.level v = 0 := by omega
        have hst : stepAt (cholStep Lp lg) (cholRoot Lp lg) R v tU tD = cholRoot Lp lg tU tD := by
          unfold stepAt; rw [if_neg (show ¬ 0 < R.arr.level v by omega)]
        rw [hst] at h3
        have hn0 : nn R v = 0 := by unfold nn; rw [if_pos h0]
        have h3 : (Lp.potrf tU.nrow tD.e).1 = 0 := h3
        rw [h1.nrow] at h3
        have hp := (hD _ _).1 h3
        rw [sym_full hsy] at hp
        have hp' : (mat (nn R v) (mm R v - nn R v) tD.e).PosDef := by
          rw [hn0, Nat.sub_zero]
          have := hp.submatrix (e := fun i : Ix 0 (mm R v) => (⟨pos i, by have := pos_lt i; omega⟩ : Fin (mm R v))) (fun i j e => pos_inj (Fin.ext_iff.1 e))
          exact this
        obtain ⟨g, hg⟩ := pd_inv hp'
        refine ⟨tU, tD, g, fun _ => ⟨h1, hI, ?_, fun h => absurd h hl⟩⟩
        rw [hg, ← Matrix.fromBlocks_one]
        congr 1
        ext i
        exact absurd i.2 (by omega)
    · exact ⟨⟨0, 0, fun _ _ => 0⟩, ⟨0, 0, fun _ _ => 0⟩, 0, fun h => absurd h hv⟩
  choose tU tD g hq using hq
  have hX : (mkData R Hs tU tD g fun u => (g u)ᵀ).Ok shift := mkData_ok H (fun u hu => (hq u hu).1) (fun u hu => (hq u hu).2.1)
  have he : ∀ v ∈ L, (mkData R Hs tU tD g fun u => (g u)ᵀ).Elim v := fun v hv => ⟨(hq v (hT.lt v hv)).2.2.1, (hq v (hT.lt v hv)).2.2.2⟩
  have := eliminated hX H hW hT he hall
  rw [H_eq_GT (fun _ => rfl)] at this
  exact pd_of_conj this

end

end H2Pack.ULV
