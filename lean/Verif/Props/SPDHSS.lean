import Verif.Proof.SPD16
import Verif.Proof.Lapack2
import Verif.Props.ULV2
import Mathlib.LinearAlgebra.Matrix.Rank

/-! # C57-C60: building an SPD HSS matrix from an H2 matrix -/

set_option linter.unusedSectionVars false

namespace H2Pack.SPD
open H2Pack.MV (Mat Rep Blk WF Nested entry kid)
open H2Pack.Part (Arr Pairs kids ClusterTree calcPairs)
open H2Pack.ULV (HSS shifted Represents InRow Lapack Blocks SymD Order cholFactorize AllM user_posDef C48_chol_iff_posDef lapack_exists)

/-! ## C58: the pairs of the levels -/

/-- C58: for every level below the root, the list of pairs of that level is computed, without repetition, and consists of the visited pairs
whose deeper node is on that level. -/
theorem C58_level_pairs {A : Arr ℝ} {n : Nat} (T : ClusterTree A n) (hsm : A.nNode * A.nNode ≤ 2^31) {adm : Nat → Nat → Bool} {pv : Pairs} {init : Nat}
    (h : Returns (fun fuel => calcPairs A adm 0 fuel (A.nNode - 1) (A.nNode - 1) ⟨[], [], init⟩) pv) (l : Nat) (h1 : 1 ≤ l) (h2 : l ≤ A.maxLevel) :
    ∃ L, Returns (fun fuel => levelPairs A pv fuel (A.maxLevel - l)) L ∧ L.Nodup ∧
      ∀ a b, (a, b) ∈ L ↔ Vis A adm a b ∧ max (A.level a) (A.level b) = l := by
  obtain ⟨L, e, hn, hm⟩ := levelPairs_spec T hsm h (A.maxLevel - l) (by omega)
  refine ⟨L, e, hn, fun a b => ?_⟩
  rw [hm]
  have : A.maxLevel - (A.maxLevel - l) = l := by omega
  rw [this]
  exact Iff.rfl

/-- C58: together they are all visited pairs, each once. -/
theorem C58_all_pairs {A : Arr ℝ} {n : Nat} (T : ClusterTree A n) (hsm : A.nNode * A.nNode ≤ 2^31) {adm : Nat → Nat → Bool} {pv : Pairs} {init : Nat}
    (h : Returns (fun fuel => calcPairs A adm 0 fuel (A.nNode - 1) (A.nNode - 1) ⟨[], [], init⟩) pv) :
    ∃ L, Returns (fun fuel => allPairs A pv fuel) L ∧ L.Nodup ∧ ∀ a b, (a, b) ∈ L ↔ Vis A adm a b := by
  obtain ⟨L, e, hn, hm⟩ := allPairs_spec T hsm h
  exact ⟨L, e, hn, fun a b => hm (a, b)⟩

section
variable {P : Params} {R : Rep ℝ} {W : Nat → Nat → Nat → ℝ} {nvec : Nat} {pv hss : Pairs} {mark : Nat → Nat} {adm : Nat → Nat → Bool}
  {getB getD : Nat → Nat → Option (Blk ℝ)} {ord : Nat → List Nat} {pord : Nat → List (Nat × Nat)} {Y : Nat → Nat → Option (Mat ℝ)}

theorem ret_unique {α : Type} {p : Nat → Res α} {a b : α} (ha : Returns p a) (hb : Returns p b) : a = b := by
  obtain ⟨F, hF⟩ := ha
  obtain ⟨G, hG⟩ := hb
  have := (hF (max F G) (le_max_left _ _)).symm.trans (hG (max F G) (le_max_right _ _))
  exact Res.ok.inj this

theorem vCols_le (t : ℝ) (n : Nat) (d : Nat → ℝ) : vCols t n d ≤ n := by
  unfold vCols
  split
  · rename_i k hk
    split
    · have := List.mem_of_find?_eq_some hk
      rw [List.mem_range] at this
      omega
    · exact le_refl n
  · exact le_refl n

theorem vCols_exact {t : ℝ} (ht : t ≤ 0) (n : Nat) (d : Nat → ℝ) : vCols t n d = n := by
  unfold vCols
  rw [List.find?_eq_none.2]
  intro k _
  simp only [decide_eq_true_eq, not_lt]
  exact le_trans (mul_nonpos_of_nonneg_of_nonpos (abs_nonneg _) ht) (abs_nonneg _)

theorem Input.ctx (I : Input P R nvec pv hss mark adm getB getD ord pord Y) (hW : Nested R W) {A : Matrix (Fin R.size) (Fin R.size) ℝ} (hA : Represents R W P.shift A)
    (hp : A.PosDef) : Ctx P R W nvec pv adm getB getD where
  src := I.src
  nested := hW
  pd := PD_iff.2 ((user_posDef I.src.wf hA).1 hp)
  lp := I.lp
  df := I.df
  lq := I.lq
  rank := I.rank
  nvec := I.samples

theorem built_posDef {A : Nat → Nat → ℝ} {g : Gh} {H : Rep ℝ} (h : Built R A g H) (hA : PD R.size A) {W' : Nat → Nat → Nat → ℝ} (hW : Nested H W')
    {A' : Matrix (Fin H.size) (Fin H.size) ℝ} (hr : Represents H W' 0 A') : A'.PosDef := by
  have hp := built_pd h hW hA
  rw [← h.size] at hp
  rw [user_posDef h.hss.wf hr]
  have e : AllM H W' 0 = Matrix.of fun i j : Fin H.size => entry H W' i j := by
    ext i j
    show entry H W' i j + (if i.1 = j.1 then 0 else 0) = _
    rw [ite_self, add_zero]
    rfl
  rw [e]
  exact PD_iff.1 hp

/-- C57: when `A + shift I` is positive definite, the construction ends and reports success; the result is an HSS matrix on the same tree with
bases of at most `max_rank` columns, and the matrix it represents is positive definite: for every positive `max_rank` and every tolerance, and
whatever the samples contain. -/
theorem C57_spdhss_build (I : Input P R nvec pv hss mark adm getB getD ord pord Y) (hW : Nested R W) {A : Matrix (Fin R.size) (Fin R.size) ℝ}
    (hA : Represents R W P.shift A) (hp : A.PosDef) :
    ∃ H, Returns (build P R pv hss mark adm getB getD ord pord Y) (H, true) ∧ HSS H ∧
      H.arr = R.arr ∧ H.nPoint = R.nPoint ∧ H.kdim = R.kdim ∧ H.coordIdx = R.coordIdx ∧
      (∀ v, v + 1 < R.arr.nNode → (H.U v).ncol ≤ P.maxRank ∧ (H.U v).ncol ≤ nvec) ∧
      ∀ W', Nested H W' → ∀ A' : Matrix (Fin H.size) (Fin H.size) ℝ, Represents H W' 0 A' → A'.PosDef := by
  have C := I.ctx hW hA hp
  obtain ⟨H, g, e, hB, hc, _, _, hd⟩ := build_ok C I.hss I.sampled I.ord I.pord
  refine ⟨H, e, hB.hss, hB.arr, hB.nPoint, hB.kdim, hc, fun v hv => ?_, fun W' hW' A' hA' => built_posDef hB C.pd hW' hA'⟩
  obtain ⟨d, hd⟩ := hd v hv
  rw [hB.U v hv, hd]
  have := vCols_le P.reltol (min (min (g.m R v) nvec) P.maxRank) d
  omega

theorem built_symD {A : Nat → Nat → ℝ} {g : Gh} {H : Rep ℝ} (h : Built R A g H) (hA : PD R.size A) : SymD H := by
  intro i hi a ha b hb
  rw [h.arr] at hi
  have hl : H.leaf i = R.leaf i := by unfold Rep.leaf; rw [h.arr]
  rw [hl, h.rowS, h.rowE] at ha hb
  have hv : R.leaf i < R.arr.nNode := (H2Pack.MV.mem_leaf h.wf hi).1
  have := rowE_le h.wf hv
  rw [h.D i hi a ha b hb, h.D i hi b hb a ha]
  exact hA.1 _ (by omega) _ (by omega)

/-- C57: the Cholesky factorization of the result succeeds. -/
theorem C57_then_cholesky (I : Input P R nvec pv hss mark adm getB getD ord pord Y) (hW : Nested R W) {A : Matrix (Fin R.size) (Fin R.size) ℝ}
    (hA : Represents R W P.shift A) (hp : A.PosDef) {H : Rep ℝ} {f : Bool} (hb : Returns (build P R pv hss mark adm getB getD ord pord Y) (H, f))
    (lg : ℝ → ℝ) {getB' getD' : Nat → Nat → Option (Blk ℝ)} (hG : Blocks H getB' getD') {ord' : Nat → List Nat} (ho : Order H ord') :
    ∃ st, cholFactorize P.lp lg H getB' getD' 0 ord' = .ok st ∧ st.ok = true := by
  have C := I.ctx hW hA hp
  obtain ⟨H', g, e, hB, _⟩ := build_ok C I.hss I.sampled I.ord I.pord
  obtain rfl : H = H' := congrArg Prod.fst (ret_unique hb e)
  have hn := H2Pack.MV.basis_nested hB.hss.wf
  obtain ⟨e', _, hr⟩ := H2Pack.ULV.represents_iff (W := H2Pack.MV.basis H) hB.hss.wf 0
  have hA' : Represents H (H2Pack.MV.basis H) 0 ((AllM H (H2Pack.MV.basis H) 0).submatrix e'.symm e'.symm) := (hr _).2 (by simp)
  obtain ⟨st, h1, h2⟩ := C48_chol_iff_posDef I.lp I.df lg hB.hss (built_symD hB C.pd) hn hG 0 ho hA'
  exact ⟨st, h1, h2.2 (built_posDef hB C.pd hn hA')⟩

/-- C59: the diagonal blocks of the result are those of `A + shift I`. -/
theorem C59_diagonal_exact (I : Input P R nvec pv hss mark adm getB getD ord pord Y) (hW : Nested R W) {A : Matrix (Fin R.size) (Fin R.size) ℝ}
    (hA : Represents R W P.shift A) (hp : A.PosDef) {H : Rep ℝ} {f : Bool} (hb : Returns (build P R pv hss mark adm getB getD ord pord Y) (H, f))
    {W' : Nat → Nat → Nat → ℝ} (hW' : Nested H W') {v : Nat} (hv : v < R.arr.nNode) (h0 : R.arr.nChild v = 0) {r q : Nat}
    (hr : R.rowS v ≤ r ∧ r < R.rowE v) (hq : R.rowS v ≤ q ∧ q < R.rowE v) :
    entry H W' r q = shifted R W P.shift r q := by
  obtain ⟨H', g, e, hB, _⟩ := build_ok (I.ctx hW hA hp) I.hss I.sampled I.ord I.pord
  obtain rfl : H = H' := congrArg Prod.fst (ret_unique hb e)
  exact leaf_entry hB hW' hv h0 hr hq

/-- C59: the off-diagonal blocks are two-sided projections of those of `A + shift I`: every node has a projection of rank at most `max_rank` on its
rows, and the block of two children of a node is the one of `A + shift I` multiplied from both sides with their projections. -/
theorem C59_offdiagonal_projection (I : Input P R nvec pv hss mark adm getB getD ord pord Y) (hW : Nested R W) {A : Matrix (Fin R.size) (Fin R.size) ℝ}
    (hA : Represents R W P.shift A) (hp : A.PosDef) {H : Rep ℝ} {f : Bool} (hb : Returns (build P R pv hss mark adm getB getD ord pord Y) (H, f))
    {W' : Nat → Nat → Nat → ℝ} (hW' : Nested H W') :
    ∃ p : Nat → Matrix (Fin R.size) (Fin R.size) ℝ,
      (∀ v, v + 1 < R.arr.nNode → p v * p v = p v ∧ (p v).rank ≤ P.maxRank ∧
        ∀ r s : Fin R.size, p v r s ≠ 0 → (R.rowS v ≤ r.1 ∧ r.1 < R.rowE v) ∧ R.rowS v ≤ s.1 ∧ s.1 < R.rowE v) ∧
      ∀ v < R.arr.nNode, ∀ k l, k < l → l < R.arr.nChild v → ∀ r q : Fin R.size,
        (R.rowS (kid R v k) ≤ r.1 ∧ r.1 < R.rowE (kid R v k)) → (R.rowS (kid R v l) ≤ q.1 ∧ q.1 < R.rowE (kid R v l)) →
        entry H W' r q = (p (kid R v k) * (Matrix.of fun s t : Fin R.size => shifted R W P.shift s t) * (p (kid R v l)).transpose) r q := by
  obtain ⟨H', g, e, hB, _, _, _, hd⟩ := build_ok (I.ctx hW hA hp) I.hss I.sampled I.ord I.pord
  obtain rfl : H = H' := congrArg Prod.fst (ret_unique hb e)
  refine ⟨fun v => Matrix.of fun r s : Fin R.size => proj g W' v r s, fun v hv => ⟨?_, ?_, ?_⟩, fun v hv k l hkl hl r q hr hq => ?_⟩
  · ext r t
    rw [Matrix.mul_apply]
    have := proj_idem hB hW' hv r t
    rw [Finset.sum_range] at this
    exact this
  · obtain ⟨d, hd⟩ := hd v hv
    have hle : (g.U v).ncol ≤ P.maxRank := by
      rw [hd]
      have := vCols_le P.reltol (min (min (g.m R v) nvec) P.maxRank) d
      omega
    have e : (Matrix.of fun r s : Fin R.size => proj g W' v r s) =
        (Matrix.of fun (r : Fin R.size) (a : Fin (g.U v).ncol) => W' v r a) * Matrix.of fun (a : Fin (g.U v).ncol) (s : Fin R.size) => g.L v a s := by
      ext r s
      rw [Matrix.mul_apply]
      show proj g W' v r s = _
      unfold proj
      rw [Finset.sum_range]
      rfl
    beta_reduce
    rw [e]
    refine le_trans (Matrix.rank_mul_le_left _ _) (le_trans (Matrix.rank_le_width _) hle)
  · intro r s hne
    by_contra hc
    exact hne (proj_sup hB hW' hv hc)
  · rw [kid_proj hB hW' hv hkl hl hr hq, Matrix.mul_apply, Finset.sum_comm, Finset.sum_range]
    refine Finset.sum_congr rfl fun t _ => ?_
    rw [Matrix.mul_apply, Finset.sum_mul, Finset.sum_range]
    rfl

/-- C60: with ranks and numbers of samples that are not smaller than the matrix and no relative tolerance, the result represents `A + shift I`
itself, whatever the samples contain. -/
theorem C60_full_rank_exact (I : Input P R nvec pv hss mark adm getB getD ord pord Y) (hW : Nested R W) {A : Matrix (Fin R.size) (Fin R.size) ℝ}
    (hA : Represents R W P.shift A) (hp : A.PosDef) {H : Rep ℝ} {f : Bool} (hb : Returns (build P R pv hss mark adm getB getD ord pord Y) (H, f))
    (hr : R.size ≤ P.maxRank) (hn : R.size ≤ nvec) (ht : P.reltol ≤ 0) {W' : Nat → Nat → Nat → ℝ} (hW' : Nested H W') :
    ∀ r < R.size, ∀ q < R.size, entry H W' r q = shifted R W P.shift r q := by
  have C := I.ctx hW hA hp
  obtain ⟨H', g, e, hB, _, _, _, hd⟩ := build_ok C I.hss I.sampled I.ord I.pord
  obtain rfl : H = H' := congrArg Prod.fst (ret_unique hb e)
  have T := I.src.wf.tree
  have hroot : ∀ r < R.size, InRow R (R.arr.nNode - 1) r := by
    intro r hr
    unfold InRow Rep.rowS Rep.rowE
    rw [T.rootS, T.rootE, Nat.mul_comm R.kdim R.nPoint]
    exact ⟨by omega, hr⟩
  have hne := T.nonempty
  intro r hr' q hq'
  refine built_exact hB hW' C.pd.1 (fun v hv hm => ?_) (R.arr.nNode - 1) (by omega) r q (hroot r hr') (hroot q hq')
  obtain ⟨d, hd⟩ := hd v hv
  rw [hd, vCols_exact ht]
  have := rowE_le I.src.wf (show v < R.arr.nNode by omega)
  omega

end

end H2Pack.SPD
