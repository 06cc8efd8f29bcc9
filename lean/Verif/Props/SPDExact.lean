import Verif.Props.SPDSample
import Verif.Props.SPDHSS2
import Verif.Proof.Lapack3
import Verif.Proof.SPD19

/-! # C62, C63: exactness of the SPD HSS construction with adequate samples; truncation with a tolerance -/

set_option linter.unusedSectionVars false

namespace H2Pack.SPD
open H2Pack.MV (Mat Rep Blk WF Nested entry kid off kid_mem)
open H2Pack.Part (Arr Pairs kids ClusterTree calcPairs Desc)
open H2Pack.ULV (HSS shifted Represents InRow)
open Finset

section
variable {P : Params} {R : Rep ℝ} {W : Nat → Nat → Nat → ℝ} {nvec : Nat} {pv hss : Pairs} {mark : Nat → Nat} {adm : Nat → Nat → Bool}
  {getB getD : Nat → Nat → Option (Blk ℝ)} {ord : Nat → List Nat} {pord : Nat → List (Nat × Nat)} {Y : Nat → Nat → Option (Mat ℝ)} {vec : Nat → ℝ}

theorem shifted_off {s : ℝ} {r q : Nat} (h : r ≠ q) : shifted R W s r q = entry R W r q := by
  unfold shifted
  rw [if_neg h, add_zero]

theorem in_ne {v r q : Nat} (hr : InRow R v r) (hq : ¬ InRow R v q) : r ≠ q := by
  rintro rfl
  exact hq hr

/-- C62: when the samples are adequate (`max_rank` is at least the rank of the rows of every node outside its diagonal block, and the random matrix loses none of
it) and there is no relative tolerance, the result represents `A + shift I` itself. -/
theorem C62_adequate_exact (I : Input P R nvec pv hss mark adm getB getD ord pord Y) (hpv : P.lq.Pivoted) (hW : Nested R W)
    {A : Matrix (Fin R.size) (Fin R.size) ℝ} (hA : Represents R W P.shift A) (hp : A.PosDef)
    (hS : Samples R (entry R W) nvec vec Y) (had : Adequate R (entry R W) P.maxRank nvec vec) (ht : P.reltol ≤ 0)
    {H : Rep ℝ} {f : Bool} (hb : Returns (build P R pv hss mark adm getB getD ord pord Y) (H, f)) {W' : Nat → Nat → Nat → ℝ} (hW' : Nested H W') :
    ∀ r < R.size, ∀ q < R.size, entry H W' r q = shifted R W P.shift r q := by
  have C := I.ctx hW hA hp
  have hwf := I.src.wf
  have T := hwf.tree
  obtain ⟨Ty, hTy⟩ := content_exists hwf I.sampled
  obtain ⟨H', g, e, hB, _, _, _, _, hcap⟩ := build_cap C I.hss I.sampled hTy I.ord I.pord
  obtain rfl : H = H' := congrArg Prod.fst (ret_unique hb e)
  have hroot : ∀ r < R.size, InRow R (R.arr.nNode - 1) r := by
    intro r hr
    unfold InRow Rep.rowS Rep.rowE
    rw [T.rootS, T.rootE, Nat.mul_comm R.kdim R.nPoint]
    exact ⟨by omega, hr⟩
  have hne := T.nonempty
  intro r hr q hq
  refine fix_exact hB hW' C.pd.1 ?_ (R.arr.nNode - 1) (by omega) r q (hroot r hr) (hroot q hq)
  refine proj_fix hB hW' I.lq hpv ht hcap (Om := fun q j => vec (q * nvec + j)) ?_ ?_ ?_
  · intro v hv r hr j hj
    rw [content_samples hwf hTy hS hv hr hj]
    refine sum_congr rfl fun q _ => ?_
    by_cases hq : InRow R v q
    · rw [if_pos hq, if_pos hq]
    · rw [if_neg hq, if_neg hq, shifted_off (in_ne hr hq)]
  · intro v hv
    obtain ⟨h1, h2⟩ := had v hv
    obtain ⟨F, G, hFG⟩ := rank_factor (offRows R (entry R W) v * randMat R.size nvec vec) (h2.trans_le h1)
    refine ⟨F, G, fun r hr j hj => ?_⟩
    have := hFG ⟨r, row_lt hwf (by omega) hr⟩ ⟨j, hj⟩
    rw [off_sample hwf hTy hS hv] at this
    rw [if_pos (show InRow R v r from hr)] at this
    exact this
  · intro v hv q hq hqv
    obtain ⟨c, hc⟩ := cols_of_rank (offRows R (entry R W) v) (randMat R.size nvec vec) (had v hv).2 ⟨q, hq⟩
    refine ⟨fun j => if h : j < nvec then c ⟨j, h⟩ else 0, fun r hr => ?_⟩
    have hrs : r < R.size := row_lt hwf (by omega) hr
    have := hc ⟨r, hrs⟩
    rw [off_in R (entry R W) (r := ⟨r, hrs⟩) (q := ⟨q, hq⟩) hr hqv] at this
    rw [shifted_off (in_ne hr hqv), sum_range]
    refine Eq.trans this (sum_congr rfl fun j _ => ?_)
    beta_reduce
    rw [off_sample hwf hTy hS hv, if_pos (show InRow R v r from hr), dif_pos j.2]

end

open H2Pack.MV

/-- C62: sampling followed by the construction: when both nodes of every admissible pair are at or below `min_adm_level`, the random matrix loses no rank,
`max_rank` is large enough and there is no relative tolerance, the HSS matrix is `A + shift I`. -/
theorem C62_sample_build_exact {P : Params} (hlp : P.lp.Correct) (hdf : P.lp.Definite) (hlq : P.lq.Correct) (hpv : P.lq.Pivoted) (hrank : 0 < P.maxRank)
    (ht : P.reltol ≤ 0)
    {J : JIT ℝ} {pv hss : Pairs} {mark : Nat → Nat} {adm : Nat → Nat → Bool} (H : H2Input J.aot pv adm) (hroot : J.R.arr.nChild (J.R.arr.nNode - 1) ≠ 0)
    (hsm : J.R.arr.nNode * J.R.arr.nNode ≤ 2 ^ 31) (hhss : HssPairs J.aot hss mark) {W : Nat → Nat → Nat → ℝ} (hW : Nested J.aot W)
    {A : Matrix (Fin J.aot.size) (Fin J.aot.size) ℝ} (hA : Represents J.aot W P.shift A) (hp : A.PosDef)
    (hmin : ∀ x ∈ J.aot.adm, J.aot.minAdm ≤ J.aot.arr.level x.1 ∧ J.aot.minAdm ≤ J.aot.arr.level x.2)
    (EB ED : MetaEnv) (hEB : EB.Valid J.R.arr.nNode) (hED : ED.Valid J.R.arr.nNode) :
    ∃ MB MD, Returns (generateB J false EB) MB ∧ Returns (generateD J false ED) MD ∧
    ∀ (wB wD : List Nat), H2Pack.Utils.Interleaving EB.nTask (worksB MB) wB → H2Pack.Utils.Interleaving ED.nTask (worksD J.R.arr.nLeaf MD) wD →
    ∀ (b0 d0 : Nat → ℝ) (jit : Bool) (E : MMEnv ℝ), E.Valid J.R → ∀ (ord : Nat → List Nat), (∀ l, (ord l).Perm (J.R.levelList l)) →
    ∀ lf : List Nat, lf.Perm ((List.range J.R.arr.nLeaf).map J.R.leaf) → ∀ (nvec : Nat) (vec : Nat → ℝ), 0 < nvec →
      Adequate J.aot (entry J.aot W) P.maxRank nvec vec →
    ∀ (ord' : Nat → List Nat), (∀ l, (ord' l).Perm (J.R.levelList l)) → ∀ (pord : Nat → List (Nat × Nat)),
      (∀ l, 1 ≤ l → l ≤ J.R.arr.maxLevel → ∃ L, Returns (fun fuel => levelPairs J.R.arr pv fuel (J.R.arr.maxLevel - l)) L ∧ (pord l).Perm L) →
    ∀ dst1 dst2 : Nat → Nat → Nat → ℝ,
      ∃ Y B, accMatvec J MB MD jit (runB J MB wB b0) (runD J MD wD d0) E ord lf nvec vec = .ok Y ∧
        Returns (build P J.aot pv hss mark adm (fun a b => getBij J MB jit (runB J MB wB b0) (dst1 a b) a b)
          (fun a b => getDij J MD jit (runD J MD wD d0) (dst2 a b) a b) ord' pord Y) (B, true) ∧
        ∀ W', Nested B W' → ∀ r < J.aot.size, ∀ q < J.aot.size, entry B W' r q = shifted J.aot W P.shift r q := by
  obtain ⟨MB, MD, hMB, hMD, hT⟩ := jit_tables H EB ED hEB hED
  refine ⟨MB, MD, hMB, hMD, ?_⟩
  intro wB wD hwB hwD b0 d0 jit E hE ord hord lf hlf nvec vec hnv had ord' hord' pord hpord dst1 dst2
  obtain ⟨Y, e, hS, hY⟩ := acc_core H.wf hW ((hT wB wD hwB hwD b0 d0 jit).1 E) (fun v hv hl => (H.low v hv hl).1) H.apart.2.2 ⟨hE.fwd, hE.bwd, hE.ordB, hE.ordD⟩ hord hlf hnv vec
  have I : Input P J.aot nvec pv hss mark adm _ _ ord' pord Y :=
    ⟨hlp, hdf, hlq, hrank, hnv, (hT wB wD hwB hwD b0 d0 jit).2 hroot hsm dst1 dst2, hhss, hS, hord', hpord⟩
  obtain ⟨B, h1, _⟩ := C57_spdhss_build I hW hA hp
  have hse : seenEntry J.aot W = entry J.aot W := funext fun r => funext fun q => C61_complete hmin r q
  rw [hse] at hY
  exact ⟨Y, B, e, h1, fun W' hW' => C62_adequate_exact I hpv hW hA hp hY had ht h1 hW'⟩

/-! ## A concrete case -/

/-- The samples of the matrix with ones outside the diagonal and one random vector of ones. -/
def fourY1 (v l : Nat) : Option (Mat ℝ) :=
  if fourTree.nChild v = 0 ∧ l < 2 then some ⟨1, 1, fun _ _ => if l = 0 then 3 else 2⟩ else some ⟨0, 0, fun _ _ => 0⟩

theorem fourY1_sampled : Sampled fourRep 1 fourY1 where
  leaf := by
    intro v hv h0 l hl
    have hv' : v < 7 := hv
    have hl' : l < 2 := by
      have : fourTree.level v ≤ 2 := by interval_cases v <;> decide
      exact lt_of_lt_of_le hl this
    have hr : fourRep.rowE v - fourRep.rowS v = 1 := by
      interval_cases v <;> first | rfl | exact absurd h0 (by decide)
    rw [hr]
    exact ⟨_, if_pos ⟨h0, hl'⟩⟩
  rest := by
    intro v hv l hl h
    have hv' : v < 7 := hv
    have hl' : l < 2 := hl
    refine ⟨_, if_neg ?_⟩
    rintro ⟨h0, _⟩
    rcases h with h | h
    · exact h h0
    · have : fourTree.level v = 2 := by interval_cases v <;> first | rfl | exact absurd h0 (by decide)
      have h' : fourTree.level v ≤ l := h
      omega

theorem four_entry {r q : Nat} (hr : r < 4) (hq : q < 4) : entry fourRep fourW r q = if r = q then 4 else 1 := by
  have h := four_represents 0 r hr 0 (by decide) q hq 0 (by decide) ⟨3 - r, lt_of_le_of_lt (Nat.sub_le 3 r) (by decide)⟩ ⟨3 - q, lt_of_le_of_lt (Nat.sub_le 3 q) (by decide)⟩
    (show 3 - r = (3 - r) * 1 + 0 by omega) (show 3 - q = (3 - q) * 1 + 0 by omega)
  have e1 : r * fourRep.kdim + 0 = r := Nat.mul_one r
  have e2 : q * fourRep.kdim + 0 = q := Nat.mul_one q
  rw [e1, e2] at h
  have h2 := h.symm.trans (four_val 0 hr hq)
  unfold shifted at h2
  rw [add_zero] at h2
  rw [← h2]
  split <;> simp

theorem four_samples : Samples fourRep (entry fourRep fourW) 1 (fun _ => 1) fourY1 := by
  intro v hv h0 l hl u hu d e
  have hv' : v < 7 := hv
  have hu' : u < 7 := hu
  have hlv : fourTree.level v ≤ 2 := by clear e hl d h0; interval_cases v <;> decide
  have hl' : l < 2 := lt_of_lt_of_le hl hlv
  have hr : fourRep.rowE v - fourRep.rowS v = 1 := by
    clear e hl d; interval_cases v <;> first | rfl | exact absurd h0 (by decide)
  rw [hr]
  refine ⟨_, if_pos ⟨h0, hl'⟩, ?_⟩
  intro i hi j hj
  obtain rfl : i = 0 := by omega
  obtain ⟨hin1, hin2⟩ := H2Pack.ULV.row_desc four_wf hu d (row_exists four_wf hv)
  have hs : fourRep.rowS v < 4 := by clear hin1 hin2 e hl d h0 hr; interval_cases v <;> decide
  have hsum : ∀ q ∈ Finset.range fourRep.size, (if fourRep.rowS u ≤ q ∧ q < fourRep.rowE u then (0 : ℝ) else entry fourRep fourW (fourRep.rowS v + 0) q * 1) =
      if fourRep.rowS u ≤ q ∧ q < fourRep.rowE u then 0 else 1 := by
    intro q hq
    have hq' : q < 4 := Finset.mem_range.1 hq
    by_cases h : fourRep.rowS u ≤ q ∧ q < fourRep.rowE u
    · rw [if_pos h, if_pos h]
    · rw [if_neg h, if_neg h, add_zero, four_entry hs hq', if_neg, mul_one]
      rintro rfl
      exact h ⟨hin1, hin2⟩
  rw [Finset.sum_congr rfl hsum]
  show (if l = 0 then (3 : ℝ) else 2) = ∑ q ∈ Finset.range 4, _
  have key : (u ∈ [0, 1, 3, 4] ∧ l = 0) ∨ (u ∈ [2, 5] ∧ l = 1) := by
    have e' : fourTree.level u + l = fourTree.level v := e
    have hl2 : l < fourTree.level v := hl
    have h1 : fourTree.ptS u ≤ fourTree.ptS v := by have : 1 * fourTree.ptS u ≤ 1 * fourTree.ptS v := hin1; omega
    have h2 : fourTree.ptS v ≤ fourTree.ptE u := by have : 1 * fourTree.ptS v < 1 * (fourTree.ptE u + 1) := hin2; omega
    clear hsum hin1 hin2 hl e d hr hs
    interval_cases l <;> interval_cases v <;> interval_cases u <;> revert e' hl2 h1 h2 h0 <;> decide
  rcases key with ⟨hu2, rfl⟩ | ⟨hu2, rfl⟩
  · simp only [List.mem_cons, List.not_mem_nil, or_false] at hu2
    rcases hu2 with rfl | rfl | rfl | rfl <;> simp [Finset.sum_range_succ, fourRep, fourTree, Rep.rowS, Rep.rowE] <;> norm_num
  · simp only [List.mem_cons, List.not_mem_nil, or_false] at hu2
    rcases hu2 with rfl | rfl <;> simp [Finset.sum_range_succ, fourRep, fourTree, Rep.rowS, Rep.rowE] <;> norm_num

theorem four_adequate : Adequate fourRep (entry fourRep fourW) 1 1 (fun _ => 1) := by
  intro v hv
  have hv' : v < 6 := by have : v + 1 < 7 := hv; omega
  have hle : (offRows fourRep (entry fourRep fourW) v).rank ≤ 1 := by
    have e : offRows fourRep (entry fourRep fourW) v =
        Matrix.vecMulVec (fun r => if fourRep.rowS v ≤ r.1 ∧ r.1 < fourRep.rowE v then 1 else 0) (fun q => if fourRep.rowS v ≤ q.1 ∧ q.1 < fourRep.rowE v then 0 else 1) := by
      ext r q
      rw [Matrix.vecMulVec_apply]
      show (if _ then _ else _) = _
      by_cases h1 : fourRep.rowS v ≤ r.1 ∧ r.1 < fourRep.rowE v
      · by_cases h2 : fourRep.rowS v ≤ q.1 ∧ q.1 < fourRep.rowE v
        · rw [if_neg (fun h => h.2 h2), if_pos h1, if_pos h2, mul_zero]
        · rw [if_pos ⟨h1, h2⟩, if_pos h1, if_neg h2, four_entry r.2 q.2, if_neg (fun h : r.1 = q.1 => h2 (h ▸ h1)), mul_one]
      · rw [if_neg (fun h => h1 h.1), if_neg h1, zero_mul]
    rw [e]
    exact Matrix.rank_vecMulVec_le _ _
  refine ⟨hle, le_antisymm (Matrix.rank_mul_le_left _ _) (le_trans hle ?_)⟩
  by_contra h0
  obtain ⟨F, G, hFG⟩ := rank_factor (offRows fourRep (entry fourRep fourW) v * randMat fourRep.size 1 (fun _ => 1)) (c := 0) (by omega)
  have hs : fourRep.rowS v < 4 := by interval_cases v <;> decide
  have h := hFG ⟨fourRep.rowS v, hs⟩ 0
  rw [Finset.sum_range_zero, Matrix.mul_apply] at h
  have hx : ∃ q < 4, ¬ (fourRep.rowS v ≤ q ∧ q < fourRep.rowE v) := by interval_cases v <;> decide
  obtain ⟨q, hq, hqn⟩ := hx
  have hnn : ∀ q : Fin fourRep.size, 0 ≤ offRows fourRep (entry fourRep fourW) v ⟨fourRep.rowS v, hs⟩ q * randMat fourRep.size 1 (fun _ => 1) q 0 := by
    intro q
    show (0 : ℝ) ≤ (if _ then _ else _) * 1
    rw [mul_one]
    split
    · rw [four_entry hs q.2]; split <;> norm_num
    · exact le_refl _
  have := (Finset.sum_eq_zero_iff_of_nonneg fun q _ => hnn q).1 h ⟨q, hq⟩ (Finset.mem_univ _)
  have e : offRows fourRep (entry fourRep fourW) v ⟨fourRep.rowS v, hs⟩ ⟨q, hq⟩ = 1 := by
    refine (if_pos ⟨row_exists four_wf (show v < 7 by omega), hqn⟩).trans ?_
    refine (four_entry hs hq).trans (if_neg ?_)
    intro h
    exact hqn (h ▸ row_exists four_wf (show v < 7 by omega))
  rw [e] at this
  exact absurd this (by show (1 : ℝ) * 1 ≠ 0; norm_num)

/-- The hypotheses of C62 are met: with one random vector and bases of one column the matrix with 4 on the diagonal and 1 elsewhere is rebuilt exactly. -/
example : ∃ (P : Params) (pord : Nat → List (Nat × Nat)) (H : Rep ℝ), P.maxRank = 1 ∧
    Returns (build P fourRep fourPairs fourHss (fun _ => 1) fourAdm fourB fourD (fun l => (fourRep.levelList l).reverse) pord fourY1) (H, true) ∧
    ∃ (W' : Nat → Nat → Nat → ℝ), Nested H W' ∧ ∀ r < 4, ∀ q < 4, entry H W' r q = if r = q then 4 else 1 := by
  obtain ⟨lp, h1, h2⟩ := H2Pack.ULV.lapack_exists
  obtain ⟨lq, h3, h4⟩ := lapack3_exists
  obtain ⟨pord, I0⟩ := four_input (P := ⟨lp, lq, 1, 0, 0, fun _ _ _ => 7⟩) h1 h2 h3 (Nat.succ_pos _) (nvec := 1) (by decide)
  have I : Input ⟨lp, lq, 1, 0, 0, fun _ _ _ => 7⟩ fourRep 1 fourPairs fourHss (fun _ => 1) fourAdm fourB fourD (fun l => (fourRep.levelList l).reverse) pord fourY1 :=
    ⟨I0.lp, I0.df, I0.lq, I0.rank, I0.samples, I0.src, I0.hss, fourY1_sampled, I0.ord, I0.pord⟩
  have hp : (fourMat 0).PosDef := four_posDef (by norm_num)
  obtain ⟨H, e, hH, _⟩ := C57_spdhss_build I four_nested (four_represents 0) hp
  refine ⟨_, pord, H, rfl, e, _, H2Pack.MV.basis_nested hH.wf, fun r hr q hq => ?_⟩
  rw [C62_adequate_exact I h4 four_nested (four_represents 0) hp four_samples four_adequate (le_refl _) e (H2Pack.MV.basis_nested hH.wf) r hr q hq]
  unfold shifted
  rw [four_entry hr hq]
  split <;> simp

end H2Pack.SPD
