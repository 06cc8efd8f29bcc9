import Verif.Proof.SPDS6
import Verif.Props.SPDHSS2
import Verif.Props.Matmul

/-! # C61: sampling an H2 matrix -/

set_option linter.unusedSectionVars false

namespace H2Pack.SPD
open Matrix
open H2Pack.MV
open H2Pack.Part (Arr Pairs kids ClusterTree calcPairs Desc Holds blocks)
open H2Pack.ULV (InRow Represents HSS)
open Finset (range mem_range)

section
variable {R : Rep ℝ} {pv : Pairs} {adm : Nat → Nat → Bool}

theorem vis_apart (h : WF R) {a b : Nat} (hv : Vis R.arr adm a b) : Apart R a b := by
  have hk := h.kdim
  have hf := vis_facts h.tree hv
  refine ⟨by omega, by omega, ?_⟩
  rintro r ⟨h1, h2⟩
  have g1 := (row_node (R := R) hk a r).1 h1
  have g2 := (row_node (R := R) hk b r).1 h2
  omega

theorem foldl_min_pos : ∀ (L : List Nat) (n : Nat), 1 ≤ n → (∀ x ∈ L, 1 ≤ x) → 1 ≤ L.foldl min n := by
  intro L
  induction L with
  | nil => intro n h _; exact h
  | cons a L ih =>
    intro n h1 h2
    rw [List.foldl_cons]
    exact ih _ (le_min h1 (h2 a List.mem_cons_self)) (fun x hx => h2 x (List.mem_cons_of_mem _ hx))

theorem H2Input.apart (H : H2Input R pv adm) : (∀ i (h : i < R.adm.length), Apart R R.adm[i].1 R.adm[i].2) ∧
    (∀ i (h : i < R.inadm.length), Apart R R.inadm[i].1 R.inadm[i].2) ∧ 1 ≤ R.minAdm := by
  obtain ⟨f1, f2, _, f4⟩ := found_spec H.wf.tree H.found
  refine ⟨fun i hi => ?_, fun i hi => ?_, ?_⟩
  · exact vis_apart H.wf ((f1 _).1 (H.adm ▸ List.getElem_mem hi)).1
  · exact vis_apart H.wf ((f2 _).1 (H.inadm ▸ List.getElem_mem hi)).1
  · rw [H.min, f4]
    have hl : ∀ x ∈ pv.adm, 1 ≤ R.arr.level x.1 ∧ x.1 < R.arr.nNode := by
      intro x hx
      have hv := ((f1 x).1 hx).1
      refine ⟨(vis_level H.wf.tree hv).2.2.1, ?_⟩
      have := vis_facts H.wf.tree hv
      omega
    apply foldl_min_pos
    · obtain ⟨x, hx⟩ := List.exists_mem_of_ne_nil _ H.some
      rw [H.adm] at hx
      have h1 := hl x hx
      have := H.wf.tree.levelLe x.1 h1.2
      omega
    · intro y hy
      rw [List.mem_map] at hy
      obtain ⟨x, hx, rfl⟩ := hy
      have := (hl x hx).1
      omega

theorem H2Input.distinct (H : H2Input R pv adm) : DistinctPairs R.arr.nNode R.adm ∧ DistinctPairs R.arr.nNode R.inadm := by
  obtain ⟨f1, f2, f3, _⟩ := found_spec H.wf.tree H.found
  rw [H.adm, H.inadm]
  refine H2Pack.Part.distinct_of_blocks H.wf.tree pv ?_ ?_ f3
  · intro x hx
    have hv := ((f1 x).1 hx).1
    have := vis_facts H.wf.tree hv
    have := vis_apart H.wf hv
    exact ⟨this.fst, this.snd, this.ne H.wf⟩
  · intro x hx
    have hv := ((f2 x).1 hx).1
    have := vis_apart H.wf hv
    exact ⟨this.fst, this.snd, this.ne H.wf⟩

/-- C61: the level used to sort the products is the level of the lowest node above both nodes. -/
theorem C61_common_level (H : H2Input R pv adm) {a b : Nat} (hv : Vis R.arr adm a b) :
    ∃ w < R.arr.nNode, Desc R.arr a w ∧ Desc R.arr b w ∧ commonLevel R.arr a b = R.arr.level w ∧
      ∀ u < R.arr.nNode, Desc R.arr a u → Desc R.arr b u → Desc R.arr w u := by
  have hA := vis_apart H.wf hv
  obtain ⟨c1, c2, c3, c4⟩ := commonLevel_spec H.wf hA.fst hA.snd hA.rows
  obtain ⟨w, hw, d, hl⟩ : ∃ w < R.arr.nNode, Desc R.arr a w ∧ R.arr.level w = (commonLevel R.arr a b).toNat :=
    by
      obtain ⟨w, h1, _, h2, h3⟩ := fillPath_spec H.wf.tree _ a (fun _ => 0) hA.fst rfl (commonLevel R.arr a b).toNat (le_of_lt c2)
      exact ⟨w, h1, h2, h3⟩
  refine ⟨w, hw, d, (c4 w hw d).2 (by omega), by omega, ?_⟩
  intro u hu da db
  have hlu := (c4 u hu da).1 db
  have hrow := row_exists H.wf hA.fst
  rcases H2Pack.ULV.comparable H.wf hw hu (H2Pack.ULV.row_desc H.wf hw d hrow) (H2Pack.ULV.row_desc H.wf hu da hrow) with e | e
  · exact e
  · have := desc_level H.wf.tree e hw
    have he : u = w := by
      exact this.2 (by omega)
    exact he ▸ e

/-- Products of a pair whose row node is above `min_adm_level` are not seen. -/
theorem C61_lost (H : H2Input R pv adm) {W : Nat → Nat → Nat → ℝ} (hW : Nested R W) {i : Nat} (hi : i < R.adm.length) {r q : Nat}
    (hr : InRow R R.adm[i].1 r) (hq : InRow R R.adm[i].2 q) :
    (R.arr.level R.adm[i].1 < R.minAdm → seenEntry R W r q = 0) ∧ (R.arr.level R.adm[i].2 < R.minAdm → seenEntry R W q r = 0) := by
  have hwf := H.wf
  obtain ⟨_, _, f3, _⟩ := found_spec hwf.tree H.found
  have hh : Holds R.arr (r / R.kdim) (q / R.kdim) R.adm[i] := holds_rows hwf.kdim hr hq
  have sz : ∀ {v t : Nat}, v < R.arr.nNode → InRow R v t → t < R.size := fun hv ht => lt_of_lt_of_le ht.2 (rowE_le_size hwf hv)
  have hn := hwf.admNode _ (List.getElem_mem hi)
  have key : ∀ {r q : Nat}, r < R.size → q < R.size → ∀ (s : Bool), Holds R.arr (r / R.kdim) (q / R.kdim) (if s then R.adm[i].swap else R.adm[i]) →
      R.arr.level (if s then R.adm[i].2 else R.adm[i].1) < R.minAdm → seenEntry R W r q = 0 := by
    intro r q hr hq s hs hl
    obtain ⟨c1, c2, c3, c4, c5, hc, e1, e2, e3, e4, e5⟩ := entry_sums hwf hW H.adm H.inadm f3 hr hq
    have pos : (if s then c5 else c4) = 1 := by
      cases s
      · have : 0 < R.adm.countP (fun x => Holds R.arr (r / R.kdim) (q / R.kdim) x) :=
          List.countP_pos_iff.2 ⟨_, List.getElem_mem hi, by simpa using hs⟩
        simp; omega
      · have : 0 < R.adm.countP (fun x => Holds R.arr (q / R.kdim) (r / R.kdim) x) :=
          List.countP_pos_iff.2 ⟨_, List.getElem_mem hi, decide_eq_true (And.symm hs)⟩
        simp; omega
    have z1 : (∑ i ∈ range R.arr.nLeaf, blockEntry R (R.leaf i) (R.leaf i) (R.D i) r q) = 0 := by
      apply Finset.sum_eq_zero
      intro k hk
      apply blockEntry_zero hwf.kdim
      intro hk'
      have hlf := (H2Pack.Part.leaf_inj hwf.tree).2.1 k (mem_range.1 hk)
      have : 0 < ((H2Pack.Part.leaves R.arr).map (fun v => (v, v))).countP (fun x => Holds R.arr (r / R.kdim) (q / R.kdim) x) := by
        apply List.countP_pos_iff.2
        refine ⟨(R.leaf k, R.leaf k), List.mem_map.2 ⟨R.leaf k, ?_, rfl⟩, by simpa using hk'⟩
        unfold H2Pack.Part.leaves
        rw [List.mem_filter, List.mem_range]
        exact ⟨hlf.1, decide_eq_true hlf.2⟩
      cases s <;> simp at pos <;> omega
    have z2 : (∑ i ∈ range R.inadm.length, (inadmEntry R i r q + inadmEntry R i q r)) = 0 := by
      apply Finset.sum_eq_zero
      intro k hk
      rw [mem_range] at hk
      rw [inadm_zero hwf hk, inadm_zero hwf hk, add_zero]
      · intro hk'
        have : 0 < R.inadm.countP (fun x => Holds R.arr (q / R.kdim) (r / R.kdim) x) :=
          List.countP_pos_iff.2 ⟨_, List.getElem_mem hk, by simpa using hk'⟩
        cases s <;> simp at pos <;> omega
      · intro hk'
        have : 0 < R.inadm.countP (fun x => Holds R.arr (r / R.kdim) (q / R.kdim) x) :=
          List.countP_pos_iff.2 ⟨_, List.getElem_mem hk, by simpa using hk'⟩
        cases s <;> simp at pos <;> omega
    unfold seenEntry
    rw [z1, z2, add_zero, add_zero, Finset.sum_add_distrib]
    cases s
    · simp only [Bool.false_eq_true, if_false] at hs hl pos
      rw [sum_count_one R.adm (fun x => decide (Holds R.arr (r / R.kdim) (q / R.kdim) x)) _ (by
          intro k hk hf
          rw [adm_zero hwf hW hk (by simpa using hf)]; simp) (by omega) hi (by simpa using hs), sum_count_zero R.adm (fun x => decide (Holds R.arr (q / R.kdim) (r / R.kdim) x)) _ (by
          intro k hk hf
          rw [adm_zero hwf hW hk (by simpa using hf)]; simp) (by omega), getD_adm hi, if_neg (by omega), add_zero]
    · simp only [if_true] at hs hl pos
      rw [sum_count_zero R.adm (fun x => decide (Holds R.arr (r / R.kdim) (q / R.kdim) x)) _ (by
          intro k hk hf
          rw [adm_zero hwf hW hk (by simpa using hf)]; simp) (by omega), sum_count_one R.adm (fun x => decide (Holds R.arr (q / R.kdim) (r / R.kdim) x)) _ (by
          intro k hk hf
          rw [adm_zero hwf hW hk (by simpa using hf)]; simp) (by omega) hi (decide_eq_true (And.symm hs)), getD_adm hi, if_neg (by omega), add_zero]
  constructor
  · intro hl
    exact key (sz hn.1 hr) (sz hn.2 hq) false (by simpa using hh) (by simpa using hl)
  · intro hl
    exact key (sz hn.2 hq) (sz hn.1 hr) true (by simpa [Holds, and_comm] using hh) (by simpa using hl)

/-- When both nodes of every admissible pair are at or below `min_adm_level`, nothing is lost. -/
theorem C61_complete {W : Nat → Nat → Nat → ℝ} (h : ∀ x ∈ R.adm, R.minAdm ≤ R.arr.level x.1 ∧ R.minAdm ≤ R.arr.level x.2) (r q : Nat) :
    seenEntry R W r q = entry R W r q := by
  unfold seenEntry entry
  congr 2
  apply Finset.sum_congr rfl
  intro i hi
  rw [mem_range] at hi
  have := h _ (List.getElem_mem hi)
  rw [getD_adm hi, if_pos this.1, if_pos this.2]

end

/-- The tables built from the metadata of the H2 matrix. -/
theorem jit_tables {J : JIT ℝ} {pv : Pairs} {adm : Nat → Nat → Bool} (H : H2Input J.aot pv adm) (EB ED : MetaEnv)
    (hEB : EB.Valid J.R.arr.nNode) (hED : ED.Valid J.R.arr.nNode) :
    ∃ MB MD, Returns (generateB J false EB) MB ∧ Returns (generateD J false ED) MD ∧
    ∀ (wB wD : List Nat), H2Pack.Utils.Interleaving EB.nTask (worksB MB) wB → H2Pack.Utils.Interleaving ED.nTask (worksD J.R.arr.nLeaf MD) wD →
    ∀ (b0 d0 : Nat → ℝ) (jit : Bool),
      (∀ E : MMEnv ℝ, Tables J.aot MB MD (fun a b => (getBij J MB jit (runB J MB wB b0) (E.dstB a b) a b).getD (E.staleB a b))
        (fun a b => (getDij J MD jit (runD J MD wD d0) (E.dstD a b) a b).getD (E.staleD a b))) ∧
      (J.R.arr.nChild (J.R.arr.nNode - 1) ≠ 0 → J.R.arr.nNode * J.R.arr.nNode ≤ 2 ^ 31 → ∀ dst1 dst2 : Nat → Nat → Nat → ℝ,
        Source J.aot pv adm (fun a b => getBij J MB jit (runB J MB wB b0) (dst1 a b) a b) (fun a b => getDij J MD jit (runD J MD wD d0) (dst2 a b) a b)) := by
  have h := H.wf
  have T : ClusterTree J.R.arr J.R.nPoint := h.tree
  obtain ⟨hdB, hdD⟩ := H.distinct
  have hne : J.R.adm ≠ [] := H.some
  obtain ⟨l1, l2, l3⟩ := H2Pack.Part.leaf_inj T
  have hlf : ∀ i < J.R.arr.nLeaf, J.R.leaf i < J.R.arr.nNode := fun i hi => (l2 i hi).1
  obtain ⟨MB, hMB, _, _, _, _, _, hrowB⟩ := C27_B_metadata J EB hEB hdB hne
  obtain ⟨MB', hMB', hgB⟩ := C27_get_Bij J EB hEB hdB hne
  obtain ⟨MD, hMD, _, _, _, _, _, _, hrowD⟩ := C27_D_metadata J ED hED hlf l3 l1 hdD
  obtain ⟨MD', hMD', hgD⟩ := C27_get_Dij J ED hED hlf l3 l1 hdD
  obtain rfl := returns_unique hMB hMB'
  obtain rfl := returns_unique hMD hMD'
  obtain ⟨ap1, ap2, _⟩ := H.apart
  refine ⟨MB, MD, hMB, hMD, ?_⟩
  intro wB wD hwB hwD b0 d0 jit
  have useB : ∀ E : MMEnv ℝ, ∀ i (hi : i < J.aot.adm.length) (t : Bool), 0 < (J.aot.B i).ncol := by
    intro E i hi t
    have hn := h.admNode _ (List.getElem_mem hi)
    have hlv := h.admLevel _ (List.getElem_mem hi)
    rw [h.bCol i hi]
    split
    · next hl => exact h.rank _ hn.2 (by omega)
    · have := rowS_lt_rowE h hn.2; omega
  have hcp1 : ∀ i (hi : i < J.aot.inadm.length), 0 < (J.aot.D (J.aot.arr.nLeaf + i)).ncol := by
    intro i hi
    rw [(h.d1 i hi).2]; have := rowS_lt_rowE h (h.inadmNode _ (List.getElem_mem hi)).2; omega
  have hcp0 : ∀ i < J.aot.arr.nLeaf, 0 < (J.aot.D i).ncol := by
    intro i hi
    rw [(h.d0 i hi).2]; have : J.aot.rowS (J.aot.leaf i) < J.aot.rowE (J.aot.leaf i) := rowS_lt_rowE h (hlf i hi); omega
  constructor
  · intro E
    refine ⟨?_, ?_, ?_, ?_, ?_, ?_, ap1, ap2⟩
    · refine tableB h hrowB ?_
      intro i hi t
      cases t
      · exact isBlock_use ((hgB wB hwB b0 _ jit).1 i hi).1 _ (useB E i hi false)
      · exact isBlock_use ((hgB wB hwB b0 _ jit).1 i hi).2 _ (useB E i hi false)
    · refine tableD h hlf hrowD ?_ ?_
      · intro i hi
        exact isBlock_use ((hgD wD hwD d0 _ jit).1 i hi) _ (hcp0 i hi)
      · intro i hi t
        cases t
        · exact isBlock_use ((hgD wD hwD d0 _ jit).2.1 i hi).1 _ (hcp1 i hi)
        · exact isBlock_use ((hgD wD hwD d0 _ jit).2.1 i hi).2 _ (hcp1 i hi)
    · intro r hr c hc
      rcases mem_rowD (R := J.aot) (hrowD r hr) hc with ⟨i, hi, rfl, rfl⟩ | ⟨i, hi, hh⟩
      · exact (isBlock_use ((hgD wD hwD d0 _ jit).1 i hi) _ (hcp0 i hi)).2.1.trans (h.d0 i hi).2
      · rcases hh with ⟨rfl, rfl⟩ | ⟨rfl, rfl⟩
        · exact (isBlock_use ((hgD wD hwD d0 _ jit).2.1 i hi).1 _ (hcp1 i hi)).2.1.trans (h.d1 i hi).2
        · exact (isBlock_use ((hgD wD hwD d0 _ jit).2.1 i hi).2 _ (hcp1 i hi)).2.1.trans (h.d1 i hi).1
    · intro i hi
      exact ⟨(isBlock_use ((hgB wB hwB b0 _ jit).1 i hi).1 _ (useB E i hi false)).1, (isBlock_use ((hgB wB hwB b0 _ jit).1 i hi).2 _ (useB E i hi false)).1⟩
    · intro r hr c hc
      obtain ⟨i, hi, hh⟩ := mem_rowB (R := J.aot) (hrowB r hr) hc
      rcases hh with ⟨rfl, rfl⟩ | ⟨rfl, rfl⟩
      · exact ap1 i hi
      · exact (ap1 i hi).symm
    · intro r hr c hc hrc
      rcases mem_rowD (R := J.aot) (hrowD r hr) hc with ⟨i, hi, rfl, rfl⟩ | ⟨i, hi, hh⟩
      · exact absurd rfl hrc
      · rcases hh with ⟨rfl, rfl⟩ | ⟨rfl, rfl⟩
        · exact ap2 i hi
        · exact (ap2 i hi).symm
  · intro hroot hsm dst1 dst2
    exact ⟨h, H.found, H.adm, H.inadm, H.min, fun v hv hl => (H.low v hv hl).2, hroot, hsm, fun i hi => ((hgB wB hwB b0 _ jit).1 i hi).1,
      fun i hi => (hgD wD hwD d0 _ jit).1 i hi, fun i hi => ((hgD wD hwD d0 _ jit).2.1 i hi).1⟩

/-- C61: the samples.  For every H2 matrix, both storage modes, every random matrix `vec` and every order of the parallel iterations, the sampling function
terminates, no assertion fails, the matrices have the sizes that `H2P_SPDHSS_H2_build` relies on, and matrix `l` of a leaf `v` is
`M(rows of v, columns outside u) * vec(outside u, :)` for the node `u` that is `l` levels above `v`; `M` is the H2 matrix without the products of admissible
blocks whose row node is above `min_adm_level` (`C61_complete`: the H2 matrix itself when there are none). -/
theorem C61_sampling {J : JIT ℝ} {pv : Pairs} {adm : Nat → Nat → Bool} (H : H2Input J.aot pv adm) {W : Nat → Nat → Nat → ℝ} (hW : Nested J.aot W)
    (EB ED : MetaEnv) (hEB : EB.Valid J.R.arr.nNode) (hED : ED.Valid J.R.arr.nNode) :
    ∃ MB MD, Returns (generateB J false EB) MB ∧ Returns (generateD J false ED) MD ∧
    ∀ (wB wD : List Nat), H2Pack.Utils.Interleaving EB.nTask (worksB MB) wB → H2Pack.Utils.Interleaving ED.nTask (worksD J.R.arr.nLeaf MD) wD →
    ∀ (b0 d0 : Nat → ℝ) (jit : Bool) (E : MMEnv ℝ), E.Valid J.R → ∀ (ord : Nat → List Nat), (∀ l, (ord l).Perm (J.R.levelList l)) →
    ∀ lf : List Nat, lf.Perm ((List.range J.R.arr.nLeaf).map J.R.leaf) → ∀ (nvec : Nat) (vec : Nat → ℝ), 0 < nvec →
      ∃ Y, accMatvec J MB MD jit (runB J MB wB b0) (runD J MD wD d0) E ord lf nvec vec = .ok Y ∧ Sampled J.aot nvec Y ∧
        Samples J.aot (seenEntry J.aot W) nvec vec Y := by
  obtain ⟨MB, MD, hMB, hMD, hT⟩ := jit_tables H EB ED hEB hED
  refine ⟨MB, MD, hMB, hMD, ?_⟩
  intro wB wD hwB hwD b0 d0 jit E hE ord hord lf hlf nvec vec hnv
  exact acc_core H.wf hW ((hT wB wD hwB hwD b0 d0 jit).1 E) (fun v hv hl => (H.low v hv hl).1) H.apart.2.2 ⟨hE.fwd, hE.bwd, hE.ordB, hE.ordD⟩ hord hlf hnv vec

/-- C61: sampling followed by the construction: for every H2 matrix `A` whose shifted matrix is positive definite, the HSS matrix built from the samples is
positive definite, whatever the random matrix was. -/
theorem C61_sample_then_build {P : Params} (hlp : P.lp.Correct) (hdf : P.lp.Definite) (hlq : P.lq.Correct) (hrank : 0 < P.maxRank)
    {J : JIT ℝ} {pv hss : Pairs} {mark : Nat → Nat} {adm : Nat → Nat → Bool} (H : H2Input J.aot pv adm) (hroot : J.R.arr.nChild (J.R.arr.nNode - 1) ≠ 0)
    (hsm : J.R.arr.nNode * J.R.arr.nNode ≤ 2 ^ 31) (hhss : HssPairs J.aot hss mark) {W : Nat → Nat → Nat → ℝ} (hW : Nested J.aot W)
    {A : Matrix (Fin J.aot.size) (Fin J.aot.size) ℝ} (hA : Represents J.aot W P.shift A) (hp : A.PosDef)
    (EB ED : MetaEnv) (hEB : EB.Valid J.R.arr.nNode) (hED : ED.Valid J.R.arr.nNode) :
    ∃ MB MD, Returns (generateB J false EB) MB ∧ Returns (generateD J false ED) MD ∧
    ∀ (wB wD : List Nat), H2Pack.Utils.Interleaving EB.nTask (worksB MB) wB → H2Pack.Utils.Interleaving ED.nTask (worksD J.R.arr.nLeaf MD) wD →
    ∀ (b0 d0 : Nat → ℝ) (jit : Bool) (E : MMEnv ℝ), E.Valid J.R → ∀ (ord : Nat → List Nat), (∀ l, (ord l).Perm (J.R.levelList l)) →
    ∀ lf : List Nat, lf.Perm ((List.range J.R.arr.nLeaf).map J.R.leaf) → ∀ (nvec : Nat) (vec : Nat → ℝ), 0 < nvec →
    ∀ (ord' : Nat → List Nat), (∀ l, (ord' l).Perm (J.R.levelList l)) → ∀ (pord : Nat → List (Nat × Nat)),
      (∀ l, 1 ≤ l → l ≤ J.R.arr.maxLevel → ∃ L, Returns (fun fuel => levelPairs J.R.arr pv fuel (J.R.arr.maxLevel - l)) L ∧ (pord l).Perm L) →
    ∀ dst1 dst2 : Nat → Nat → Nat → ℝ,
      ∃ Y B, accMatvec J MB MD jit (runB J MB wB b0) (runD J MD wD d0) E ord lf nvec vec = .ok Y ∧
        Returns (build P J.aot pv hss mark adm (fun a b => getBij J MB jit (runB J MB wB b0) (dst1 a b) a b)
          (fun a b => getDij J MD jit (runD J MD wD d0) (dst2 a b) a b) ord' pord Y) (B, true) ∧ HSS B ∧
        ∀ W', Nested B W' → ∀ A' : Matrix (Fin B.size) (Fin B.size) ℝ, Represents B W' 0 A' → A'.PosDef := by
  obtain ⟨MB, MD, hMB, hMD, hT⟩ := jit_tables H EB ED hEB hED
  refine ⟨MB, MD, hMB, hMD, ?_⟩
  intro wB wD hwB hwD b0 d0 jit E hE ord hord lf hlf nvec vec hnv ord' hord' pord hpord dst1 dst2
  obtain ⟨Y, e, hS, _⟩ := acc_core H.wf hW ((hT wB wD hwB hwD b0 d0 jit).1 E) (fun v hv hl => (H.low v hv hl).1) H.apart.2.2 ⟨hE.fwd, hE.bwd, hE.ordB, hE.ordD⟩ hord hlf hnv vec
  have I : Input P J.aot nvec pv hss mark adm _ _ ord' pord Y :=
    ⟨hlp, hdf, hlq, hrank, hnv, (hT wB wD hwB hwD b0 d0 jit).2 hroot hsm dst1 dst2, hhss, hS, hord', hpord⟩
  obtain ⟨B, h1, h2, _, _, _, _, _, h8⟩ := C57_spdhss_build I hW hA hp
  exact ⟨Y, B, e, h1, h2, h8⟩

/-! ## A concrete case -/

/-- Three leaves 0, 1, 2 with one point each, 3 = {1, 2}, root 4: leaf 0 is on level 1. -/
def threeTree : Arr ℝ where
  nNode := 5
  nLeaf := 3
  maxLevel := 2
  maxChild := 2
  parent := fun v => [4, 3, 3, 4, -1].getD v 0
  children := fun k => [-1, -1, -1, -1, -1, -1, 1, 2, 0, 3].getD k 0
  nChild := fun v => [0, 0, 0, 2, 2].getD v 0
  level := fun v => [1, 2, 2, 1, 0].getD v 0
  height := fun v => [0, 0, 0, 1, 2].getD v 0
  ptS := fun v => [0, 1, 2, 1, 0].getD v 0
  ptE := fun v => [0, 1, 2, 2, 2].getD v 0
  enbox := fun _ => ⟨fun _ => 0, fun _ => 0⟩
  levelN := fun l => [1, 2, 2].getD l 0
  levelNodes := fun k => [4, 0, 0, 0, 3, 0, 1, 2].getD k 0
  heightN := fun l => [3, 1, 1].getD l 0
  heightNodes := fun k => [0, 1, 2, 3, 0, 0, 4].getD k 0

def threeAdm (a b : Nat) : Bool := (a, b) ∈ [(0, 1), (0, 2)]
def threePairs : Pairs := ⟨[(0, 1), (0, 2)], [(1, 2)], 2⟩

/-- Four on the diagonal, one elsewhere. -/
noncomputable def threeJIT : JIT ℝ where
  R := { arr := threeTree, nPoint := 3, kdim := 1, coordIdx := fun i => i,
         U := fun v => if threeTree.level v = 2 then ⟨1, 1, fun _ _ => 1⟩ else ⟨0, 0, fun _ _ => 0⟩,
         adm := threePairs.adm, inadm := threePairs.inadm, B := fun _ => ⟨0, 0, fun _ _ => 0⟩, D := fun _ => ⟨0, 0, fun _ _ => 0⟩,
         minAdm := 2, mark := fun _ => 1 }
  simd := 4
  xdim := 1
  kern p q _ _ := if p 0 = q 0 then 4 else 1
  bimv := none
  coord i := i
  jn _ := 1
  jc v k := (threeTree.ptS v + k : Nat)
  junkM _ _ := 7
  junkW _ _ := 7

theorem three_tree : ClusterTree threeTree 3 := by
  constructor
  case pad =>
    intro v hv i h1 h2
    have hv' : v < 5 := hv
    have h2' : i < 2 := h2
    interval_cases v <;> interval_cases i <;> first | rfl | exact absurd h1 (by decide)
  case childOfParent =>
    intro c hc
    have hc' : c + 1 < 5 := hc
    have : c < 4 := by omega
    interval_cases c
    · exact ⟨4, by decide, by decide⟩
    · exact ⟨3, by decide, by decide⟩
    · exact ⟨3, by decide, by decide⟩
    · exact ⟨4, by decide, by decide⟩
  case levelRow =>
    intro l
    rcases l with _ | _ | _ | l
    · decide
    · decide
    · decide
    · exact Nat.zero_le _
  case levelList =>
    intro l
    rcases l with _ | _ | _ | l
    · decide
    · decide
    · decide
    · rfl
  case heightRow =>
    intro l
    rcases l with _ | _ | _ | l
    · decide
    · decide
    · decide
    · exact Nat.zero_le _
  case heightList =>
    intro l
    rcases l with _ | _ | _ | l
    · decide
    · decide
    · decide
    · rfl
  case tile =>
    intro v hv h0
    have hv' : v < 5 := hv
    interval_cases v <;> first | exact absurd rfl h0 | exact ⟨rfl, by decide, rfl, by decide, rfl⟩
  all_goals decide

theorem three_wf : WF threeJIT.aot where
  tree := three_tree
  kdim := Nat.one_pos
  perm := by decide
  rank := by
    intro v hv hl
    have hv' : v < 5 := hv
    have hl' : 2 ≤ threeTree.level v := hl
    interval_cases v <;> first | exact absurd hl' (by decide) | (show 0 < 1; omega)
  uLeaf := by
    intro v hv hl
    have hv' : v < 5 := hv
    have hl' : 2 ≤ threeTree.level v := hl
    interval_cases v <;> first | exact absurd hl' (by decide) | (intro _; rfl)
  uInner := by
    intro v hv hl h0
    have hv' : v < 5 := hv
    have hl' : 2 ≤ threeTree.level v := hl
    interval_cases v <;> first | exact absurd hl' (by decide) | exact absurd rfl h0
  admNode := by decide
  admLevel := by decide
  marked := by
    intro x hx
    exact ⟨fun _ => Nat.one_ne_zero, fun _ => Nat.one_ne_zero⟩
  bRow := by
    intro i hi
    have hi' : i < 2 := hi
    interval_cases i <;> rfl
  bCol := by
    intro i hi
    have hi' : i < 2 := hi
    interval_cases i <;> rfl
  inadmNode := by decide
  d0 := by
    intro i hi
    have hi' : i < 3 := hi
    interval_cases i <;> exact ⟨rfl, rfl⟩
  d1 := by
    intro i hi
    have hi' : i < 1 := hi
    interval_cases i
    exact ⟨rfl, rfl⟩

theorem three_input : H2Input threeJIT.aot threePairs threeAdm where
  wf := three_wf
  found := by
    refine ⟨5, fun fuel hf => ?_⟩
    obtain ⟨n, rfl⟩ := Nat.exists_eq_add_of_le' hf
    rfl
  adm := rfl
  inadm := rfl
  min := rfl
  some := by decide
  low := by
    intro v hv hl
    have hv' : v < 5 := hv
    have hl' : threeTree.level v < 2 := hl
    interval_cases v <;> first | exact absurd hl' (by decide) | exact ⟨rfl, rfl⟩

theorem three_adm : 0 < admEntry threeJIT.aot (basis threeJIT.aot) 0 0 1 ∧ 0 < admEntry threeJIT.aot (basis threeJIT.aot) 1 0 2 := by
  have hWn := basis_nested three_wf
  have w1 : basis threeJIT.aot 1 1 0 = 1 := by
    rw [hWn.leaf 1 (by decide) (by decide) rfl 1 0 (by show 0 < 1; omega), if_pos (by decide)]; rfl
  have w2 : basis threeJIT.aot 2 2 0 = 1 := by
    rw [hWn.leaf 2 (by decide) (by decide) rfl 2 0 (by show 0 < 1; omega), if_pos (by decide)]; rfl
  constructor
  · unfold admEntry
    rw [show (threeJIT.aot.B 0).nrow = 1 from rfl, show (threeJIT.aot.B 0).ncol = 1 from rfl, Finset.sum_range_one, Finset.sum_range_one]
    have s1 : side threeJIT.aot (basis threeJIT.aot) 0 1 0 0 = 1 := by
      unfold side
      rw [if_neg (by decide), if_pos (by decide)]
    have s2 : side threeJIT.aot (basis threeJIT.aot) 1 0 1 0 = 1 := by
      unfold side
      rw [if_pos (by decide), w1]
    show 0 < side threeJIT.aot _ 0 1 0 0 * (if _ then (4 : ℝ) else 1) * side threeJIT.aot _ 1 0 1 0
    rw [s1, s2]
    split <;> norm_num
  · unfold admEntry
    rw [show (threeJIT.aot.B 1).nrow = 1 from rfl, show (threeJIT.aot.B 1).ncol = 1 from rfl, Finset.sum_range_one, Finset.sum_range_one]
    have s1 : side threeJIT.aot (basis threeJIT.aot) 0 2 0 0 = 1 := by
      unfold side
      rw [if_neg (by decide), if_pos (by decide)]
    have s2 : side threeJIT.aot (basis threeJIT.aot) 2 0 2 0 = 1 := by
      unfold side
      rw [if_pos (by decide), w2]
    show 0 < side threeJIT.aot _ 0 2 0 0 * (if _ then (4 : ℝ) else 1) * side threeJIT.aot _ 2 0 2 0
    rw [s1, s2]
    split <;> norm_num

def threeHss : Pairs := ⟨[(1, 2), (0, 3)], [], 1⟩

theorem three_hss : HssPairs threeJIT.aot threeHss (fun _ => 1) where
  pairs := by
    intro a b
    constructor
    · intro h
      have h' : (a, b) ∈ [(1, 2), (0, 3)] := h
      simp only [List.mem_cons, Prod.mk.injEq, List.not_mem_nil, or_false] at h'
      rcases h' with ⟨rfl, rfl⟩ | ⟨rfl, rfl⟩
      · exact ⟨3, by decide, 0, 1, by decide, by decide, rfl, rfl⟩
      · exact ⟨4, by decide, 0, 1, by decide, by decide, rfl, rfl⟩
    · rintro ⟨v, hv, k, l, hkl, hl, rfl, rfl⟩
      have hv' : v < 5 := hv
      have hl2 : l < 2 := by
        have : threeTree.nChild v ≤ 2 := by interval_cases v <;> decide
        exact lt_of_lt_of_le hl this
      obtain rfl : l = 1 := by omega
      obtain rfl : k = 0 := by omega
      interval_cases v <;> first | exact absurd hl (by decide) | decide
  nodup := by decide
  inadm := rfl
  min := rfl
  marked := by
    intro x hx
    exact ⟨Nat.one_ne_zero, Nat.one_ne_zero⟩

def threeW (v r _c : Nat) : ℝ := if (v = 1 ∧ r = 1) ∨ (v = 2 ∧ r = 2) then 1 else 0

theorem three_nested : Nested threeJIT.aot threeW where
  leaf := by
    intro v hv hl _ x c hc
    have hv' : v < 5 := hv
    have hl' : 2 ≤ threeTree.level v := hl
    interval_cases v
    · exact absurd hl' (by decide)
    · show threeW 1 x c = if 1 * 1 ≤ x ∧ x < 1 * (1 + 1) then 1 else 0
      unfold threeW
      simp only [show (x = 1) ↔ (1 ≤ x ∧ x < 2) by omega]
      norm_num
    · show threeW 2 x c = if 1 * 2 ≤ x ∧ x < 1 * (2 + 1) then 1 else 0
      unfold threeW
      simp only [show (x = 2) ↔ (2 ≤ x ∧ x < 3) by omega]
      norm_num
    · exact absurd hl' (by decide)
    · exact absurd hl' (by decide)
  inner := by
    intro v hv hl h0
    have hv' : v < 5 := hv
    interval_cases v <;> first | exact absurd rfl h0 | exact absurd hl (by decide)

def threeMat (s : ℝ) : Matrix (Fin 3) (Fin 3) ℝ := fun i j => if i = j then 4 + s else 1

set_option maxHeartbeats 2000000 in
theorem three_represents (s : ℝ) : Represents threeJIT.aot threeW s (threeMat s) := by
  intro i hi a ha j hj b hb x y hx hy
  have ha' : a < 1 := ha
  have hb' : b < 1 := hb
  have hi' : i < 3 := hi
  have hj' : j < 3 := hj
  obtain rfl : a = 0 := by omega
  obtain rfl : b = 0 := by omega
  have ex : x = (⟨i, hi'⟩ : Fin 3) := Fin.ext (by rw [hx]; show i * 1 + 0 = i; omega)
  have ey : y = (⟨j, hj'⟩ : Fin 3) := Fin.ext (by rw [hy]; show j * 1 + 0 = j; omega)
  rw [ex, ey]
  show _ = H2Pack.ULV.shifted threeJIT.aot threeW s (i * 1 + 0) (j * 1 + 0)
  interval_cases i <;> interval_cases j <;>
    simp [threeMat, H2Pack.ULV.shifted, entry, admEntry, inadmEntry, blockEntry, side, JIT.aot, JIT.block, JIT.sidePts, JIT.jPts, JIT.cPts, JIT.npt, kmat, point,
      threeJIT, threePairs, threeW, Rep.rowS, Rep.rowE, Rep.leaf, Finset.sum_range_succ, threeTree]

theorem three_posDef {s : ℝ} (hs : -3 < s) : (threeMat s).PosDef := by
  have e : threeMat s = (3 + s) • (1 : Matrix (Fin 3) (Fin 3) ℝ) + vecMulVec (fun _ => 1) (star fun _ => 1) := by
    ext i j
    fin_cases i <;> fin_cases j <;> simp [threeMat, vecMulVec_apply] <;> ring
  rw [e]
  exact Matrix.PosDef.add_posSemidef (Matrix.PosDef.one.smul (by linarith)) (posSemidef_vecMulVec_self_star _)

/-- The hypotheses of `C61_sample_then_build` are met. -/
example : ∃ P : Params, P.lp.Correct ∧ P.lp.Definite ∧ P.lq.Correct ∧ 0 < P.maxRank ∧ H2Input threeJIT.aot threePairs threeAdm ∧
    threeJIT.R.arr.nChild (threeJIT.R.arr.nNode - 1) ≠ 0 ∧ threeJIT.R.arr.nNode * threeJIT.R.arr.nNode ≤ 2 ^ 31 ∧ HssPairs threeJIT.aot threeHss (fun _ => 1) ∧
    Nested threeJIT.aot threeW ∧ Represents threeJIT.aot threeW P.shift (threeMat P.shift) ∧ (threeMat P.shift).PosDef := by
  obtain ⟨lp, h1, h2⟩ := H2Pack.ULV.lapack_exists
  obtain ⟨lq, h3⟩ := lapack2_exists
  exact ⟨⟨lp, lq, 1, 1/2, -1, fun _ _ _ => 7⟩, h1, h2, h3, Nat.one_pos, three_input, by decide, by decide, three_hss, three_nested, three_represents _,
    three_posDef (by show (-3 : ℝ) < -1; norm_num)⟩

/-- The hypotheses of C61 are met; and in this case the samples of leaf 0 are zero although all entries of its row of the matrix are positive. -/
theorem C61_lost_case : H2Input threeJIT.aot threePairs threeAdm ∧
    (∀ q < 3, 0 < entry threeJIT.aot (basis threeJIT.aot) 0 q) ∧
    ∃ (EB : MetaEnv) (MB MD : Meta) (E : MMEnv ℝ), EB.Valid 5 ∧ Returns (generateB threeJIT false EB) MB ∧ Returns (generateD threeJIT false EB) MD ∧ E.Valid threeJIT.R ∧
      ∀ (wB wD : List Nat), H2Pack.Utils.Interleaving EB.nTask (worksB MB) wB → H2Pack.Utils.Interleaving EB.nTask (worksD 3 MD) wD →
      ∀ (b0 d0 : Nat → ℝ) (jit : Bool) (nvec : Nat) (vec : Nat → ℝ), 0 < nvec →
        ∃ Y e, accMatvec threeJIT MB MD jit (runB threeJIT MB wB b0) (runD threeJIT MD wD d0) E threeJIT.R.levelList [0, 1, 2] nvec vec = .ok Y ∧
          Y 0 0 = some ⟨1, nvec, e⟩ ∧ ∀ j < nvec, e 0 j = 0 := by
  have hWn := basis_nested three_wf
  refine ⟨three_input, ?_, ?_⟩
  · obtain ⟨_, _, f3, _⟩ := found_spec three_input.wf.tree three_input.found
    intro q hq
    obtain ⟨t1, t2, t3⟩ := entry_eq three_wf hWn three_input.adm three_input.inadm f3 (r := 0) (q := q) (by decide) hq
    interval_cases q
    · rw [t1 0 (by decide) (by decide) (by decide)]
      show (0 : ℝ) < if _ then 4 else 1
      split <;> norm_num
    · rw [t3 0 (by decide) (by decide) (by decide)]
      exact three_adm.1
    · rw [t3 1 (by decide) (by decide) (by decide)]
      exact three_adm.2
  · have hEB : (⟨3, 2, 2, fun _ => 0, fun _ => 0, List.range 5⟩ : MetaEnv).Valid threeJIT.R.arr.nNode := ⟨by show 1 ≤ 3; omega, List.Perm.refl _⟩
    obtain ⟨MB, MD, h1, h2, h3⟩ := C61_sampling three_input hWn _ _ hEB hEB
    have hE : (⟨threeJIT.R.levelList, threeJIT.R.levelList, List.range 5, List.range 5, fun _ _ => 5, fun _ _ => 6,
      fun _ _ => 7, fun _ _ => 8, fun _ => 0, fun _ => 0, fun _ _ _ => 9, fun _ _ _ => 10, fun _ _ => ⟨0, 0, 0, fun _ => 0⟩, fun _ _ => ⟨0, 0, 0, fun _ => 0⟩⟩ :
      MMEnv ℝ).Valid threeJIT.R := ⟨fun _ => List.Perm.refl _, fun _ => List.Perm.refl _, List.Perm.refl _, List.Perm.refl _⟩
    refine ⟨_, MB, MD, _, hEB, h1, h2, hE, ?_⟩
    intro wB wD hwB hwD b0 d0 jit nvec vec hnv
    obtain ⟨Y, e, _, hS⟩ := h3 wB wD hwB hwD b0 d0 jit _ hE threeJIT.R.levelList (fun _ => List.Perm.refl _) [0, 1, 2] (by decide) nvec vec hnv
    obtain ⟨f, hf, hv⟩ := hS 0 (by decide) rfl 0 (by decide) 0 (by decide) (Desc.refl _) rfl
    refine ⟨Y, f, e, hf, ?_⟩
    intro j hj
    rw [hv 0 (by decide) j hj]
    apply Finset.sum_eq_zero
    intro q hq
    have hq' : q < 3 := mem_range.1 hq
    interval_cases q
    · exact if_pos (by decide)
    · rw [if_neg (by decide), show threeJIT.aot.rowS 0 + 0 = 0 from rfl, (C61_lost three_input hWn (i := 0) (by decide) (r := 0) (q := 1) (by decide) (by decide)).1 (by decide), zero_mul]
    · rw [if_neg (by decide), show threeJIT.aot.rowS 0 + 0 = 0 from rfl, (C61_lost three_input hWn (i := 1) (by decide) (r := 0) (q := 2) (by decide) (by decide)).1 (by decide), zero_mul]

end H2Pack.SPD
