import Verif.Proof.MatvecPer3
import Verif.Props.Metadata
import Verif.Props.Build

/-!
# C53: product with a periodic H2 matrix

The matrix is `Per.entry` (Spec/Periodic.lean): one kernel block for every directed pair, with the second point set moved by the shift stored
for the pair, the diagonal blocks of the leaves, and the root block between the bases of the root.
-/

set_option linter.unusedSectionVars false

namespace H2Pack.MV
open H2Pack.Part (Arr kids ClusterTree)
open Finset (range sum_congr mul_sum sum_mul sum_comm sum_add_distrib sum_range_succ mem_range)

section
variable {K : Type} [CommRing K]

namespace Per
variable {P : Per K}

/-- The metadata functions of a periodic system (`is_RPY_Ewald = 1`): they return, and their results describe the pairs. -/
theorem generateB_per (h : P.Ok) (E : MetaEnv) (hE : E.Valid P.J.R.arr.nNode) (hne : P.J.R.adm ≠ []) :
    ∃ M, Returns (generateB P.J true E) M ∧ Stored P.J.R.adm.length P.J.aot.B M ∧
      (∀ v, M.nAdm v = P.J.R.adm.countP fun x => x.1 = v) ∧
      ∀ r < P.J.R.arr.nNode, (csrRow M r).Perm ((P.tripB.filter (fun x => x.1 = r)).map Prod.snd) := by
  have inv := bInv P.J true P.J.R.adm.length
  generalize hs : (List.range P.J.R.adm.length).foldl (bMetaStep P.J true) MetaSt.init = s at inv
  have hsum : ∑ j ∈ range P.J.R.adm.length, s.sz j = s.total := by
    rw [inv.total]
    exact sum_congr rfl (fun j hj => inv.sized.sz j (mem_range.1 hj))
  obtain ⟨b, hb, tb⟩ := tasks_mk P.J.R.adm.length E.nTask E.cap0 s.sz s.total hE.task (le_of_eq hsum)
  have htrip : s.trip = P.tripB := by
    rw [inv.trip]
    unfold tripB pairTrip
    simp only [if_true]
    rw [List.map_eq_flatMap]
  have hpos : 0 < P.J.R.adm.length := List.length_pos_iff.2 hne
  obtain ⟨C, hC, c0, c1, c2, c3⟩ := csr_rows P.J.R.arr.nNode s _ htrip (by
      intro hh
      have : P.tripB.length = P.J.R.adm.length := by simp [tripB]
      rw [hh] at this
      simp at this
      omega) (by
      intro z hz
      unfold tripB at hz
      rw [List.mem_map] at hz
      obtain ⟨i, hi, rfl⟩ := hz
      have hi := List.mem_range.1 hi
      dsimp only
      rw [getD_adm hi]
      exact (h.admNode _ (List.getElem_mem hi)).1) E.col0 E.val0 E.order hE.order
  refine ⟨⟨s.nrow, s.ncol, prefixPtr P.J.R.adm.length s.sz, s.total, b.1 - 1, b.2, 0, fun _ => 0, C, s.nAdm⟩, ?_, ?_, ?_, ?_⟩
  · obtain ⟨F, hF⟩ := hC
    refine ⟨F, fun fuel hf => ?_⟩
    unfold generateB
    dsimp only
    rw [hs, hb]
    simp only [Res.bind_ok]
    rw [hF fuel hf]
    rfl
  · exact stored_mk inv.sized _ rfl rfl rfl inv.total
  · intro v
    show s.nAdm v = _
    rw [inv.nAdm v]
    have key : ∀ (L : List (Nat × Nat)), ∑ i ∈ range L.length, ((if (L.getD i (0, 0)).1 = v then 1 else 0) +
        if true = true then 0 else if (L.getD i (0, 0)).2 = v then 1 else 0) = (L.countP fun x => x.1 = v) := by
      intro L
      induction L with
      | nil => rfl
      | cons x L ih =>
        rw [List.length_cons, Finset.sum_range_succ', List.countP_cons]
        simp only [List.getD_cons_succ, List.getD_cons_zero, if_true, add_zero, decide_eq_true_eq] at ih ⊢
        rw [ih]
    exact key _
  · exact c3

theorem generateD_per (h : P.Ok) (E : MetaEnv) (hE : E.Valid P.J.R.arr.nNode) :
    ∃ M, Returns (generateD P.J true E) M ∧ Stored (P.J.R.arr.nLeaf + P.J.R.inadm.length) P.J.aot.D M ∧
      ∀ r < P.J.R.arr.nNode, (csrRow M r).Perm ((P.tripD.filter (fun x => x.1 = r)).map Prod.snd) := by
  have inv := dInv1 P.J true P.J.R.inadm.length
  have inv0 := dInv0 P.J P.J.R.arr.nLeaf (le_refl _)
  generalize hs0 : (List.range P.J.R.arr.nLeaf).foldl (dMetaLeaf P.J) MetaSt.init = s0 at inv inv0
  generalize hs : (List.range P.J.R.inadm.length).foldl (dMetaPair P.J true) { s0 with total := 0 } = s at inv
  have hsum0 : ∑ j ∈ range P.J.R.arr.nLeaf, s.sz j = s0.total := by
    rw [inv0.total]
    exact sum_congr rfl (fun j hj => inv.sized.sz j (by have := mem_range.1 hj; omega))
  have hsum1 : ∑ j ∈ range P.J.R.inadm.length, s.sz (P.J.R.arr.nLeaf + j) = s.total := by
    rw [inv.total]
    exact sum_congr rfl (fun j hj => inv.sized.sz _ (by have := mem_range.1 hj; omega))
  obtain ⟨b0, hb0, tb0⟩ := tasks_mk P.J.R.arr.nLeaf E.nTask E.cap0 s.sz s0.total hE.task (le_of_eq hsum0)
  obtain ⟨b1, hb1, tb1⟩ := tasks_mk P.J.R.inadm.length E.nTask E.cap1 (fun i => s.sz (P.J.R.arr.nLeaf + i)) s.total hE.task (le_of_eq hsum1)
  have htrip : s.trip = P.tripD := by
    rw [inv.trip]
    unfold tripD pairTrip
    simp only [if_true]
    rw [List.range_add, List.map_append, List.map_map]
    congr 1
    · rw [← List.map_eq_flatMap]
      apply List.map_congr_left
      intro i hi
      have hi := List.mem_range.1 hi
      have : P.dNode i = (P.J.R.leaf i, P.J.R.leaf i) := if_pos hi
      rw [this]
    · rw [← List.map_eq_flatMap]
      apply List.map_congr_left
      intro i _
      have : P.dNode (P.J.R.arr.nLeaf + i) = P.J.R.inadm.getD i (0, 0) := by
        unfold dNode
        rw [if_neg (by omega), Nat.add_sub_cancel_left]
      show _ = ((P.dNode (P.J.R.arr.nLeaf + i)).1, ((P.dNode (P.J.R.arr.nLeaf + i)).2 : Int), ((P.J.R.arr.nLeaf + i : Nat) : Int) + 1)
      rw [this]
  have h1 : 0 < P.J.R.arr.nLeaf := (H2Pack.Part.leaf_inj h.tree).1
  obtain ⟨C, hC, c0, c1, c2, c3⟩ := csr_rows P.J.R.arr.nNode s _ htrip (by
      intro hh
      have : P.tripD.length = P.J.R.arr.nLeaf + P.J.R.inadm.length := by simp [tripD]
      rw [hh] at this
      simp at this
      omega) (by
      intro z hz
      unfold tripD at hz
      rw [List.mem_map] at hz
      obtain ⟨i, hi, rfl⟩ := hz
      exact (dNode_lt h (List.mem_range.1 hi)).1) E.col0 E.val0 E.order hE.order
  refine ⟨⟨s.nrow, s.ncol, prefixPtr (P.J.R.arr.nLeaf + P.J.R.inadm.length) s.sz, s0.total + s.total, b0.1 - 1, b0.2, b1.1 - 1, b1.2, C, s.nAdm⟩,
    ?_, ?_, ?_⟩
  · obtain ⟨F, hF⟩ := hC
    refine ⟨F, fun fuel hf => ?_⟩
    unfold generateD
    dsimp only
    rw [hs0, hs, hb0]
    simp only [Res.bind_ok]
    rw [hb1]
    simp only [Res.bind_ok]
    rw [hF fuel hf]
    rfl
  · apply stored_mk inv.sized _ rfl rfl rfl
    show s0.total + s.total = _
    rw [inv0.total, inv.total, Finset.sum_range_add]
  · exact c3

theorem perMeta (h : P.Ok) {EB ED : MetaEnv} (hEB : EB.Valid P.J.R.arr.nNode) (hED : ED.Valid P.J.R.arr.nNode) (hne : P.J.R.adm ≠ []) :
    ∃ MB MD, Returns (generateB P.J true EB) MB ∧ Returns (generateD P.J true ED) MD ∧
      (∀ v, MB.nAdm v = P.J.R.adm.countP fun x => x.1 = v) ∧ (P.J.R.mark = MB.nAdm → P.PerMeta MB MD) := by
  obtain ⟨MB, b1, b2, b3, b4⟩ := generateB_per h EB hEB hne
  obtain ⟨MD, d1, d2, d3⟩ := generateD_per h ED hED
  refine ⟨MB, MD, b1, d1, b3, fun hm => ⟨b4, d3, fun i hi => ⟨b2.nrow i hi, b2.ncol i hi⟩, fun i hi => ⟨?_, ?_⟩, ?_⟩⟩
  · rw [d2.nrow i hi, D_eq P i]
    show (if i < P.J.R.arr.nLeaf then P.J.block _ _ else P.J.block _ _).nrow = _
    unfold dNode
    split <;> rfl
  · rw [d2.ncol i hi, D_eq P i]
    show (if i < P.J.R.arr.nLeaf then P.J.block _ _ else P.J.block _ _).ncol = _
    unfold dNode
    split <;> rfl
  · intro x hx
    rw [hm, b3]
    have : 0 < P.J.R.adm.countP fun y => y.1 = x.1 := List.countP_pos_iff.2 ⟨x, hx, by simp⟩
    omega

/-- The product, for metadata that describe the pairs. -/
theorem matvec_of_meta (h : P.Ok) {W : Nat → Nat → Nat → K} (hW : Nested P.J.R W) {MB MD : Meta} (hM : P.PerMeta MB MD) {PE : PerEnv K} (hE : PE.Valid P.J.R)
    (g : (Nat → Nat) × (Nat → Nat)) (dx dy x : Nat → K) :
    ∃ y, P.matvec PE MB MD g dx dy x = .ok y ∧
      (∀ i < P.J.R.nPoint, ∀ a < P.J.R.kdim, y (P.J.R.coordIdx i * P.J.R.kdim + a) =
        ∑ j ∈ range P.J.R.nPoint, ∑ b ∈ range P.J.R.kdim,
          P.entry W (i * P.J.R.kdim + a) (j * P.J.R.kdim + b) * x (P.J.R.coordIdx j * P.J.R.kdim + b)) ∧
      ∀ k, P.J.R.nPoint * P.J.R.kdim ≤ k → y k = dy k := by
  have C := C26_permutations P.J.R h.perm g
  obtain ⟨z, hz, hz2⟩ := matvecPmt_spec h hW hE hM (permuteFwd P.J.R g x dx)
  refine ⟨permuteBwd P.J.R g z dy, ?_, ?_, ?_⟩
  · unfold matvec
    rw [hz]; rfl
  · intro i hi a ha
    rw [(C _ dy dy).2.1 i hi a ha, hz2 _ (row_lt hi ha)]
    unfold Rep.size
    rw [sum_rows]
    apply sum_congr rfl; intro j hj
    apply sum_congr rfl; intro b hb
    rw [mem_range] at hj hb
    rw [(C x dx dx).1 j hj b hb]
  · intro k hk
    exact ((C _ dy dy).2.2.2.2 k hk).2

/-- **C53.**  Product with a periodic H2 matrix, for every cluster tree, pair lists, shifts, bases, skeletons, kernel, root block, `krnl_mv` or
`krnl_eval` variant, number of threads, order of the parallel iterations, previous contents of all buffers: the metadata functions return, and the
product returns the periodic H2 matrix times the input, in the order of the input points; nothing behind the output is changed. -/
theorem C53_periodic_matvec (h : P.Ok) {W : Nat → Nat → Nat → K} (hW : Nested P.J.R W) {EB ED : MetaEnv}
    (hEB : EB.Valid P.J.R.arr.nNode) (hED : ED.Valid P.J.R.arr.nNode) (hne : P.J.R.adm ≠ []) :
    ∃ MB MD, Returns (generateB P.J true EB) MB ∧ Returns (generateD P.J true ED) MD ∧ (P.J.R.mark = MB.nAdm →
      ∀ (PE : PerEnv K), PE.Valid P.J.R → ∀ (g : (Nat → Nat) × (Nat → Nat)) (dx dy x : Nat → K),
        ∃ y, P.matvec PE MB MD g dx dy x = .ok y ∧
          (∀ i < P.J.R.nPoint, ∀ a < P.J.R.kdim, y (P.J.R.coordIdx i * P.J.R.kdim + a) =
            ∑ j ∈ range P.J.R.nPoint, ∑ b ∈ range P.J.R.kdim,
              P.entry W (i * P.J.R.kdim + a) (j * P.J.R.kdim + b) * x (P.J.R.coordIdx j * P.J.R.kdim + b)) ∧
          ∀ k, P.J.R.nPoint * P.J.R.kdim ≤ k → y k = dy k) := by
  obtain ⟨MB, MD, b1, d1, _, hM⟩ := perMeta h hEB hED hne
  refine ⟨MB, MD, b1, d1, fun hm PE hE g dx dy x => ?_⟩
  exact matvec_of_meta h hW (hM hm) hE g dx dy x

end Per
end
end H2Pack.MV
