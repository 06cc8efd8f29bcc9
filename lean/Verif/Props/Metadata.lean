import Verif.Proof.Metadata
import Verif.Props.Matvec
import Verif.Props.MatvecJIT

set_option linter.unusedSectionVars false

/-!
# Storage of the generator and dense blocks (C27)

`J.aot.B i`, `J.aot.D i` are the blocks of pair `i` as kernel matrices (specification in `Model/MatvecJIT.lean`):
skeleton points on a side whose level is at least that of the other side, all points of the node otherwise.
-/

namespace H2Pack.MV
open H2Pack.Part (Arr kids)
open Finset

section
variable {K : Type} [CommRing K]

/-- The environment of the metadata functions: at least one task, every row of the index matrix is sorted once. -/
structure MetaEnv.Valid (E : MetaEnv) (nNode : Nat) : Prop where
  task : 1 ≤ E.nTask
  order : E.order.Perm (List.range nNode)

/-- Sizes, offsets and task list of the blocks `M.nrow`, ... for `n` blocks with the given sizes. -/
structure Stored (n : Nat) (blkOf : Nat → Mat K) (M : Meta) : Prop where
  nrow : ∀ i < n, M.nrow i = (blkOf i).nrow
  ncol : ∀ i < n, M.ncol i = (blkOf i).ncol
  start : M.ptr 0 = 0
  next : ∀ i < n, M.ptr (i + 1) = M.ptr i + (blkOf i).nrow * (blkOf i).ncol
  total : M.ptr n = M.total

/-- Every work of non-zero size is in exactly one block of the task list, and there are at most `nTask` blocks. -/
def Tasks (n nTask : Nat) (size : Nat → Nat) (nblk : Nat) (blk : Nat → Nat) : Prop :=
  nblk ≤ nTask ∧ (∀ b < nblk, blk b < blk (b + 1) ∧ blk (b + 1) ≤ n) ∧
  ∀ i < n, 0 < size i → ∃! b, b < nblk ∧ blk b ≤ i ∧ i < blk (b + 1)

theorem stored_mk {n : Nat} {f : Nat → Mat K} {s : MetaSt} (h : Sized (fun i => (f i).nrow) (fun i => (f i).ncol) n s)
    (M : Meta) (h1 : M.nrow = s.nrow) (h2 : M.ncol = s.ncol) (h3 : M.ptr = prefixPtr n s.sz)
    (h4 : M.total = ∑ i ∈ range n, (f i).nrow * (f i).ncol) : Stored n f M := by
  have e : ∀ i ≤ n, M.ptr i = ∑ j ∈ range i, (f j).nrow * (f j).ncol := by
    intro i hi
    rw [h3, prefixPtr_eq n s.sz i hi]
    apply sum_congr rfl
    intro j hj
    have := mem_range.1 hj
    exact h.sz j (by omega)
  refine ⟨fun i hi => by rw [h1]; exact h.nrow i hi, fun i hi => by rw [h2]; exact h.ncol i hi, ?_, ?_, ?_⟩
  · rw [e 0 (by omega)]; rfl
  · intro i hi
    rw [e i (by omega), e (i + 1) (by omega), sum_range_succ]
  · rw [e n (le_refl _), h4]

theorem tasks_mk (n nTask cap0 : Nat) (sz : Nat → Nat) (total : Nat) (ht : 1 ≤ nTask) (hs : ∑ j ∈ range n, sz j ≤ total) :
    ∃ b, H2Pack.Utils.partitionWorkload n sz total nTask cap0 = .ok b ∧ Tasks n nTask sz (b.1 - 1) b.2 := by
  obtain ⟨len, d, e, h1, h2, h3, h4, h5, h6, _⟩ := H2Pack.Utils.C03_partition_workload n sz total nTask cap0 ht hs
  refine ⟨(len, d), e, by show len - 1 ≤ _; omega, fun b hb => ⟨h4 b (by have : b < len - 1 := hb; omega), h5 _ (by have : b < len - 1 := hb; omega)⟩, ?_⟩
  intro i hi h0
  obtain ⟨b, ⟨b1, b2, b3⟩, b4⟩ := h6 i hi h0
  refine ⟨b, ⟨by show b < len - 1; omega, b2, b3⟩, ?_⟩
  rintro c ⟨c1, c2, c3⟩
  exact b4 c ⟨by have : c < len - 1 := c1; omega, c2, c3⟩

/-- **C27** (generator blocks).  For every list of distinct unordered pairs, skeleton sizes and clusters: the metadata
are computed without undefined behaviour; the storage ranges `[ptr i, ptr (i+1))` start at 0, are contiguous (hence disjoint),
have the size of block `i` and end at the allocated size; the index of `(n0, n1)` is `i+1`, that of `(n1, n0)` is `-(i+1)`
and that of any other pair of nodes is 0. -/
theorem C27_B_metadata (J : JIT K) (E : MetaEnv) (hE : E.Valid J.R.arr.nNode)
    (hd : DistinctPairs J.R.arr.nNode J.R.adm) (hne : J.R.adm ≠ []) :
    ∃ M, Returns (generateB J false E) M ∧ Stored J.R.adm.length J.aot.B M ∧
      Tasks J.R.adm.length E.nTask (fun i => (J.aot.B i).nrow * (J.aot.B i).ncol) M.nblk M.blk ∧
      (∀ i (h : i < J.R.adm.length),
        H2Pack.CSR.getElem M.csr J.R.adm[i].1 (J.R.adm[i].2 : Int) = (i : Int) + 1 ∧
        H2Pack.CSR.getElem M.csr J.R.adm[i].2 (J.R.adm[i].1 : Int) = -((i : Int) + 1)) ∧
      (∀ a < J.R.arr.nNode, ∀ b : Nat, (a, b) ∉ J.R.adm → (b, a) ∉ J.R.adm → H2Pack.CSR.getElem M.csr a (b : Int) = 0) ∧
      (∀ v, M.nAdm v = (J.R.adm.countP fun x => x.1 = v) + J.R.adm.countP fun x => x.2 = v) ∧
      ∀ r < J.R.arr.nNode, (M.csr.rowEntries r).Perm
        ((((List.range J.R.adm.length).flatMap fun i => [((J.R.adm.getD i (0, 0)).1, ((J.R.adm.getD i (0, 0)).2 : Int), (i : Int) + 1),
          ((J.R.adm.getD i (0, 0)).2, ((J.R.adm.getD i (0, 0)).1 : Int), -((i : Int) + 1))]).filter (fun x => x.1 = r)).map Prod.snd) := by
  have inv := bInv J false J.R.adm.length
  generalize hs : (List.range J.R.adm.length).foldl (bMetaStep J false) MetaSt.init = s at inv
  have hsum : ∑ j ∈ range J.R.adm.length, s.sz j = s.total := by
    rw [inv.total]
    exact sum_congr rfl (fun j hj => inv.sized.sz j (mem_range.1 hj))
  obtain ⟨b, hb, tb⟩ := tasks_mk J.R.adm.length E.nTask E.cap0 s.sz s.total hE.task (le_of_eq hsum)
  have htrip : s.trip = (List.range J.R.adm.length).flatMap fun i => pairTrip false (0 + i) (J.R.adm.getD i (0, 0)).1 (J.R.adm.getD i (0, 0)).2 := by
    rw [inv.trip]; simp only [Nat.zero_add]
  have hpos : 0 < J.R.adm.length := List.length_pos_iff.2 hne
  obtain ⟨C, hC, c0, c1, c2, c3⟩ := csr_rows J.R.arr.nNode s _ htrip (by
      intro h
      have hm : (J.R.adm[0].1, (J.R.adm[0].2 : Int), ((0 + 0 : Nat) : Int) + 1) ∈ ((List.range J.R.adm.length).flatMap fun i => pairTrip false (0 + i) (J.R.adm.getD i (0, 0)).1 (J.R.adm.getD i (0, 0)).2) :=
        mem_trips.2 ⟨0, hpos, Or.inl ⟨rfl, rfl, rfl⟩⟩
      rw [h] at hm; simp at hm) (by
      rintro ⟨c, d, v⟩ hx
      obtain ⟨i, hi, h | h⟩ := mem_trips.1 hx
      · rw [h.1]; exact (hd.1 _ (List.getElem_mem hi)).1
      · rw [h.2.1]; exact (hd.1 _ (List.getElem_mem hi)).2.1) E.col0 E.val0 E.order hE.order
  refine ⟨⟨s.nrow, s.ncol, prefixPtr J.R.adm.length s.sz, s.total, b.1 - 1, b.2, 0, fun _ => 0, C, s.nAdm⟩, ?_, ?_, ?_, ?_, ?_, ?_, ?_⟩
  · obtain ⟨F, hF⟩ := hC
    refine ⟨F, fun fuel hf => ?_⟩
    unfold generateB
    dsimp only
    rw [hs, hb]
    simp only [Res.bind_ok]
    rw [hF fuel hf]
    rfl
  · exact stored_mk inv.sized _ rfl rfl rfl inv.total
  · refine ⟨tb.1, tb.2.1, fun i hi h0 => tb.2.2 i hi ?_⟩
    rw [inv.sized.sz i hi]; exact h0
  · intro i hi
    obtain ⟨g1, g2, _⟩ := hd.1 _ (List.getElem_mem hi)
    refine ⟨?_, ?_⟩
    · have := (csr_get c3 (fun _ _ _ _ h1 h2 => pair_trip_unique hd 0 h1 h2) g1 (J.R.adm[i].2 : Int)).1 ((i : Int) + 1)
        (mem_trips.2 ⟨i, hi, Or.inl ⟨rfl, rfl, by simp⟩⟩)
      exact this
    · have := (csr_get c3 (fun _ _ _ _ h1 h2 => pair_trip_unique hd 0 h1 h2) g2 (J.R.adm[i].1 : Int)).1 (-((i : Int) + 1))
        (mem_trips.2 ⟨i, hi, Or.inr ⟨rfl, rfl, rfl, by simp⟩⟩)
      exact this
  · intro a ha b h1 h2
    refine (csr_get c3 (fun _ _ _ _ h1 h2 => pair_trip_unique hd 0 h1 h2) ha (b : Int)).2 ?_
    intro v hv
    obtain ⟨i, hi, h | h⟩ := mem_trips.1 hv
    · apply h1
      rw [show (a, b) = J.R.adm[i] from Prod.ext h.1 (by have := h.2.1; show b = _; omega)]
      exact List.getElem_mem hi
    · apply h2
      rw [show (b, a) = J.R.adm[i] from Prod.ext (by have := h.2.2.1; show b = _; omega) h.2.1]
      exact List.getElem_mem hi
  · intro v
    show s.nAdm v = _
    rw [inv.nAdm v]
    have key : ∀ (L : List (Nat × Nat)), ∑ i ∈ range L.length, ((if (L.getD i (0, 0)).1 = v then 1 else 0) +
        if false = true then 0 else if (L.getD i (0, 0)).2 = v then 1 else 0) =
        (L.countP fun x => x.1 = v) + L.countP fun x => x.2 = v := by
      intro L
      induction L with
      | nil => rfl
      | cons x L ih =>
        rw [List.length_cons, sum_range_succ', List.countP_cons, List.countP_cons]
        simp only [List.getD_cons_succ, List.getD_cons_zero, Bool.false_eq_true, if_false, decide_eq_true_eq] at ih ⊢
        rw [ih]
        omega
    exact key _
  · intro r hr
    have := c3 r hr
    simpa [pairTrip] using this

/-- **C27** (dense blocks), as for the generator blocks; the diagonal blocks of the leaves come first. -/
theorem C27_D_metadata (J : JIT K) (E : MetaEnv) (hE : E.Valid J.R.arr.nNode)
    (hleaf : ∀ i < J.R.arr.nLeaf, J.R.leaf i < J.R.arr.nNode) (hinj : ∀ i < J.R.arr.nLeaf, ∀ j < J.R.arr.nLeaf, J.R.leaf i = J.R.leaf j → i = j)
    (h1 : 0 < J.R.arr.nLeaf) (hd : DistinctPairs J.R.arr.nNode J.R.inadm) :
    ∃ M, Returns (generateD J false E) M ∧ Stored (J.R.arr.nLeaf + J.R.inadm.length) J.aot.D M ∧
      Tasks J.R.arr.nLeaf E.nTask (fun i => (J.aot.D i).nrow * (J.aot.D i).ncol) M.nblk M.blk ∧
      Tasks J.R.inadm.length E.nTask (fun i => (J.aot.D (J.R.arr.nLeaf + i)).nrow * (J.aot.D (J.R.arr.nLeaf + i)).ncol) M.nblk1 M.blk1 ∧
      (∀ i < J.R.arr.nLeaf, H2Pack.CSR.getElem M.csr (J.R.leaf i) (J.R.leaf i : Int) = (i : Int) + 1) ∧
      (∀ i (h : i < J.R.inadm.length),
        H2Pack.CSR.getElem M.csr J.R.inadm[i].1 (J.R.inadm[i].2 : Int) = ((J.R.arr.nLeaf + i : Nat) : Int) + 1 ∧
        H2Pack.CSR.getElem M.csr J.R.inadm[i].2 (J.R.inadm[i].1 : Int) = -(((J.R.arr.nLeaf + i : Nat) : Int) + 1)) ∧
      (∀ a < J.R.arr.nNode, ∀ b : Nat, (∀ i < J.R.arr.nLeaf, ¬ (a = J.R.leaf i ∧ b = J.R.leaf i)) → (a, b) ∉ J.R.inadm → (b, a) ∉ J.R.inadm →
        H2Pack.CSR.getElem M.csr a (b : Int) = 0) ∧
      ∀ r < J.R.arr.nNode, (M.csr.rowEntries r).Perm
        (((((List.range J.R.arr.nLeaf).map fun i => (J.R.leaf i, (J.R.leaf i : Int), (i : Int) + 1)) ++
          (List.range J.R.inadm.length).flatMap fun i =>
            [((J.R.inadm.getD i (0, 0)).1, ((J.R.inadm.getD i (0, 0)).2 : Int), ((J.R.arr.nLeaf + i : Nat) : Int) + 1),
             ((J.R.inadm.getD i (0, 0)).2, ((J.R.inadm.getD i (0, 0)).1 : Int), -(((J.R.arr.nLeaf + i : Nat) : Int) + 1))]).filter (fun x => x.1 = r)).map Prod.snd) := by
  have inv := dInv1 J false J.R.inadm.length
  have inv0 := dInv0 J J.R.arr.nLeaf (le_refl _)
  generalize hs0 : (List.range J.R.arr.nLeaf).foldl (dMetaLeaf J) MetaSt.init = s0 at inv inv0
  generalize hs : (List.range J.R.inadm.length).foldl (dMetaPair J false) { s0 with total := 0 } = s at inv
  have hsum0 : ∑ j ∈ range J.R.arr.nLeaf, s.sz j = s0.total := by
    rw [inv0.total]
    exact sum_congr rfl (fun j hj => inv.sized.sz j (by have := mem_range.1 hj; omega))
  have hsum1 : ∑ j ∈ range J.R.inadm.length, s.sz (J.R.arr.nLeaf + j) = s.total := by
    rw [inv.total]
    exact sum_congr rfl (fun j hj => inv.sized.sz _ (by have := mem_range.1 hj; omega))
  obtain ⟨b0, hb0, tb0⟩ := tasks_mk J.R.arr.nLeaf E.nTask E.cap0 s.sz s0.total hE.task (le_of_eq hsum0)
  obtain ⟨b1, hb1, tb1⟩ := tasks_mk J.R.inadm.length E.nTask E.cap1 (fun i => s.sz (J.R.arr.nLeaf + i)) s.total hE.task (le_of_eq hsum1)
  have mem0 : ∀ c d v, (c, d, v) ∈ ((List.range J.R.arr.nLeaf).flatMap fun i => pairTrip true i (J.R.leaf i) (J.R.leaf i)) ↔
      ∃ i < J.R.arr.nLeaf, c = J.R.leaf i ∧ d = (J.R.leaf i : Int) ∧ v = (i : Int) + 1 := by
    intro c d v
    rw [List.mem_flatMap]
    constructor
    · rintro ⟨i, hi, h⟩
      rw [mem_pairTrip] at h
      rcases h with h | h
      · exact ⟨i, List.mem_range.1 hi, h⟩
      · exact absurd h.1 (by simp)
    · rintro ⟨i, hi, h⟩
      exact ⟨i, List.mem_range.2 hi, mem_pairTrip.2 (Or.inl h)⟩
  have huniq : ∀ (c : Nat) (d v w : Int), (c, d, v) ∈ s.trip → (c, d, w) ∈ s.trip → v = w := by
    intro c d v w g1 g2
    rw [inv.trip, List.mem_append, mem0] at g1 g2
    rcases g1 with ⟨i, hi, e1, e2, e3⟩ | g1 <;> rcases g2 with ⟨j, hj, f1, f2, f3⟩ | g2
    · have := hinj i hi j hj (by omega); omega
    · obtain ⟨j, hj, h | h⟩ := mem_trips.1 g2
      · exact absurd (show J.R.inadm[j].1 = J.R.inadm[j].2 by omega) (hd.1 _ (List.getElem_mem hj)).2.2
      · exact absurd (show J.R.inadm[j].1 = J.R.inadm[j].2 by omega) (hd.1 _ (List.getElem_mem hj)).2.2
    · obtain ⟨j, hj, h | h⟩ := mem_trips.1 g1
      · exact absurd (show J.R.inadm[j].1 = J.R.inadm[j].2 by omega) (hd.1 _ (List.getElem_mem hj)).2.2
      · exact absurd (show J.R.inadm[j].1 = J.R.inadm[j].2 by omega) (hd.1 _ (List.getElem_mem hj)).2.2
    · exact pair_trip_unique hd _ g1 g2
  obtain ⟨C, hC, c0, c1, c2, c3⟩ := csr_rows J.R.arr.nNode s _ rfl (by
      intro h
      have hm : (J.R.leaf 0, (J.R.leaf 0 : Int), ((0 : Nat) : Int) + 1) ∈ s.trip := by
        rw [inv.trip, List.mem_append]; left; rw [mem0]; exact ⟨0, h1, rfl, rfl, rfl⟩
      rw [h] at hm; simp at hm) (by
      rintro ⟨c, d, v⟩ hx
      rw [inv.trip, List.mem_append, mem0] at hx
      rcases hx with ⟨i, hi, e, _⟩ | hx
      · rw [e]; exact hleaf i hi
      obtain ⟨i, hi, h | h⟩ := mem_trips.1 hx
      · rw [h.1]; exact (hd.1 _ (List.getElem_mem hi)).1
      · rw [h.2.1]; exact (hd.1 _ (List.getElem_mem hi)).2.1) E.col0 E.val0 E.order hE.order
  refine ⟨⟨s.nrow, s.ncol, prefixPtr (J.R.arr.nLeaf + J.R.inadm.length) s.sz, s0.total + s.total, b0.1 - 1, b0.2, b1.1 - 1, b1.2, C, s.nAdm⟩,
    ?_, ?_, ?_, ?_, ?_, ?_, ?_, ?_⟩
  · obtain ⟨F, hF⟩ := hC
    refine ⟨F, fun fuel hf => ?_⟩
    unfold generateD
    dsimp only
    rw [hs0, hs, hb0]
    simp only [Res.bind_ok]
    rw [hb1]
    simp only [Res.bind_ok]
    rw [hF fuel hf]
    rfl
  · apply stored_mk inv.sized _ rfl rfl rfl
    show s0.total + s.total = _
    rw [inv0.total, inv.total, sum_range_add]
  · refine ⟨tb0.1, tb0.2.1, fun i hi h0 => tb0.2.2 i hi ?_⟩
    rw [inv.sized.sz i (by omega)]; exact h0
  · refine ⟨tb1.1, tb1.2.1, fun i hi h0 => tb1.2.2 i hi ?_⟩
    show 0 < s.sz (J.R.arr.nLeaf + i)
    rw [inv.sized.sz _ (by omega)]; exact h0
  · intro i hi
    refine (csr_get c3 huniq (hleaf i hi) _).1 _ ?_
    rw [inv.trip, List.mem_append]; left; rw [mem0]; exact ⟨i, hi, rfl, rfl, rfl⟩
  · intro i hi
    obtain ⟨g1, g2, _⟩ := hd.1 _ (List.getElem_mem hi)
    refine ⟨(csr_get c3 huniq g1 _).1 _ ?_, (csr_get c3 huniq g2 _).1 _ ?_⟩
    · rw [inv.trip, List.mem_append]; right
      exact mem_trips.2 ⟨i, hi, Or.inl ⟨rfl, rfl, rfl⟩⟩
    · rw [inv.trip, List.mem_append]; right
      exact mem_trips.2 ⟨i, hi, Or.inr ⟨rfl, rfl, rfl, rfl⟩⟩
  · intro a ha b h0 h1 h2
    refine (csr_get c3 huniq ha (b : Int)).2 ?_
    intro v hv
    rw [inv.trip, List.mem_append, mem0] at hv
    rcases hv with ⟨i, hi, e1, e2, _⟩ | hv
    · exact h0 i hi ⟨e1, by omega⟩
    obtain ⟨i, hi, h | h⟩ := mem_trips.1 hv
    · apply h1
      rw [show (a, b) = J.R.inadm[i] from Prod.ext h.1 (by have := h.2.1; show b = _; omega)]
      exact List.getElem_mem hi
    · apply h2
      rw [show (b, a) = J.R.inadm[i] from Prod.ext (by have := h.2.2.1; show b = _; omega) h.2.1]
      exact List.getElem_mem hi
  · intro r hr
    have := c3 r hr
    rw [inv.trip] at this
    simpa [pairTrip, List.map_eq_flatMap] using this

/-! ## The stored blocks -/

theorem evalAt_eq (J : JIT K) (p q : (Nat → K) × Nat × Nat) (base ldm : Nat) (hl : ldm = q.2.2 * J.R.kdim) (data : Nat → K) (k : Nat) :
    evalAt J p q base ldm data k = if base ≤ k ∧ k < base + (J.block p q).nrow * (J.block p q).ncol then
      (J.block p q).e ((k - base) / (J.block p q).ncol) ((k - base) % (J.block p q).ncol) else data k := by
  have e1 : (J.block p q).nrow = p.2.2 * J.R.kdim := rfl
  have e2 : (J.block p q).ncol = ldm := hl.symm
  unfold evalAt
  rw [e2, e1, ← hl]
  rcases Nat.eq_zero_or_pos ldm with h0 | h0
  · rw [if_neg (by rintro ⟨_, _, h⟩; omega), if_neg (by rw [h0]; omega)]
  · have : (base ≤ k ∧ (k - base) / ldm < p.2.2 * J.R.kdim ∧ (k - base) % ldm < ldm) ↔ (base ≤ k ∧ k < base + p.2.2 * J.R.kdim * ldm) := by
      rw [Nat.div_lt_iff_lt_mul h0]
      have := Nat.mod_lt (k - base) h0
      omega
    by_cases h : base ≤ k ∧ k < base + p.2.2 * J.R.kdim * ldm
    · rw [if_pos (this.2 h), if_pos h]
    · rw [if_neg (fun g => h (this.1 g)), if_neg h]

/-- One write of a block. -/
def put (base : Nat) (B : Mat K) (data : Nat → K) : Nat → K := fun k =>
  if base ≤ k ∧ k < base + B.nrow * B.ncol then B.e ((k - base) / B.ncol) ((k - base) % B.ncol) else data k

theorem side_eval (J : JIT K) (n0 n1 base : Nat) (data : Nat → K) :
    (let l0 := J.R.arr.level n0
     let l1 := J.R.arr.level n1
     let data := if l0 = l1 then evalAt J (J.jPts n0) (J.jPts n1) base (J.jn n1 * J.R.kdim) data else data
     let data := if l0 > l1 then evalAt J (J.jPts n0) (J.cPts n1) base (J.npt n1 * J.R.kdim) data else data
     if l0 < l1 then evalAt J (J.cPts n0) (J.jPts n1) base (J.jn n1 * J.R.kdim) data else data) =
    put base (J.block (J.sidePts n0 n1) (J.sidePts n1 n0)) data := by
  dsimp only
  unfold JIT.sidePts
  rcases Nat.lt_trichotomy (J.R.arr.level n0) (J.R.arr.level n1) with h | h | h
  · rw [if_pos h, if_neg (by omega), if_neg (by omega), if_neg (by omega), if_pos (by omega)]
    funext k
    rw [evalAt_eq _ _ _ _ _ (by rfl)]; rfl
  · rw [if_neg (by omega), if_neg (by omega), if_pos h, if_pos (by omega), if_pos (by omega)]
    funext k
    rw [evalAt_eq _ _ _ _ _ (by rfl)]; rfl
  · rw [if_neg (by omega), if_pos h, if_neg (by omega), if_pos (by omega), if_neg (by omega)]
    funext k
    rw [evalAt_eq _ _ _ _ _ (by rfl)]; rfl

theorem buildB1_eq (J : JIT K) (M : Meta) (data : Nat → K) (i : Nat) : buildB1 J M data i = put (M.ptr i) (J.aot.B i) data :=
  side_eval J _ _ _ _

theorem buildD1_eq (J : JIT K) (M : Meta) (data : Nat → K) (i : Nat) : buildD1 J M data i = put (M.ptr i) (J.aot.D i) data := by
  unfold buildD1
  by_cases h : i < J.R.arr.nLeaf
  · rw [if_pos h, show J.aot.D i = J.block (J.cPts (J.R.leaf i)) (J.cPts (J.R.leaf i)) from if_pos h]
    funext k
    rw [evalAt_eq _ _ _ _ _ (by rfl)]; rfl
  · rw [if_neg h, show J.aot.D i = J.block (J.cPts (J.R.inadm.getD (i - J.R.arr.nLeaf) (0, 0)).1) (J.cPts (J.R.inadm.getD (i - J.R.arr.nLeaf) (0, 0)).2) from if_neg h]
    funext k
    rw [evalAt_eq _ _ _ _ _ (by rfl)]; rfl

theorem Stored.mono {n : Nat} {f : Nat → Mat K} {M : Meta} (h : Stored n f M) {i j : Nat} (hij : i ≤ j) (hj : j ≤ n) : M.ptr i ≤ M.ptr j := by
  induction j with
  | zero => rw [show i = 0 by omega]
  | succ j ih =>
    by_cases e : i = j + 1
    · rw [e]
    · have := ih (by omega) (by omega)
      rw [h.next j (by omega)]; omega

/-- Writing blocks into disjoint ranges in any order: each range holds its block afterwards. -/
theorem put_all {n : Nat} {f : Nat → Mat K} {M : Meta} (h : Stored n f M) (w : List Nat) (hw : ∀ i ∈ w, i < n) :
    ∀ (data : Nat → K) (i : Nat), i < n → (i ∈ w ∨ ∀ k, M.ptr i ≤ k → k < M.ptr (i + 1) → data k = (f i).e ((k - M.ptr i) / (f i).ncol) ((k - M.ptr i) % (f i).ncol)) →
    ∀ k, M.ptr i ≤ k → k < M.ptr (i + 1) →
      w.foldl (fun d i => put (M.ptr i) (f i) d) data k = (f i).e ((k - M.ptr i) / (f i).ncol) ((k - M.ptr i) % (f i).ncol) := by
  induction w with
  | nil =>
    intro data i hi h0 k h1 h2
    rcases h0 with h0 | h0
    · simp at h0
    · exact h0 k h1 h2
  | cons j w ih =>
    intro data i hi h0 k h1 h2
    rw [List.foldl_cons]
    refine ih (fun x hx => hw x (List.mem_cons_of_mem _ hx)) _ i hi ?_ k h1 h2
    by_cases e : i = j
    · right
      subst e
      intro k h1 h2
      unfold put
      rw [if_pos ⟨h1, by rw [← h.next i hi]; exact h2⟩]
    · rcases h0 with h0 | h0
      · left
        rcases List.mem_cons.1 h0 with h0 | h0
        · exact absurd h0 e
        · exact h0
      · right
        intro k h1 h2
        have hj := hw j (by simp)
        unfold put
        rw [if_neg, h0 k h1 h2]
        rw [← h.next j hj]
        rintro ⟨g1, g2⟩
        rcases Nat.lt_or_ge i j with hlt | hge
        · have := h.mono (show i + 1 ≤ j by omega) (by omega); omega
        · have := h.mono (show j + 1 ≤ i by omega) (by omega); omega

theorem mem_ownBlocks {n nTask : Nat} {size : Nat → Nat} {nblk : Nat} {blk : Nat → Nat} (h : Tasks n nTask size nblk blk) :
    (∀ t i, i ∈ ownBlocks nblk blk t → i < n) ∧ ∀ i < n, 0 < size i → ∃ t < nTask, i ∈ ownBlocks nblk blk t := by
  refine ⟨?_, ?_⟩
  · intro t i hi
    unfold ownBlocks at hi
    dsimp only at hi
    rw [List.mem_range'_1] at hi
    by_cases ht : t ≥ nblk
    · rw [if_pos ht, if_pos ht] at hi; omega
    · rw [if_neg ht, if_neg ht] at hi
      have := (h.2.1 t (by omega)).2
      omega
  · intro i hi h0
    obtain ⟨b, ⟨b1, b2, b3⟩, _⟩ := h.2.2 i hi h0
    refine ⟨b, by have := h.1; omega, ?_⟩
    unfold ownBlocks
    dsimp only
    rw [if_neg (by omega), if_neg (by omega), List.mem_range'_1]
    omega

theorem copyMatrix_eq (nrow ncol : Nat) (src dst : Nat → K) : ∀ r < nrow, ∀ c < ncol,
    copyMatrix nrow ncol src ncol dst ncol (r * ncol + c) = src (r * ncol + c) := by
  have key : ∀ m, ∀ r < m, ∀ c < ncol, (List.range m).foldl (fun d r k => if r * ncol ≤ k ∧ k < r * ncol + ncol then src (r * ncol + (k - r * ncol)) else d k) dst (r * ncol + c) = src (r * ncol + c) := by
    intro m
    induction m with
    | zero => intro r hr; omega
    | succ m ih =>
      intro r hr c hc
      rw [List.range_succ, List.foldl_append]
      simp only [List.foldl_cons, List.foldl_nil]
      by_cases e : r = m
      · subst e
        rw [if_pos ⟨by omega, by omega⟩]
        congr 1; omega
      · have h1 : (r + 1) * ncol ≤ m * ncol := Nat.mul_le_mul_right _ (by omega)
        have h2 : (r + 1) * ncol = r * ncol + ncol := by ring
        rw [if_neg (by omega)]
        exact ih r (by omega) c hc
  exact key nrow

/-- The block returned for a pair: sizes and entries of `B`, flagged as transposed (negative leading dimension)
when `t` is true. -/
def IsBlock (b : Option (Blk K)) (B : Mat K) (t : Bool) : Prop :=
  ∃ d, b = some ⟨B.nrow, B.ncol, if t then -(B.ncol : Int) else B.ncol, d⟩ ∧
    ∀ r < B.nrow, ∀ c < B.ncol, d (r * B.ncol + c) = B.e r c

theorem div_mod_row {r c n : Nat} (hc : c < n) : (r * n + c) / n = r ∧ (r * n + c) % n = c := by
  have h : 0 < n := by omega
  refine ⟨?_, ?_⟩
  · rw [Nat.mul_comm, Nat.mul_add_div h, Nat.div_eq_of_lt hc]; omega
  · rw [Nat.mul_comm, Nat.mul_add_mod, Nat.mod_eq_of_lt hc]

/-- What the JIT branch of the lookup fills in. -/
theorem put_zero_entry (B : Mat K) (dst : Nat → K) : ∀ r < B.nrow, ∀ c < B.ncol, put 0 B dst (r * B.ncol + c) = B.e r c := by
  intro r hr c hc
  have h1 : (r + 1) * B.ncol ≤ B.nrow * B.ncol := Nat.mul_le_mul_right _ hr
  have h2 : (r + 1) * B.ncol = r * B.ncol + B.ncol := by ring
  unfold put
  rw [if_pos ⟨by omega, by omega⟩, Nat.sub_zero, (div_mod_row hc).1, (div_mod_row hc).2]

/-- What the AOT branch of the lookup copies. -/
theorem copy_entry {n : Nat} {f : Nat → Mat K} {M : Meta} (h : Stored n f M) {data : Nat → K} {i : Nat} (hi : i < n)
    (hdata : ∀ k, M.ptr i ≤ k → k < M.ptr (i + 1) → data k = (f i).e ((k - M.ptr i) / (f i).ncol) ((k - M.ptr i) % (f i).ncol)) (dst : Nat → K) :
    ∀ r < (f i).nrow, ∀ c < (f i).ncol,
      copyMatrix (f i).nrow (f i).ncol (fun k => data (M.ptr i + k)) (f i).ncol dst (f i).ncol (r * (f i).ncol + c) = (f i).e r c := by
  intro r hr c hc
  have h1 : (r + 1) * (f i).ncol ≤ (f i).nrow * (f i).ncol := Nat.mul_le_mul_right _ hr
  have h2 : (r + 1) * (f i).ncol = r * (f i).ncol + (f i).ncol := by ring
  rw [copyMatrix_eq _ _ _ _ r hr c hc, hdata _ (by omega) (by rw [h.next i hi]; omega)]
  rw [show M.ptr i + (r * (f i).ncol + c) - M.ptr i = r * (f i).ncol + c by omega, (div_mod_row hc).1, (div_mod_row hc).2]

/-- **C27** (reading generator blocks).  After the metadata are computed and, in AOT mode, the storage is filled by
`nTask` threads in any interleaving, for every pair `i = (n0, n1)` the lookup of `(n0, n1)` returns block `i` (sizes and
all entries), the lookup of `(n1, n0)` returns the same matrix flagged as transposed, and the lookup of anything else
reports an error - in the AOT and in the JIT mode. -/
theorem C27_get_Bij (J : JIT K) (E : MetaEnv) (hE : E.Valid J.R.arr.nNode) (hd : DistinctPairs J.R.arr.nNode J.R.adm) (hne : J.R.adm ≠ []) :
    ∃ M, Returns (generateB J false E) M ∧
    ∀ (w : List Nat), H2Pack.Utils.Interleaving E.nTask (worksB M) w → ∀ (data0 dst : Nat → K) (jit : Bool),
      (∀ i (h : i < J.R.adm.length),
        IsBlock (getBij J M jit (runB J M w data0) dst J.R.adm[i].1 J.R.adm[i].2) (J.aot.B i) false ∧
        IsBlock (getBij J M jit (runB J M w data0) dst J.R.adm[i].2 J.R.adm[i].1) (J.aot.B i) true) ∧
      (∀ a < J.R.arr.nNode, ∀ b : Nat, (a, b) ∉ J.R.adm → (b, a) ∉ J.R.adm → getBij J M jit (runB J M w data0) dst a b = none) := by
  obtain ⟨M, hM, hS, hT, g1, g2, _⟩ := C27_B_metadata J E hE hd hne
  refine ⟨M, hM, ?_⟩
  intro w hw data0 dst jit
  obtain ⟨o1, o2⟩ := mem_ownBlocks hT
  have hmem := fun i => hw.mem_iff i
  have hdata : ∀ i < J.R.adm.length, ∀ k, M.ptr i ≤ k → k < M.ptr (i + 1) → runB J M w data0 k =
      (J.aot.B i).e ((k - M.ptr i) / (J.aot.B i).ncol) ((k - M.ptr i) % (J.aot.B i).ncol) := by
    intro i hi k h1 h2
    unfold runB
    have e : (fun d i => buildB1 J M d i) = fun d i => put (M.ptr i) (J.aot.B i) d := by
      funext d i; exact buildB1_eq J M d i
    rw [show buildB1 J M = fun d i => put (M.ptr i) (J.aot.B i) d from e]
    refine put_all hS w ?_ data0 i hi (Or.inl ?_) k h1 h2
    · intro j hj
      obtain ⟨t, _, ht⟩ := (hmem j).1 hj
      exact o1 t j ht
    · rw [hmem]
      obtain ⟨t, ht, h⟩ := o2 i hi (by rw [hS.next i hi] at h2; show 0 < (J.aot.B i).nrow * (J.aot.B i).ncol; omega)
      exact ⟨t, ht, h⟩
  have hget : ∀ i (h : i < J.R.adm.length) (t : Bool) (a b : Nat), (if t then b else a) = J.R.adm[i].1 → (if t then a else b) = J.R.adm[i].2 →
      H2Pack.CSR.getElem M.csr a (b : Int) = (if t then -((i : Int) + 1) else (i : Int) + 1) →
      IsBlock (getBij J M jit (runB J M w data0) dst a b) (J.aot.B i) t := by
    intro i hi t a b ha hb hg
    unfold getBij
    dsimp only
    rw [hg]
    have hx : ∀ (x y : Nat), x = J.R.adm[i].1 → y = J.R.adm[i].2 → ∀ d : Nat → K,
        ((let l0 := J.R.arr.level x
     let l1 := J.R.arr.level y
     let data := if l0 = l1 then evalAt J (J.jPts x) (J.jPts y) 0 (J.jn y * J.R.kdim) d else d
     let data := if l0 > l1 then evalAt J (J.jPts x) (J.cPts y) 0 (J.npt y * J.R.kdim) data else data
     if l0 < l1 then evalAt J (J.cPts x) (J.jPts y) 0 (J.jn y * J.R.kdim) data else data) = put 0 (J.aot.B i) d) := by
      intro x y h1 h2 d
      rw [side_eval J x y 0 d]
      have : J.aot.B i = J.block (J.sidePts (J.R.adm.getD i (0, 0)).1 (J.R.adm.getD i (0, 0)).2) (J.sidePts (J.R.adm.getD i (0, 0)).2 (J.R.adm.getD i (0, 0)).1) := rfl
      rw [this, show J.R.adm.getD i (0, 0) = J.R.adm[i] by simp [List.getD, hi], h1, h2]
    have fin : ∀ out : Nat → K, (∀ r < (J.aot.B i).nrow, ∀ c < (J.aot.B i).ncol, out (r * (J.aot.B i).ncol + c) = (J.aot.B i).e r c) →
        IsBlock (some ⟨(J.aot.B i).nrow, (J.aot.B i).ncol, if t then -((J.aot.B i).ncol : Int) else (J.aot.B i).ncol, out⟩) (J.aot.B i) t :=
      fun out ho => ⟨out, rfl, ho⟩
    cases t
    · simp only [Bool.false_eq_true, if_false] at ha hb hg fin ⊢
      have hz : ¬ ((i : Int) + 1 = 0) := by omega
      have hp : ¬ ((i : Int) + 1 < 0) := by omega
      simp only [hz, hp, if_false, decide_false, Bool.false_eq_true, show ((i : Int) + 1 - 1).toNat = i by omega]
      rw [hS.nrow i hi, hS.ncol i hi]
      apply fin
      cases jit
      · rw [if_pos rfl]; exact copy_entry hS hi (hdata i hi) dst
      · rw [if_neg (by simp)]
        have := hx a b ha hb dst
        dsimp only at this
        rw [this]
        exact put_zero_entry _ dst
    · simp only [if_true] at ha hb hg fin ⊢
      have hz : ¬ (-((i : Int) + 1) = 0) := by omega
      have hp : -((i : Int) + 1) < 0 := by omega
      simp only [hz, hp, if_false, if_true, decide_true, show (-(-((i : Int) + 1)) - 1).toNat = i by omega]
      rw [hS.nrow i hi, hS.ncol i hi]
      apply fin
      cases jit
      · rw [if_pos rfl]; exact copy_entry hS hi (hdata i hi) dst
      · rw [if_neg (by simp)]
        have := hx b a ha hb dst
        dsimp only at this
        rw [this]
        exact put_zero_entry _ dst
  refine ⟨fun i hi => ⟨hget i hi false _ _ rfl rfl (g1 i hi).1, hget i hi true _ _ rfl rfl (g1 i hi).2⟩, ?_⟩
  intro a ha b h1 h2
  unfold getBij
  dsimp only
  rw [if_pos (g2 a ha b h1 h2)]

/-- **C27** (reading dense blocks): diagonal blocks of the leaves and blocks of the inadmissible pairs. -/
theorem C27_get_Dij (J : JIT K) (E : MetaEnv) (hE : E.Valid J.R.arr.nNode)
    (hleaf : ∀ i < J.R.arr.nLeaf, J.R.leaf i < J.R.arr.nNode) (hinj : ∀ i < J.R.arr.nLeaf, ∀ j < J.R.arr.nLeaf, J.R.leaf i = J.R.leaf j → i = j)
    (h1 : 0 < J.R.arr.nLeaf) (hd : DistinctPairs J.R.arr.nNode J.R.inadm) :
    ∃ M, Returns (generateD J false E) M ∧
    ∀ (w : List Nat), H2Pack.Utils.Interleaving E.nTask (worksD J.R.arr.nLeaf M) w → ∀ (data0 dst : Nat → K) (jit : Bool),
      (∀ i < J.R.arr.nLeaf, IsBlock (getDij J M jit (runD J M w data0) dst (J.R.leaf i) (J.R.leaf i)) (J.aot.D i) false) ∧
      (∀ i (h : i < J.R.inadm.length),
        IsBlock (getDij J M jit (runD J M w data0) dst J.R.inadm[i].1 J.R.inadm[i].2) (J.aot.D (J.R.arr.nLeaf + i)) false ∧
        IsBlock (getDij J M jit (runD J M w data0) dst J.R.inadm[i].2 J.R.inadm[i].1) (J.aot.D (J.R.arr.nLeaf + i)) true) ∧
      (∀ a < J.R.arr.nNode, ∀ b : Nat, (∀ i < J.R.arr.nLeaf, ¬ (a = J.R.leaf i ∧ b = J.R.leaf i)) → (a, b) ∉ J.R.inadm → (b, a) ∉ J.R.inadm →
        getDij J M jit (runD J M w data0) dst a b = none) := by
  obtain ⟨M, hM, hS, hT0, hT1, g0, g1, g2, _⟩ := C27_D_metadata J E hE hleaf hinj h1 hd
  refine ⟨M, hM, ?_⟩
  intro w hw data0 dst jit
  obtain ⟨o1, o2⟩ := mem_ownBlocks hT0
  obtain ⟨q1, q2⟩ := mem_ownBlocks hT1
  have hmem := fun i => hw.mem_iff i
  have hdata : ∀ i < J.R.arr.nLeaf + J.R.inadm.length, ∀ k, M.ptr i ≤ k → k < M.ptr (i + 1) → runD J M w data0 k =
      (J.aot.D i).e ((k - M.ptr i) / (J.aot.D i).ncol) ((k - M.ptr i) % (J.aot.D i).ncol) := by
    intro i hi k h1 h2
    unfold runD
    rw [show buildD1 J M = fun d i => put (M.ptr i) (J.aot.D i) d from by funext d i; exact buildD1_eq J M d i]
    have hpos : 0 < (J.aot.D i).nrow * (J.aot.D i).ncol := by rw [hS.next i hi] at h2; omega
    refine put_all hS w ?_ data0 i hi (Or.inl ?_) k h1 h2
    · intro j hj
      obtain ⟨t, _, ht⟩ := (hmem j).1 hj
      unfold worksD at ht
      rcases List.mem_append.1 ht with h | h
      · have := o1 t j h; omega
      · obtain ⟨x, hx, rfl⟩ := List.mem_map.1 h
        have := q1 t x hx
        show J.R.arr.nLeaf + x < _
        omega
    · rw [hmem]
      by_cases hc : i < J.R.arr.nLeaf
      · obtain ⟨t, ht, h⟩ := o2 i hc hpos
        exact ⟨t, ht, List.mem_append_left _ h⟩
      · obtain ⟨t, ht, h⟩ := q2 (i - J.R.arr.nLeaf) (by omega) (by
          show 0 < (J.aot.D (J.R.arr.nLeaf + (i - J.R.arr.nLeaf))).nrow * _
          rw [show J.R.arr.nLeaf + (i - J.R.arr.nLeaf) = i by omega]; exact hpos)
        exact ⟨t, ht, List.mem_append_right _ (List.mem_map.2 ⟨_, h, by show J.R.arr.nLeaf + (i - J.R.arr.nLeaf) = i; omega⟩)⟩
  have hget : ∀ i < J.R.arr.nLeaf + J.R.inadm.length, ∀ (t : Bool) (a b : Nat),
      J.aot.D i = J.block (J.cPts (if t then b else a)) (J.cPts (if t then a else b)) →
      H2Pack.CSR.getElem M.csr a (b : Int) = (if t then -((i : Int) + 1) else (i : Int) + 1) →
      IsBlock (getDij J M jit (runD J M w data0) dst a b) (J.aot.D i) t := by
    intro i hi t a b hD hg
    unfold getDij
    dsimp only
    rw [hg]
    have fin : ∀ out : Nat → K, (∀ r < (J.aot.D i).nrow, ∀ c < (J.aot.D i).ncol, out (r * (J.aot.D i).ncol + c) = (J.aot.D i).e r c) →
        IsBlock (some ⟨(J.aot.D i).nrow, (J.aot.D i).ncol, if t then -((J.aot.D i).ncol : Int) else (J.aot.D i).ncol, out⟩) (J.aot.D i) t :=
      fun out ho => ⟨out, rfl, ho⟩
    have hx : ∀ x y : Nat, J.aot.D i = J.block (J.cPts x) (J.cPts y) → evalAt J (J.cPts x) (J.cPts y) 0 (J.npt y * J.R.kdim) dst = put 0 (J.aot.D i) dst := by
      intro x y h
      rw [h]
      funext k
      rw [evalAt_eq _ _ _ _ _ (by rfl)]; rfl
    cases t
    · simp only [Bool.false_eq_true, if_false] at hD hg fin ⊢
      have hz : ¬ ((i : Int) + 1 = 0) := by omega
      have hp : ¬ ((i : Int) + 1 < 0) := by omega
      simp only [hz, hp, if_false, decide_false, Bool.false_eq_true, show ((i : Int) + 1 - 1).toNat = i by omega]
      rw [hS.nrow i hi, hS.ncol i hi]
      apply fin
      cases jit
      · rw [if_pos rfl]; exact copy_entry hS hi (hdata i hi) dst
      · rw [if_neg (by simp), hx a b hD]
        exact put_zero_entry _ dst
    · simp only [if_true] at hD hg fin ⊢
      have hz : ¬ (-((i : Int) + 1) = 0) := by omega
      have hp : -((i : Int) + 1) < 0 := by omega
      simp only [hz, hp, if_false, if_true, decide_true, show (-(-((i : Int) + 1)) - 1).toNat = i by omega]
      rw [hS.nrow i hi, hS.ncol i hi]
      apply fin
      cases jit
      · rw [if_pos rfl]; exact copy_entry hS hi (hdata i hi) dst
      · rw [if_neg (by simp), hx b a hD]
        exact put_zero_entry _ dst
  have hD1 : ∀ i (h : i < J.R.inadm.length), J.aot.D (J.R.arr.nLeaf + i) = J.block (J.cPts J.R.inadm[i].1) (J.cPts J.R.inadm[i].2) := by
    intro i hi
    show (if _ then _ else _) = _
    rw [if_neg (by omega)]
    simp only [Nat.add_sub_cancel_left]
    rw [show J.R.inadm.getD i (0, 0) = J.R.inadm[i] by simp [List.getD, hi]]
  refine ⟨fun i hi => hget i (by omega) false _ _ (if_pos hi) (g0 i hi), ?_, ?_⟩
  · intro i hi
    exact ⟨hget _ (by omega) false _ _ (hD1 i hi) (g1 i hi).1, hget _ (by omega) true _ _ (hD1 i hi) (g1 i hi).2⟩
  · intro a ha b h0 h1 h2
    unfold getDij
    dsimp only
    rw [if_pos (g2 a ha b h0 h1 h2)]

/-- Without an admissible pair (for instance when there are only a few points) the conversion of the empty index matrix reads one
element of an empty array. -/
theorem C27_no_pair_is_ub (J : JIT K) (ew : Bool) (E : MetaEnv) (hE : E.Valid J.R.arr.nNode) (hn : 0 < J.R.arr.nNode) (h0 : J.R.adm = []) (fuel : Nat) :
    generateB J ew E (fuel + 1) = .ub := by
  have inv := bInv J ew 0
  have hlen : J.R.adm.length = 0 := by rw [h0]; rfl
  obtain ⟨b, hb, _⟩ := tasks_mk 0 E.nTask E.cap0 MetaSt.init.sz MetaSt.init.total hE.task (by rw [range_zero, sum_empty]; omega)
  unfold generateB
  dsimp only
  rw [hlen, List.range_zero, List.foldl_nil, hb]
  simp only [Res.bind_ok]
  cases ho : E.order with
  | nil =>
    have := hE.order
    rw [ho] at this
    have := this.length_eq
    simp at this; omega
  | cons i l =>
    rw [H2Pack.CSR.C04_empty_is_ub _ rfl _ _ i l (by
      have := hE.order.mem_iff (a := i)
      rw [ho] at this
      exact List.mem_range.1 (this.1 (by simp)))]
    rfl

end

end H2Pack.MV
