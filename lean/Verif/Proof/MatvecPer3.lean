import Verif.Proof.MatvecPer2

/-! # Periodic matvec: loops over the nodes, the whole product -/

set_option linter.unusedSectionVars false

namespace H2Pack.MV
open H2Pack.Part (Arr kids ClusterTree)
open Finset (range sum_congr mul_sum sum_mul sum_comm sum_add_distrib sum_range_succ mem_range)

section
variable {K : Type} [CommRing K]

theorem filter_sum {α : Type} (p : α → Bool) (f : α → K) (L : List α) : ((L.filter p).map f).sum = (L.map fun x => if p x then f x else 0).sum := by
  induction L with
  | nil => rfl
  | cons a L ih =>
    rw [List.filter_cons]
    by_cases h : p a
    · rw [if_pos h, List.map_cons, List.sum_cons, List.map_cons, List.sum_cons, ih, if_pos h]
    · rw [if_neg h, List.map_cons, List.sum_cons, ih, if_neg h, zero_add]

/-- All rows together are the list of triples. -/
theorem rows_sum {n : Nat} {L : List (Nat × Int × Int)} {row : Nat → List (Int × Int)}
    (hrow : ∀ r < n, (row r).Perm ((L.filter (fun x => x.1 = r)).map Prod.snd)) (hL : ∀ x ∈ L, x.1 < n) (g : Int × Int → K)
    {ord : List Nat} (hord : ord.Perm (List.range n)) :
    (ord.map fun r => ((row r).map g).sum).sum = (L.map fun x => g x.2).sum := by
  rw [(hord.map _).sum_eq, list_sum_range]
  have e : ∀ r ∈ range n, ((row r).map g).sum = (L.map fun x => if x.1 = r then g x.2 else 0).sum := by
    intro r hr
    rw [((hrow r (mem_range.1 hr)).map g).sum_eq, List.map_map, filter_sum]
    congr 1
    apply List.map_congr_left
    intro x _
    simp
  rw [sum_congr rfl e]
  clear e hrow
  induction L with
  | nil => simp
  | cons a L ih =>
    simp only [List.map_cons, List.sum_cons]
    rw [sum_add_distrib, ih (fun x hx => hL x (List.mem_cons_of_mem _ hx)), Finset.sum_eq_single a.1]
    · rw [if_pos rfl]
    · intro b _ hb; rw [if_neg (fun h => hb h.symm)]
    · intro h; exact absurd (mem_range.2 (hL a List.mem_cons_self)) h

/-- A loop in which exactly one iteration writes the cell `l`. -/
theorem fold_once {σ α : Type} (f : (σ → K) → α → (σ → K)) (l : σ) (u : α) (c : K) : ∀ (L : List α), L.Nodup → u ∈ L →
    (∀ v ∈ L, v ≠ u → ∀ mem, f mem v l = mem l) → (∀ mem, f mem u l = c) → ∀ mem, L.foldl f mem l = c := by
  have rest : ∀ (L : List α), (∀ v ∈ L, ∀ mem, f mem v l = mem l) → ∀ mem, L.foldl f mem l = mem l := by
    intro L
    induction L with
    | nil => intro _ mem; rfl
    | cons a L ih =>
      intro h mem
      rw [List.foldl_cons, ih (fun v hv => h v (List.mem_cons_of_mem _ hv)), h a List.mem_cons_self]
  intro L
  induction L with
  | nil => intro _ hu; exact absurd hu List.not_mem_nil
  | cons a L ih =>
    intro hnd hu h1 h2 mem
    rw [List.foldl_cons]
    rw [List.nodup_cons] at hnd
    by_cases e : u = a
    · subst e
      rw [rest L (fun v hv => h1 v (List.mem_cons_of_mem _ hv) (fun e => hnd.1 (e ▸ hv))), h2]
    · exact ih hnd.2 ((List.mem_cons.1 hu).resolve_left e) (fun v hv => h1 v (List.mem_cons_of_mem _ hv)) h2 _

namespace Per
variable {P : Per K}

/-- The entries of the index matrices. -/
def tripB (P : Per K) : List (Nat × Int × Int) := (List.range P.J.R.adm.length).map fun i =>
  ((P.J.R.adm.getD i (0, 0)).1, ((P.J.R.adm.getD i (0, 0)).2 : Int), (i : Int) + 1)
def tripD (P : Per K) : List (Nat × Int × Int) := (List.range (P.J.R.arr.nLeaf + P.J.R.inadm.length)).map fun i =>
  ((P.dNode i).1, ((P.dNode i).2 : Int), (i : Int) + 1)

/-- The metadata belong to the pairs. -/
structure PerMeta (P : Per K) (MB MD : Meta) : Prop where
  rowB : ∀ r < P.J.R.arr.nNode, (csrRow MB r).Perm ((P.tripB.filter (fun x => x.1 = r)).map Prod.snd)
  rowD : ∀ r < P.J.R.arr.nNode, (csrRow MD r).Perm ((P.tripD.filter (fun x => x.1 = r)).map Prod.snd)
  sizeB : ∀ i < P.J.R.adm.length, MB.nrow i = (P.aot.B i).nrow ∧ MB.ncol i = (P.aot.B i).ncol
  sizeD : ∀ i < P.J.R.arr.nLeaf + P.J.R.inadm.length, MD.nrow i = (P.aot.D i).nrow ∧ MD.ncol i = (P.aot.D i).ncol
  mark : ∀ x ∈ P.J.R.adm, P.J.R.mark x.1 ≠ 0

/-- What pair `i` adds to cell `l`. -/
def gB (P : Per K) (W : Nat → Nat → Nat → K) (px : Nat → K) (i : Nat) (l : Loc) : K :=
  ∑ c ∈ range (P.aot.B i).nrow, if l = P.admLoc i c then P.admVal W px i c else 0

/-- What dense block `i` adds to cell `l`. -/
def gD (P : Per K) (px : Nat → K) (i : Nat) (l : Loc) : K :=
  ∑ c ∈ range (P.aot.D i).nrow, if l = P.yLoc (P.lay P.J.R.nPoint (P.J.R.rowS (P.dNode i).1 + c)) then
    ∑ d ∈ range (P.aot.D i).ncol, (P.aot.D i).e c d * px (P.J.R.rowS (P.dNode i).2 + d) else 0

theorem mem_rowB {MB MD : Meta} (hM : P.PerMeta MB MD) {r : Nat} (hr : r < P.J.R.arr.nNode) {ent : Int × Int} (he : ent ∈ csrRow MB r) :
    ∃ i < P.J.R.adm.length, (P.J.R.adm.getD i (0, 0)).1 = r ∧ ent = (((P.J.R.adm.getD i (0, 0)).2 : Int), (i : Int) + 1) := by
  rw [(hM.rowB r hr).mem_iff, List.mem_map] at he
  obtain ⟨x, hx, rfl⟩ := he
  rw [List.mem_filter] at hx
  unfold tripB at hx
  rw [List.mem_map] at hx
  obtain ⟨⟨i, hi, rfl⟩, e⟩ := hx
  exact ⟨i, List.mem_range.1 hi, by simpa using e, rfl⟩

theorem mem_rowD {MB MD : Meta} (hM : P.PerMeta MB MD) {r : Nat} (hr : r < P.J.R.arr.nNode) {ent : Int × Int} (he : ent ∈ csrRow MD r) :
    ∃ i < P.J.R.arr.nLeaf + P.J.R.inadm.length, (P.dNode i).1 = r ∧ ent = (((P.dNode i).2 : Int), (i : Int) + 1) := by
  rw [(hM.rowD r hr).mem_iff, List.mem_map] at he
  obtain ⟨x, hx, rfl⟩ := he
  rw [List.mem_filter] at hx
  unfold tripD at hx
  rw [List.mem_map] at hx
  obtain ⟨⟨i, hi, rfl⟩, e⟩ := hx
  exact ⟨i, List.mem_range.1 hi, by simpa using e, rfl⟩

theorem yLoc_ne_y1 (P : Per K) (k v j : Nat) : P.yLoc k ≠ .y1 v j := by
  unfold yLoc; split <;> simp

theorem yLoc_inj (P : Per K) {k k' : Nat} : P.yLoc k = P.yLoc k' ↔ k = k' := by
  unfold yLoc; split <;> simp

theorem gB_other (h : P.Ok) (W : Nat → Nat → Nat → K) (px : Nat → K) {i u k : Nat} (hne : (P.J.R.adm.getD i (0, 0)).1 ≠ u) : P.gB W px i (.y1 u k) = 0 := by
  unfold gB
  apply Finset.sum_eq_zero
  intro c _
  rw [if_neg]
  unfold admLoc
  dsimp only
  split
  · intro e
    rw [Loc.y1.injEq] at e
    exact hne e.1.symm
  · exact fun e => yLoc_ne_y1 P _ _ _ e.symm

section Loops
variable (h : P.Ok) {W : Nat → Nat → Nat → K} {MB MD : Meta} (hM : P.PerMeta MB MD) {x px : Nat → K} {y0 y : Y0 K}
  (hx : ∀ q < P.J.R.size, x (P.lay P.J.R.nPoint q) = px q)
  (hy : ∀ v < P.J.R.arr.nNode, ∀ c < P.J.jn v * P.J.R.kdim, (y0 v).2 (P.lay (P.J.jn v) c) = (y v).2 c)
  (hd : ∀ v < P.J.R.arr.nNode, FwdDone P.J.R W px y v)
include h hM hx

include hy hd in
theorem intmdNode_adds (PE : PerEnv K) {r : Nat} (hr : r < P.J.R.arr.nNode) (mem : Loc → K) (l : Loc) :
    P.intmdNode PE MB x y0 mem r l = P.clearNode PE r mem l + ((csrRow MB r).map fun ent => P.gB W px (ent.2 - 1).toNat l).sum := by
  unfold intmdNode
  apply foldl_adds (P.intmdPair MB x y0 r) (fun ent l => P.gB W px (ent.2 - 1).toNat l)
  intro ent he mem l
  obtain ⟨i, hi, e1, rfl⟩ := mem_rowB hM hr he
  have := intmdPair_adds h hx hy hd hi (hM.sizeB i hi).1 (hM.sizeB i hi).2 mem l
  rw [e1] at this
  rw [this]
  have e2 : ((i : Int) + 1 - 1).toNat = i := by omega
  dsimp only
  rw [e2]
  rfl

theorem denseNode_adds {r : Nat} (hr : r < P.J.R.arr.nNode) (mem : Loc → K) (l : Loc) :
    P.denseNode MD x mem r l = mem l + ((csrRow MD r).map fun ent => P.gD px (ent.2 - 1).toNat l).sum := by
  unfold denseNode
  apply foldl_adds (P.densePair MD x r) (fun ent l => P.gD px (ent.2 - 1).toNat l)
  intro ent he mem l
  obtain ⟨i, hi, e1, rfl⟩ := mem_rowD hM hr he
  have := densePair_adds h hx hi (hM.sizeD i hi).1 (hM.sizeD i hi).2 mem l
  rw [e1] at this
  rw [this]
  have e2 : ((i : Int) + 1 - 1).toNat = i := by omega
  dsimp only
  rw [e2]
  unfold gD
  rw [e1]

theorem tripB_lt : ∀ z ∈ P.tripB, z.1 < P.J.R.arr.nNode := by
  intro z hz
  unfold tripB at hz
  rw [List.mem_map] at hz
  obtain ⟨i, hi, rfl⟩ := hz
  have hi := List.mem_range.1 hi
  dsimp only
  rw [getD_adm hi]
  exact (h.admNode _ (List.getElem_mem hi)).1

theorem tripD_lt : ∀ z ∈ P.tripD, z.1 < P.J.R.arr.nNode := by
  intro z hz
  unfold tripD at hz
  rw [List.mem_map] at hz
  obtain ⟨i, hi, rfl⟩ := hz
  exact (dNode_lt h (List.mem_range.1 hi)).1

include hy hd in
/-- The loop over the nodes of the admissible part: cells of the output. -/
theorem loopB_y {PE : PerEnv K} (hE : PE.Valid P.J.R) (mem : Loc → K) (l : Loc) (hl : ∀ v k, l ≠ .y1 v k) :
    PE.ordB.foldl (P.intmdNode PE MB x y0) mem l = mem l + ∑ i ∈ range P.J.R.adm.length, P.gB W px i l := by
  have hc : ∀ r mem, P.clearNode PE r mem l = mem l := by
    intro r mem
    cases l with
    | y1 v k => exact absurd rfl (hl v k)
    | ty t k => rfl
    | y k => rfl
  have hlt : ∀ r ∈ PE.ordB, r < P.J.R.arr.nNode := fun r hr => List.mem_range.1 (hE.ordB.mem_iff.1 hr)
  have key : ∀ (L : List Nat), (∀ r ∈ L, r < P.J.R.arr.nNode) → ∀ mem, L.foldl (P.intmdNode PE MB x y0) mem l =
      mem l + (L.map fun r => ((csrRow MB r).map fun ent => P.gB W px (ent.2 - 1).toNat l).sum).sum := by
    intro L
    induction L with
    | nil => intro _ mem; simp
    | cons a L ih =>
      intro hL mem
      rw [List.foldl_cons, ih (fun r hr => hL r (List.mem_cons_of_mem _ hr)), intmdNode_adds h hM hx hy hd PE (hL a List.mem_cons_self), hc,
        List.map_cons, List.sum_cons, add_assoc]
  rw [key _ hlt, rows_sum hM.rowB (tripB_lt h hM hx) (fun ent => P.gB W px (ent.2 - 1).toNat l) hE.ordB]
  congr 1
  unfold tripB
  rw [List.map_map, list_sum_range]
  apply sum_congr rfl
  intro i _
  have e2 : ((i : Int) + 1 - 1).toNat = i := by omega
  simp only [Function.comp_apply]
  rw [e2]

include hy hd in
/-- The loop over the nodes of the admissible part: cells of `y1`. -/
theorem loopB_y1 {PE : PerEnv K} (hE : PE.Valid P.J.R) (mem : Loc → K) {u k : Nat} (hu : u < P.J.R.arr.nNode) (hm : P.J.R.mark u ≠ 0)
    (hk : k < P.J.jn u * P.J.R.kdim) :
    PE.ordB.foldl (P.intmdNode PE MB x y0) mem (.y1 u k) = ∑ i ∈ range P.J.R.adm.length, P.gB W px i (.y1 u k) := by
  have hlt : ∀ r ∈ PE.ordB, r < P.J.R.arr.nNode := fun r hr => List.mem_range.1 (hE.ordB.mem_iff.1 hr)
  apply fold_once _ _ u _ PE.ordB (hE.ordB.nodup_iff.2 List.nodup_range) (hE.ordB.mem_iff.2 (List.mem_range.2 hu))
  · intro r hr hne mem
    rw [intmdNode_adds h hM hx hy hd PE (hlt r hr)]
    have e1 : P.clearNode PE r mem (.y1 u k) = mem (.y1 u k) := by
      show (if u = r ∧ _ then _ else _) = _
      rw [if_neg (fun e => hne e.1.symm)]
    rw [e1]
    have e2 : ((csrRow MB r).map fun ent => P.gB W px (ent.2 - 1).toNat (.y1 u k)).sum = 0 := by
      apply List.sum_eq_zero
      intro z hz
      rw [List.mem_map] at hz
      obtain ⟨ent, he, rfl⟩ := hz
      obtain ⟨i, hi, e, rfl⟩ := mem_rowB hM (hlt r hr) he
      have e2 : ((i : Int) + 1 - 1).toNat = i := by omega
      dsimp only
      rw [e2]
      exact gB_other h W px (by rw [e]; exact hne)
    rw [e2, add_zero]
  · intro mem
    rw [intmdNode_adds h hM hx hy hd PE hu]
    have e1 : P.clearNode PE u mem (.y1 u k) = 0 := by
      show (if u = u ∧ k < (if P.J.R.mark u ≠ 0 then PE.E.nThread else PE.nrow1 u) * y1ncol P.J.R PE.E u then _ else _) = _
      rw [if_pos]
      refine ⟨rfl, ?_⟩
      rw [if_pos hm, y1ncol_marked hm, h.rankJ u hu]
      have := hE.threads
      calc k < P.J.jn u * P.J.R.kdim := hk
        _ ≤ PE.E.nThread * (P.J.jn u * P.J.R.kdim) := Nat.le_mul_of_pos_left _ this
    rw [e1, zero_add, (((hM.rowB u hu).map _).sum_eq), List.map_map, filter_sum]
    unfold tripB
    rw [List.map_map, list_sum_range]
    apply sum_congr rfl
    intro i _
    have e2 : ((i : Int) + 1 - 1).toNat = i := by omega
    simp only [Function.comp_apply, decide_eq_true_eq]
    rw [e2]
    by_cases e : (P.J.R.adm.getD i (0, 0)).1 = u
    · rw [if_pos e]
    · rw [if_neg e, gB_other h W px e]

/-- The loop over the nodes of the dense part. -/
theorem loopD {PE : PerEnv K} (hE : PE.Valid P.J.R) (mem : Loc → K) (l : Loc) :
    PE.ordD.foldl (P.denseNode MD x) mem l = mem l + ∑ i ∈ range (P.J.R.arr.nLeaf + P.J.R.inadm.length), P.gD px i l := by
  have hlt : ∀ r ∈ PE.ordD, r < P.J.R.arr.nNode := fun r hr => List.mem_range.1 (hE.ordD.mem_iff.1 hr)
  have key : ∀ (L : List Nat), (∀ r ∈ L, r < P.J.R.arr.nNode) → ∀ mem, L.foldl (P.denseNode MD x) mem l =
      mem l + (L.map fun r => ((csrRow MD r).map fun ent => P.gD px (ent.2 - 1).toNat l).sum).sum := by
    intro L
    induction L with
    | nil => intro _ mem; simp
    | cons a L ih =>
      intro hL mem
      rw [List.foldl_cons, ih (fun r hr => hL r (List.mem_cons_of_mem _ hr)), denseNode_adds h hM hx (hL a List.mem_cons_self),
        List.map_cons, List.sum_cons, add_assoc]
  rw [key _ hlt]
  rw [rows_sum hM.rowD (tripD_lt h hM hx) (fun ent => P.gD px (ent.2 - 1).toNat l) hE.ordD]
  congr 1
  unfold tripD
  rw [List.map_map, list_sum_range]
  apply sum_congr rfl
  intro i _
  have e2 : ((i : Int) + 1 - 1).toNat = i := by omega
  simp only [Function.comp_apply]
  rw [e2]

end Loops

/-! ## Contributions of a pair -/

theorem gB_y1 (h : P.Ok) (W : Nat → Nat → Nat → K) (px : Nat → K) {i : Nat} {v c : Nat} (hc : c < P.J.jn v * P.J.R.kdim) :
    P.gB W px i (.y1 v (P.lay (P.J.jn v) c)) =
      if P.J.R.arr.level (P.J.R.adm.getD i (0, 0)).2 ≤ P.J.R.arr.level (P.J.R.adm.getD i (0, 0)).1 ∧ (P.J.R.adm.getD i (0, 0)).1 = v
      then P.admVal W px i c else 0 := by
  by_cases e : (P.J.R.adm.getD i (0, 0)).1 = v
  · by_cases hl : P.J.R.arr.level (P.J.R.adm.getD i (0, 0)).2 ≤ P.J.R.arr.level (P.J.R.adm.getD i (0, 0)).1
    · rw [if_pos ⟨hl, e⟩]
      have hn : (P.aot.B i).nrow = P.J.jn v * P.J.R.kdim := by
        show (P.J.sidePts _ _).2.2 * _ = _
        unfold JIT.sidePts
        rw [if_pos hl, e]; rfl
      unfold gB admLoc
      dsimp only
      simp only [if_pos hl]
      rw [hn, e, Finset.sum_eq_single c]
      · rw [if_pos rfl]
      · intro b hb hne
        rw [if_neg]
        intro he
        rw [Loc.y1.injEq, lay_inj h.kdim hc (mem_range.1 hb)] at he
        exact hne he.2.symm
      · intro hh; exact absurd (mem_range.2 hc) hh
    · rw [if_neg (fun g => hl g.1)]
      unfold gB admLoc
      dsimp only
      simp only [if_neg hl]
      apply Finset.sum_eq_zero
      intro c _
      rw [if_neg (fun e => yLoc_ne_y1 P _ _ _ e.symm)]
  · rw [if_neg (fun g => e g.2), gB_other h W px e]

theorem gB_yLoc (h : P.Ok) (W : Nat → Nat → Nat → K) (px : Nat → K) {i : Nat} (hi : i < P.J.R.adm.length) {r : Nat} (hr : r < P.J.R.size) :
    P.gB W px i (P.yLoc (P.lay P.J.R.nPoint r)) =
      if P.J.R.arr.level (P.J.R.adm.getD i (0, 0)).2 ≤ P.J.R.arr.level (P.J.R.adm.getD i (0, 0)).1 then 0 else
        ∑ c ∈ range (P.aot.B i).nrow, if r = P.J.R.rowS (P.J.R.adm.getD i (0, 0)).1 + c then P.admVal W px i c else 0 := by
  unfold gB admLoc
  dsimp only
  split
  · apply Finset.sum_eq_zero
    intro c _
    rw [if_neg (yLoc_ne_y1 P _ _ _)]
  · next hl =>
    apply sum_congr rfl
    intro c hc
    rw [mem_range] at hc
    have hc' : c < P.J.npt (P.J.R.adm.getD i (0, 0)).1 * P.J.R.kdim := by
      have : c < (P.J.sidePts (P.J.R.adm.getD i (0, 0)).1 (P.J.R.adm.getD i (0, 0)).2).2.2 * P.J.R.kdim := hc
      unfold JIT.sidePts at this
      rw [if_neg hl] at this
      exact this
    have hn : (P.J.R.adm.getD i (0, 0)).1 < P.J.R.arr.nNode := by
      rw [getD_adm hi]; exact (h.admNode _ (List.getElem_mem hi)).1
    simp only [yLoc_inj, lay_inj h.kdim (ld := P.J.R.nPoint) hr (row_in_size h hn hc')]

theorem gD_yLoc (h : P.Ok) (px : Nat → K) {i : Nat} (hi : i < P.J.R.arr.nLeaf + P.J.R.inadm.length) {r : Nat} (hr : r < P.J.R.size) :
    P.gD px i (P.yLoc (P.lay P.J.R.nPoint r)) = ∑ q ∈ range P.J.R.size, blockEntry P.aot (P.dNode i).1 (P.dNode i).2 (P.aot.D i) r q * px q := by
  have hn := dNode_lt h hi
  have hD := D_eq P i
  have h1 : (P.aot.D i).nrow = P.J.npt (P.dNode i).1 * P.J.R.kdim := by rw [hD]; rfl
  have h2 : (P.aot.D i).ncol = P.J.npt (P.dNode i).2 * P.J.R.kdim := by rw [hD]; rfl
  have key := block_row (R := P.aot) (v := (P.dNode i).1) (w := (P.dNode i).2) (M := P.aot.D i)
    (by rw [h1]; exact (rows_npt h hn.1).symm) (by rw [h2]; exact (rows_npt h hn.2).symm)
    (le_of_lt (rowS_lt_rowE (flat_wf h) hn.2)) (rowE_le_size (flat_wf h) hn.2) px r
  refine Eq.trans ?_ key
  unfold gD
  apply sum_congr rfl
  intro c hc
  rw [mem_range, h1] at hc
  have e : (P.yLoc (P.lay P.J.R.nPoint r) = P.yLoc (P.lay P.J.R.nPoint (P.J.R.rowS (P.dNode i).1 + c))) ↔ r = P.aot.rowS (P.dNode i).1 + c := by
    rw [yLoc_inj, lay_inj h.kdim (ld := P.J.R.nPoint) hr (row_in_size h hn.1 hc)]
    rfl
  by_cases c : r = P.aot.rowS (P.dNode i).1 + c
  · rw [if_pos c, if_pos (e.2 c)]; rfl
  · rw [if_neg c, if_neg (fun g => c (e.1 g))]

/-! ## The whole product in the permuted order -/

theorem root_lt (h : P.Ok) : P.root < P.J.R.arr.nNode := by
  have := h.tree.nonempty
  unfold root; omega

/-- The contributions of all blocks together are a row of the matrix times the vector. -/
theorem pmt_total (h : P.Ok) {W : Nat → Nat → Nat → K} (px : Nat → K) {y : Y0 K} (hd : ∀ v < P.J.R.arr.nNode, FwdDone P.J.R W px y v) {r : Nat} (hr : r < P.J.R.size) :
    (∑ i ∈ range P.J.R.adm.length, P.gB W px i (P.yLoc (P.lay P.J.R.nPoint r))) +
      (∑ v ∈ range P.J.R.arr.nNode,
        ((∑ i ∈ range P.J.R.adm.length, if P.J.R.arr.level (P.J.R.adm.getD i (0, 0)).2 ≤ P.J.R.arr.level (P.J.R.adm.getD i (0, 0)).1 ∧
          (P.J.R.adm.getD i (0, 0)).1 = v then ∑ c ∈ range (P.aot.B i).nrow, W (P.J.R.adm.getD i (0, 0)).1 r c * P.admVal W px i c else 0) +
        (if v = P.root then ∑ c ∈ range P.blkSize, ∑ d ∈ range P.blkSize, W P.root r c * (P.perBlk (c * P.blkSize + d) * (y P.root).2 d) else 0))) +
      ∑ i ∈ range (P.J.R.arr.nLeaf + P.J.R.inadm.length), P.gD px i (P.yLoc (P.lay P.J.R.nPoint r)) =
    ∑ q ∈ range P.J.R.size, P.entry W r q * px q := by
  have hrt := root_lt h
  have ep : (∑ i ∈ range P.J.R.adm.length, P.gB W px i (P.yLoc (P.lay P.J.R.nPoint r))) +
      (∑ v ∈ range P.J.R.arr.nNode, ∑ i ∈ range P.J.R.adm.length,
        if P.J.R.arr.level (P.J.R.adm.getD i (0, 0)).2 ≤ P.J.R.arr.level (P.J.R.adm.getD i (0, 0)).1 ∧
        (P.J.R.adm.getD i (0, 0)).1 = v then ∑ c ∈ range (P.aot.B i).nrow, W (P.J.R.adm.getD i (0, 0)).1 r c * P.admVal W px i c else 0) =
      ∑ i ∈ range P.J.R.adm.length, ∑ q ∈ range P.J.R.size, admEntry P.aot W i r q * px q := by
    rw [sum_comm, ← sum_add_distrib]
    apply sum_congr rfl
    intro i hi
    rw [mem_range] at hi
    have hn : (P.J.R.adm.getD i (0, 0)).1 < P.J.R.arr.nNode := by
      rw [getD_adm hi]; exact (h.admNode _ (List.getElem_mem hi)).1
    rw [gB_yLoc h W px hi hr]
    refine Eq.trans ?_ (adm_row (R := P.aot) W px i r)
    have hside : ∀ c, side P.aot W (P.aot.adm.getD i (0, 0)).1 (P.aot.adm.getD i (0, 0)).2 r c =
        if P.J.R.arr.level (P.J.R.adm.getD i (0, 0)).2 ≤ P.J.R.arr.level (P.J.R.adm.getD i (0, 0)).1 then W (P.J.R.adm.getD i (0, 0)).1 r c
        else if r = P.J.R.rowS (P.J.R.adm.getD i (0, 0)).1 + c then 1 else 0 := fun c => rfl
    simp only [hside]
    by_cases hl : P.J.R.arr.level (P.J.R.adm.getD i (0, 0)).2 ≤ P.J.R.arr.level (P.J.R.adm.getD i (0, 0)).1
    · simp only [hl, true_and, if_true]
      rw [Finset.sum_ite_eq, if_pos (mem_range.2 hn), zero_add]
      rfl
    · simp only [hl, false_and, if_false, Finset.sum_const_zero, add_zero, ite_mul, one_mul, zero_mul]
      rfl
  have er : (∑ v ∈ range P.J.R.arr.nNode, if v = P.root then ∑ c ∈ range P.blkSize, ∑ d ∈ range P.blkSize,
        W P.root r c * (P.perBlk (c * P.blkSize + d) * (y P.root).2 d) else 0) =
      ∑ q ∈ range P.J.R.size, (∑ c ∈ range P.blkSize, ∑ d ∈ range P.blkSize,
        W P.root r c * P.perBlk (c * P.blkSize + d) * W P.root q d) * px q := by
    rw [Finset.sum_ite_eq', if_pos (mem_range.2 hrt)]
    simp only [sum_mul]
    rw [sum_comm (s := range P.J.R.size)]
    apply sum_congr rfl
    intro c _
    rw [sum_comm (s := range P.J.R.size)]
    apply sum_congr rfl
    intro d hdd
    rw [mem_range] at hdd
    rw [(hd P.root hrt).2 d (by rw [h.rankJ _ hrt]; exact hdd), mul_sum, mul_sum]
    apply sum_congr rfl
    intro q _
    ring
  have ed : (∑ i ∈ range (P.J.R.arr.nLeaf + P.J.R.inadm.length), P.gD px i (P.yLoc (P.lay P.J.R.nPoint r))) =
      (∑ i ∈ range P.J.R.arr.nLeaf, ∑ q ∈ range P.J.R.size, blockEntry P.aot (P.J.R.leaf i) (P.J.R.leaf i) (P.aot.D i) r q * px q) +
      ∑ i ∈ range P.J.R.inadm.length, ∑ q ∈ range P.J.R.size, inadmEntry P.aot i r q * px q := by
    rw [Finset.sum_range_add]
    congr 1
    · apply sum_congr rfl
      intro i hi
      rw [mem_range] at hi
      rw [gD_yLoc h px (by omega) hr]
      have : P.dNode i = (P.J.R.leaf i, P.J.R.leaf i) := if_pos hi
      rw [this]
    · apply sum_congr rfl
      intro i hi
      rw [mem_range] at hi
      rw [gD_yLoc h px (by omega) hr]
      have : P.dNode (P.J.R.arr.nLeaf + i) = P.J.R.inadm.getD i (0, 0) := by
        unfold dNode
        rw [if_neg (by omega), Nat.add_sub_cancel_left]
      rw [this]
      rfl
  rw [sum_add_distrib, ← add_assoc, ep, er, ed]
  unfold entry
  simp only [add_mul, sum_add_distrib]
  rw [sum_comm (s := range P.J.R.adm.length), sum_comm (s := range P.J.R.arr.nLeaf), sum_comm (s := range P.J.R.inadm.length)]
  simp only [sum_mul]
  ring

theorem matvecPmt_spec (h : P.Ok) {W : Nat → Nat → Nat → K} (hW : Nested P.J.R W) {PE : PerEnv K} (hE : PE.Valid P.J.R) {MB MD : Meta}
    (hM : P.PerMeta MB MD) (px : Nat → K) :
    ∃ z, P.matvecPmt PE MB MD px = .ok z ∧ ∀ r < P.J.R.size, z r = ∑ q ∈ range P.J.R.size, P.entry W r q * px q := by
  have hk := h.kdim
  unfold matvecPmt
  dsimp only
  have hub : ¬ (P.J.R.kdim = 0 ∨ 8 < P.J.xdim ∨ 8 < P.pdim) := by
    have := h.xdim; have := h.pdim; omega
  rw [if_neg hub]
  refine ⟨_, rfl, fun r hr => ?_⟩
  have hx : ∀ q < P.J.R.size, (if P.needTrans then JIT.transp P.J.R.nPoint P.J.R.kdim px PE.gx else px) (P.lay P.J.R.nPoint q) = px q :=
    fun q hq => x_lay h px PE.gx hq
  have hd := fwd_done h hW hE px
  generalize fwdTransform P.J.R PE.E px = y at *
  have hy : ∀ v < P.J.R.arr.nNode, ∀ c < P.J.jn v * P.J.R.kdim,
      ((if P.needTrans then P.J.transY0 PE.g0 y else y) v).2 (P.lay (P.J.jn v) c) = (y v).2 c := by
    intro v hv c hc
    exact y0_lay h PE.g0 y (by rw [(hd v hv).1, h.rankJ v hv]) hc
  generalize (if P.needTrans then P.J.transY0 PE.g0 y else y) = y0 at *
  generalize (if P.needTrans then JIT.transp P.J.R.nPoint P.J.R.kdim px PE.gx else px) = x at *
  -- after the loop over the admissible pairs
  have b1 : ∀ u < P.J.R.arr.nNode, P.J.R.mark u ≠ 0 → ∀ k < P.J.jn u * P.J.R.kdim,
      PE.ordB.foldl (P.intmdNode PE MB x y0) (P.clearRow PE.E (initMem P.J.R PE.E)) (.y1 u k) = ∑ i ∈ range P.J.R.adm.length, P.gB W px i (.y1 u k) :=
    fun u hu hm k hk' => loopB_y1 h hM hx hy hd hE _ hu hm hk'
  have b2 : ∀ l, (∀ v k, l ≠ Loc.y1 v k) →
      PE.ordB.foldl (P.intmdNode PE MB x y0) (P.clearRow PE.E (initMem P.J.R PE.E)) l = ∑ i ∈ range P.J.R.adm.length, P.gB W px i l := by
    intro l hl
    rw [loopB_y h hM hx hy hd hE _ l hl]
    cases l with
    | y1 v k => exact absurd rfl (hl v k)
    | ty t k => show 0 + _ = _; rw [zero_add]
    | y k => show 0 + _ = _; rw [zero_add]
  generalize PE.ordB.foldl (P.intmdNode PE MB x y0) (P.clearRow PE.E (initMem P.J.R PE.E)) = m2 at *
  -- after the transposition of y1
  have c1 : ∀ u < P.J.R.arr.nNode, P.J.R.mark u ≠ 0 → ∀ c < P.J.jn u * P.J.R.kdim,
      (if P.needTrans then P.J.transY1 PE.E PE.g1 m2 else m2) (.y1 u c) = m2 (.y1 u (P.lay (P.J.jn u) c)) := by
    intro u hu hm c hc
    by_cases hn : P.needTrans
    · rw [if_pos hn]
      have e1 : y1ncol P.J.R PE.E u = P.J.jn u * P.J.R.kdim := by rw [y1ncol_marked hm, h.rankJ u hu]
      have e2 : y1ld P.J.R u ≠ 0 := by
        unfold y1ld
        rw [if_pos hm, h.rankJ u hu]
        exact Nat.pos_iff_ne_zero.1 (Nat.mul_pos (h.jpos u hu) hk)
      show (if u < P.J.R.arr.nNode ∧ y1ld P.J.R u ≠ 0 ∧ c < y1ncol P.J.R PE.E u then _ else _) = _
      rw [if_pos ⟨hu, e2, by rw [e1]; exact hc⟩, e1, Nat.mul_div_cancel _ hk]
      unfold lay
      rw [if_pos hn]
      obtain ⟨i, hi, a, ha, rfl⟩ := row_split hc
      rw [(div_mod_row ha).1, (div_mod_row ha).2, transp_eq _ _ _ _ hi ha]
    · rw [if_neg hn]
      unfold lay
      rw [if_neg hn]
  have c2 : ∀ l, (∀ v k, l ≠ Loc.y1 v k) → (if P.needTrans then P.J.transY1 PE.E PE.g1 m2 else m2) l = m2 l := by
    intro l hl
    split
    · cases l with
      | y1 v k => exact absurd rfl (hl v k)
      | ty t k => rfl
      | y k => rfl
    · rfl
  generalize (if P.needTrans then P.J.transY1 PE.E PE.g1 m2 else m2) = m3 at *
  -- the root
  have hrt := root_lt h
  have hm0 : 0 < P.blkSize := Nat.mul_pos (h.jpos _ hrt) hk
  have d1 : ∀ c < P.blkSize, P.rootMult PE y0 m3 (.y1 P.root c) = ∑ d ∈ range P.blkSize, P.perBlk (c * P.blkSize + d) * (y P.root).2 d := by
    intro c hc
    unfold rootMult
    dsimp only
    rw [if_pos rfl, gemvN_eq hm0 hm0 _ _ _ _ hc]
    simp only [Bool.false_eq_true, if_false, add_zero]
    apply sum_congr rfl
    intro d hdd
    rw [mem_range] at hdd
    have hdd' : d < P.J.jn P.root * P.J.R.kdim := hdd
    rw [← hy _ hrt d hdd']
    congr 1
    by_cases hn : P.needTrans
    · rw [if_pos hn]
      rw [if_pos hdd]
      unfold lay
      rw [if_pos hn]
      obtain ⟨i, hi, a, ha, rfl⟩ := row_split hdd'
      rw [(div_mod_row ha).1, (div_mod_row ha).2, transp_eq _ _ _ _ hi ha]
    · rw [if_neg hn]
      unfold lay
      rw [if_neg hn]
  have d2 : ∀ u, u ≠ P.root → ∀ c, P.rootMult PE y0 m3 (.y1 u c) = m3 (.y1 u c) := by
    intro u hu c
    unfold rootMult
    dsimp only
    rw [if_neg hu]
  have d3 : ∀ l, (∀ v k, l ≠ Loc.y1 v k) → P.rootMult PE y0 m3 l = m3 l := by
    intro l hl
    cases l with
    | y1 v k => exact absurd rfl (hl v k)
    | ty t k => rfl
    | y k => rfl
  generalize P.rootMult PE y0 m3 = m4 at *
  -- the backward transformation
  have hterm : ∀ v ∈ range P.J.R.arr.nNode, term P.J.R W r ⟨Function.update (y1ld P.J.R) P.root P.blkSize, m4⟩ v =
      (∑ i ∈ range P.J.R.adm.length, if P.J.R.arr.level (P.J.R.adm.getD i (0, 0)).2 ≤ P.J.R.arr.level (P.J.R.adm.getD i (0, 0)).1 ∧
        (P.J.R.adm.getD i (0, 0)).1 = v then ∑ c ∈ range (P.aot.B i).nrow, W (P.J.R.adm.getD i (0, 0)).1 r c * P.admVal W px i c else 0) +
      (if v = P.root then ∑ c ∈ range P.blkSize, ∑ d ∈ range P.blkSize, W P.root r c * (P.perBlk (c * P.blkSize + d) * (y P.root).2 d) else 0) := by
    intro v hv
    rw [mem_range] at hv
    unfold term
    dsimp only
    by_cases hvr : v = P.root
    · subst hvr
      have eu : Function.update (y1ld P.J.R) P.root P.blkSize P.root ≠ 0 := by
        rw [Function.update_self]; omega
      rw [if_pos eu, if_pos rfl]
      have z : (∑ i ∈ range P.J.R.adm.length, if P.J.R.arr.level (P.J.R.adm.getD i (0, 0)).2 ≤ P.J.R.arr.level (P.J.R.adm.getD i (0, 0)).1 ∧
        (P.J.R.adm.getD i (0, 0)).1 = P.root then ∑ c ∈ range (P.aot.B i).nrow, W (P.J.R.adm.getD i (0, 0)).1 r c * P.admVal W px i c else 0) = 0 := by
        apply Finset.sum_eq_zero
        intro i hi
        rw [mem_range] at hi
        rw [if_neg]
        rintro ⟨_, e⟩
        rw [getD_adm hi] at e
        exact h.root _ (List.getElem_mem hi) e
      rw [z, zero_add]
      have en : (P.J.R.U P.root).ncol = P.blkSize := h.rankJ _ hrt
      rw [en]
      apply sum_congr rfl
      intro c hc
      rw [d1 c (mem_range.1 hc), mul_sum]
    · have eu : Function.update (y1ld P.J.R) P.root P.blkSize v = y1ld P.J.R v := Function.update_of_ne hvr _ _
      rw [if_neg hvr, add_zero]
      by_cases hm : P.J.R.mark v = 0
      · rw [if_neg (by rw [eu]; unfold y1ld; simp [hm])]
        symm
        apply Finset.sum_eq_zero
        intro i hi
        rw [mem_range] at hi
        rw [if_neg]
        rintro ⟨_, e⟩
        rw [getD_adm hi] at e
        exact hM.mark _ (List.getElem_mem hi) (e ▸ hm)
      · have hr' := h.rankJ v hv
        have hld : y1ld P.J.R v ≠ 0 := by
          unfold y1ld
          rw [if_pos hm, hr']
          exact Nat.pos_iff_ne_zero.1 (Nat.mul_pos (h.jpos v hv) hk)
        rw [if_pos (by rw [eu]; exact hld), hr']
        have e : ∀ c ∈ range (P.J.jn v * P.J.R.kdim), W v r c * m4 (.y1 v c) = ∑ i ∈ range P.J.R.adm.length,
            if P.J.R.arr.level (P.J.R.adm.getD i (0, 0)).2 ≤ P.J.R.arr.level (P.J.R.adm.getD i (0, 0)).1 ∧ (P.J.R.adm.getD i (0, 0)).1 = v
            then W v r c * P.admVal W px i c else 0 := by
          intro c hc
          rw [mem_range] at hc
          rw [d2 v hvr, c1 v hv hm c hc, b1 v hv hm _ (lay_lt hk hc), mul_sum]
          apply sum_congr rfl
          intro i _
          rw [gB_y1 h W px hc]
          split
          · rfl
          · rw [mul_zero]
        rw [sum_congr rfl e, sum_comm]
        apply sum_congr rfl
        intro i hi
        by_cases hc : P.J.R.arr.level (P.J.R.adm.getD i (0, 0)).2 ≤ P.J.R.arr.level (P.J.R.adm.getD i (0, 0)).1 ∧ (P.J.R.adm.getD i (0, 0)).1 = v
        · simp only [if_pos hc]
          have hn : (P.aot.B i).nrow = P.J.jn v * P.J.R.kdim := by
            show (P.J.sidePts _ _).2.2 * _ = _
            unfold JIT.sidePts
            rw [if_pos hc.1, hc.2]; rfl
          rw [hn, hc.2]
        · simp only [if_neg hc]
          exact Finset.sum_const_zero
  have hbwd := bwd_sum h hW hE ⟨Function.update (y1ld P.J.R) P.root P.blkSize, m4⟩ r
  rw [sum_congr rfl hterm] at hbwd
  have hty := fun k => bwd_ty (R := P.J.R) PE.E ⟨Function.update (y1ld P.J.R) P.root P.blkSize, m4⟩ 0 k
  dsimp only at hbwd hty
  generalize (bwdTransform P.J.R PE.E ⟨Function.update (y1ld P.J.R) P.root P.blkSize, m4⟩).mem = m5 at *
  -- the output
  have hyr : ∀ q k, (Loc.y q : Loc) ≠ .y1 k 0 := fun _ _ => by simp
  have hml : ∀ l, (∀ v k, l ≠ Loc.y1 v k) → m4 l = ∑ i ∈ range P.J.R.adm.length, P.gB W px i l := by
    intro l hl
    rw [d3 l hl, c2 l hl, b2 l hl]
  have hD := fun l => loopD h hM hx hE m5 l
  generalize PE.ordD.foldl (P.denseNode MD x) m5 = m6 at *
  have hout : (if P.needTrans then
        (fun k => if k < P.J.R.size then m6 (.y k) + JIT.transp P.J.R.kdim P.J.R.nPoint (fun k => m6 (.ty 0 k)) x k else m6 (.y k))
      else fun k => m6 (.y k)) r =
      (∑ i ∈ range P.J.R.adm.length, P.gB W px i (P.yLoc (P.lay P.J.R.nPoint r))) +
      (∑ v ∈ range P.J.R.arr.nNode, term P.J.R W r ⟨Function.update (y1ld P.J.R) P.root P.blkSize, m4⟩ v) +
      ∑ i ∈ range (P.J.R.arr.nLeaf + P.J.R.inadm.length), P.gD px i (P.yLoc (P.lay P.J.R.nPoint r)) := by
    rw [sum_congr rfl hterm]
    by_cases hn : P.needTrans
    · rw [if_pos hn]
      rw [if_pos hr]
      have et : JIT.transp P.J.R.kdim P.J.R.nPoint (fun k => m6 (.ty 0 k)) x r = m6 (.ty 0 (P.lay P.J.R.nPoint r)) := by
        unfold lay
        rw [if_pos hn]
        obtain ⟨i, hi, a, ha, rfl⟩ := row_split hr
        rw [(div_mod_row ha).1, (div_mod_row ha).2, transp_eq _ _ _ _ hi ha]
      have ey : ∀ k, P.yLoc k = .ty 0 k := fun k => by unfold yLoc; rw [if_pos hn]
      rw [et, hD, hD, hty, hbwd, ey, hml _ (by intro v k; simp), hml _ (by intro v k; simp)]
      have z1 : ∑ i ∈ range P.J.R.adm.length, P.gB W px i (.y r) = 0 := by
        apply Finset.sum_eq_zero
        intro i _
        unfold gB admLoc
        dsimp only
        apply Finset.sum_eq_zero
        intro c _
        rw [if_neg]
        split
        · simp
        · rw [ey]; simp
      have z2 : ∑ i ∈ range (P.J.R.arr.nLeaf + P.J.R.inadm.length), P.gD px i (.y r) = 0 := by
        apply Finset.sum_eq_zero
        intro i _
        unfold gD
        apply Finset.sum_eq_zero
        intro c _
        rw [if_neg]
        rw [ey]; simp
      rw [z1, z2]
      ring
    · rw [if_neg hn]
      have ey : P.yLoc (P.lay P.J.R.nPoint r) = .y r := by
        unfold yLoc lay; rw [if_neg hn, if_neg hn]
      rw [ey, hD, hbwd, hml _ (by intro v k; simp)]
  refine hout.trans ?_
  rw [sum_congr rfl hterm]
  exact pmt_total h px hd hr

end Per
end
end H2Pack.MV
