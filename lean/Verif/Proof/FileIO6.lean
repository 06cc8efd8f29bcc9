import Verif.Proof.FileIO5
import Verif.Props.Build

set_option linter.unusedSectionVars false

/-! # Matrices with the same data have the same products -/

namespace H2Pack.IO
open H2Pack.MV
open H2Pack.Part (Arr kids ClusterTree)
open Finset

section
variable {K : Type} [CommRing K]

theorem kid_congr {R R' : Rep K} (h : SameTree R R') (T : ClusterTree R.arr R.nPoint) {v : Nat} (hv : v < R.arr.nNode) (k : Nat) : kid R' v k = kid R v k := by
  unfold kid; rw [kids_congr h T.width hv]

theorem kid_mem {R : Rep K} {v k : Nat} (hk : k < R.arr.nChild v) : kid R v k ∈ kids R.arr v := by
  unfold kid
  have : k < (kids R.arr v).length := by unfold kids; simpa using hk
  rw [show (kids R.arr v).getD k 0 = (kids R.arr v)[k] by simp [List.getD, this]]
  exact List.getElem_mem this

theorem kid_lt {R : Rep K} {n : Nat} (T : ClusterTree R.arr n) {v k : Nat} (hv : v < R.arr.nNode) (hk : k < R.arr.nChild v) : kid R v k < R.arr.nNode := by
  have := T.childLt v hv _ (kid_mem hk); omega

theorem off_congr {R R' : Rep K} (h : SameTree R R') (T : ClusterTree R.arr R.nPoint) {v : Nat} (hv : v < R.arr.nNode) {k : Nat} (hk : k ≤ R.arr.nChild v) :
    off R' v k = off R v k := by
  unfold off
  apply sum_congr rfl
  intro j hj
  have hj := mem_range.1 hj
  rw [kid_congr h T hv, (h.U _ (kid_lt T hv (by omega))).ncol]

theorem off_step (R : Rep K) (v k : Nat) : off R v (k + 1) = off R v k + (R.U (kid R v k)).ncol := by
  unfold off; rw [sum_range_succ]

theorem off_mono (R : Rep K) (v : Nat) {k m : Nat} (h : k ≤ m) : off R v k ≤ off R v m := by
  unfold off
  exact Finset.sum_le_sum_of_subset (fun x hx => mem_range.2 (lt_of_lt_of_le (mem_range.1 hx) h))

theorem wf_same {R R' : Rep K} (h : SameTree R R') (hb : SameBlocks R R') (w : WF R) (hm : Marked R') (T : ClusterTree R'.arr R.nPoint) : WF R' := by
  have hleaf : ∀ i < R.arr.nLeaf, R.leaf i < R.arr.nNode := fun i hi => ((H2Pack.Part.leaf_inj w.tree).2.1 i hi).1
  refine ⟨by rw [h.nPoint]; exact T, by rw [h.kdim]; exact w.kdim, ?_, ?_, ?_, ?_, ?_, ?_, hm, ?_, ?_, ?_, ?_, ?_⟩
  · rw [h.nPoint]
    have : (List.range R.nPoint).map R'.coordIdx = (List.range R.nPoint).map R.coordIdx :=
      List.map_congr_left (fun i hi => h.idx i (List.mem_range.1 hi))
    rw [this]; exact w.perm
  · intro v hv hl
    rw [h.nNode] at hv
    rw [h.minAdm, h.level v hv] at hl
    rw [(h.U v hv).ncol]; exact w.rank v hv hl
  · intro v hv hl hc
    rw [h.nNode] at hv
    rw [h.minAdm, h.level v hv] at hl
    rw [h.nChild v hv] at hc
    rw [(h.U v hv).nrow, (h.row hv).1, (h.row hv).2]; exact w.uLeaf v hv hl hc
  · intro v hv hl hc
    rw [h.nNode] at hv
    rw [h.minAdm, h.level v hv] at hl
    rw [h.nChild v hv] at hc
    rw [(h.U v hv).nrow, h.nChild v hv, off_congr h w.tree hv (le_refl _)]; exact w.uInner v hv hl hc
  · intro x hx; rw [h.adm] at hx; rw [h.nNode]; exact w.admNode x hx
  · intro x hx
    rw [h.adm] at hx
    obtain ⟨h1, h2⟩ := w.admNode x hx
    rw [h.minAdm, h.level _ h1, h.level _ h2]; exact w.admLevel x hx
  · intro i hi
    have hi' : i < R.adm.length := by rw [h.adm] at hi; exact hi
    have e : R'.adm[i] = R.adm[i] := by simp only [h.adm]
    obtain ⟨h1, h2⟩ := w.admNode _ (List.getElem_mem hi')
    rw [e, (hb.B i hi').nrow, h.level _ h1, h.level _ h2, (h.U _ h1).ncol, (h.row h1).1, (h.row h1).2]; exact w.bRow i hi'
  · intro i hi
    have hi' : i < R.adm.length := by rw [h.adm] at hi; exact hi
    have e : R'.adm[i] = R.adm[i] := by simp only [h.adm]
    obtain ⟨h1, h2⟩ := w.admNode _ (List.getElem_mem hi')
    rw [e, (hb.B i hi').ncol, h.level _ h1, h.level _ h2, (h.U _ h2).ncol, (h.row h2).1, (h.row h2).2]; exact w.bCol i hi'
  · intro x hx; rw [h.inadm] at hx; rw [h.nNode]; exact w.inadmNode x hx
  · intro i hi
    rw [h.nLeaf] at hi
    rw [h.leaf i hi, (h.row (hleaf i hi)).1, (h.row (hleaf i hi)).2, (hb.D i (by omega)).nrow, (hb.D i (by omega)).ncol]
    exact w.d0 i hi
  · intro i hi
    have hi' : i < R.inadm.length := by rw [h.inadm] at hi; exact hi
    have e : R'.inadm[i] = R.inadm[i] := by simp only [h.inadm]
    obtain ⟨h1, h2⟩ := w.inadmNode _ (List.getElem_mem hi')
    rw [e, h.nLeaf, (hb.D _ (by omega)).nrow, (hb.D _ (by omega)).ncol, (h.row h1).1, (h.row h1).2, (h.row h2).1, (h.row h2).2]
    exact w.d1 i hi'

theorem nested_same {R R' : Rep K} (h : SameTree R R') (w : WF R) {W : Nat → Nat → Nat → K} (hW : Nested R W) : Nested R' W := by
  constructor
  · intro v hv hl hc r c hcn
    rw [h.nNode] at hv
    rw [h.minAdm, h.level v hv] at hl
    rw [h.nChild v hv] at hc
    rw [(h.U v hv).ncol] at hcn
    rw [hW.leaf v hv hl hc r c hcn, (h.row hv).1, (h.row hv).2]
    by_cases e : R.rowS v ≤ r ∧ r < R.rowE v
    · rw [if_pos e, if_pos e, (h.U v hv).e _ (by rw [w.uLeaf v hv hl hc]; omega) c hcn]
    · rw [if_neg e, if_neg e]
  · intro v hv hl hc r c hcn
    rw [h.nNode] at hv
    rw [h.minAdm, h.level v hv] at hl
    rw [h.nChild v hv] at hc
    rw [(h.U v hv).ncol] at hcn
    rw [hW.inner v hv hl hc r c hcn, h.nChild v hv]
    apply sum_congr rfl
    intro k hk
    have hk := mem_range.1 hk
    rw [kid_congr h w.tree hv, (h.U _ (kid_lt w.tree hv hk)).ncol, off_congr h w.tree hv (by omega)]
    apply sum_congr rfl
    intro d hd
    have hd := mem_range.1 hd
    rw [(h.U v hv).e _ ?_ c hcn]
    rw [w.uInner v hv hl hc]
    have h1 := off_step R v k
    have h2 := off_mono R v (show k + 1 ≤ R.arr.nChild v by omega)
    omega

theorem side_same {R R' : Rep K} (h : SameTree R R') (W : Nat → Nat → Nat → K) {v w : Nat} (hv : v < R.arr.nNode) (hw : w < R.arr.nNode) (r c : Nat) :
    side R' W v w r c = side R W v w r c := by
  unfold side
  rw [h.level v hv, h.level w hw, (h.row hv).1]

theorem entry_same {R R' : Rep K} (h : SameTree R R') (hb : SameBlocks R R') (w : WF R) (W : Nat → Nat → Nat → K) (r q : Nat) : entry R' W r q = entry R W r q := by
  have hleaf : ∀ i < R.arr.nLeaf, R.leaf i < R.arr.nNode := fun i hi => ((H2Pack.Part.leaf_inj w.tree).2.1 i hi).1
  have ha : ∀ i < R.adm.length, ∀ r q, admEntry R' W i r q = admEntry R W i r q := by
    intro i hi r q
    have e : R.adm.getD i (0, 0) = R.adm[i] := by simp [hi]
    obtain ⟨h1, h2⟩ := w.admNode _ (List.getElem_mem hi)
    unfold admEntry
    rw [h.adm, e, (hb.B i hi).nrow, (hb.B i hi).ncol]
    apply sum_congr rfl
    intro c hc
    apply sum_congr rfl
    intro d hd
    rw [side_same h W h1 h2, side_same h W h2 h1, (hb.B i hi).e c (mem_range.1 hc) d (mem_range.1 hd)]
  have hbl : ∀ v < R.arr.nNode, ∀ u < R.arr.nNode, ∀ M M' : Mat K, SameMat M M' → M.nrow = R.rowE v - R.rowS v → M.ncol = R.rowE u - R.rowS u →
      ∀ r q, blockEntry R' v u M' r q = blockEntry R v u M r q := by
    intro v hv u hu M M' hM e1 e2 r q
    unfold blockEntry
    rw [(h.row hv).1, (h.row hv).2, (h.row hu).1, (h.row hu).2]
    by_cases c : (R.rowS v ≤ r ∧ r < R.rowE v) ∧ R.rowS u ≤ q ∧ q < R.rowE u
    · rw [if_pos c, if_pos c, hM.e _ (by omega) _ (by omega)]
    · rw [if_neg c, if_neg c]
  have hi : ∀ i < R.inadm.length, ∀ r q, inadmEntry R' i r q = inadmEntry R i r q := by
    intro i hi r q
    have e : R.inadm.getD i (0, 0) = R.inadm[i] := by simp [hi]
    obtain ⟨h1, h2⟩ := w.inadmNode _ (List.getElem_mem hi)
    unfold inadmEntry
    rw [h.inadm, e, h.nLeaf]
    exact hbl _ h1 _ h2 _ _ (hb.D _ (by omega)) (w.d1 i hi).1 (w.d1 i hi).2 r q
  unfold entry
  rw [h.adm, h.inadm, h.nLeaf]
  congr 1
  · congr 1
    · apply sum_congr rfl
      intro i hi
      have hi := mem_range.1 hi
      rw [ha i hi, ha i hi]
    · apply sum_congr rfl
      intro i hi
      have hi := mem_range.1 hi
      rw [h.leaf i hi]
      exact hbl _ (hleaf i hi) _ (hleaf i hi) _ _ (hb.D i (by omega)) (w.d0 i hi).1 (w.d0 i hi).2 r q
  · apply sum_congr rfl
    intro i hi'
    have hi' := mem_range.1 hi'
    rw [hi i hi', hi i hi']

theorem valid_same {R R' : Rep K} (h : SameTree R R') {E : Env K} (v : E.Valid R) : E.Valid R' := by
  refine ⟨v.threads, v.team, ?_, ?_, ?_, ?_, ?_, v.schedB, v.schedD0, v.schedD1, v.red⟩
  · intro l; rw [h.levels]; exact v.fwd l
  · intro l; rw [h.levels]; exact v.bwd l
  · rw [h.adm]; exact v.cutB
  · rw [h.nLeaf]; exact v.cutD0
  · rw [h.inadm]; exact v.cutD1

theorem sched_block {n nblk nT : Nat} {blk : Nat → Nat} {s : List (Nat × Nat)} (h : Cuts n nblk blk) (hs : Sched nT nblk s) {x : Nat × Nat} (hx : x ∈ s) {i : Nat}
    (hi : i ∈ List.range' (blk x.2) (blk (x.2 + 1) - blk x.2)) : i < n := by
  rw [List.mem_range'_1] at hi
  exact cuts_lt h (List.mem_range.1 (hs.1.mem_iff.1 (List.mem_map.2 ⟨x, hx, rfl⟩))) (by omega)

theorem matvec_patch {R R' : Rep K} (h : SameTree R R') {E : Env K} (v : E.Valid R) (g : (Nat → Nat) × (Nat → Nat)) (dx dy x : Nat → K) :
    matvec (patch R R') E g dx dy x = matvec R' E g dx dy x := by
  have e : ∀ px mem, denseAOT (patch R R') E px mem = denseAOT R' E px mem := by
    intro px mem
    unfold denseAOT
    have : E.schedD0.foldl (fun mem tb => taskBlock E.blkD0 (dense0 (patch R R') px tb.1) mem tb.2) mem =
        E.schedD0.foldl (fun mem tb => taskBlock E.blkD0 (dense0 R' px tb.1) mem tb.2) mem := by
      apply foldl_congr_mem
      intro tb htb s
      unfold taskBlock
      apply foldl_congr_mem
      intro i hi s
      have hi := sched_block v.cutD0 v.schedD0 htb hi
      have hl : (patch R R').leaf i = R'.leaf i := (h.leaf i hi).symm
      unfold dense0
      rw [hl]
      rfl
    rw [this]
    rfl
  have e1 : ∀ px, fwdTransform (patch R R') E px = fwdTransform R' E px := fun _ => rfl
  have e2 : ∀ px y0 m, intmdAOT (patch R R') E px y0 m = intmdAOT R' E px y0 m := fun _ _ _ => rfl
  have e3 : ∀ m, sumY1 (patch R R') E m = sumY1 R' E m := by
    intro m; funext l; cases l <;> rfl
  have e4 : initMem (patch R R') E = initMem R' E := by
    funext l; cases l <;> rfl
  have e5 : ∀ t l k s, pushKids (patch R R') E t l k s = pushKids R' E t l k s := by
    intro t l
    induction l with
    | nil => intro k s; rfl
    | cons c l ih => intro k s; unfold pushKids; rw [ih]; rfl
  have e6 : ∀ s, bwdTransform (patch R R') E s = bwdTransform R' E s := by
    intro s
    have : bwdNode (patch R R') E = bwdNode R' E := by
      funext s v; unfold bwdNode; simp only [e5]; rfl
    unfold bwdTransform
    rw [this]
    rfl
  unfold matvec matvecPmt
  simp only [e, e1, e2, e3, e4, e6]
  rfl

/-- Same data, same products: any schedules, numbers of threads, buffer contents. -/
theorem matvec_same {R R' : Rep K} (h : SameTree R R') (hb : SameBlocks R R') (w : WF R) (hm : Marked R') {E E' : Env K} (hE : E.Valid R) (hE' : E'.Valid R')
    (g g' : (Nat → Nat) × (Nat → Nat)) (dx dy dx' dy' x : Nat → K) {k : Nat} (hk : k < R.nPoint * R.kdim) :
    matvec R' E' g' dx' dy' x k = matvec R E g dx dy x k := by
  have hp := patch_same h
  have T := patch_tree h w.tree
  have hbp : SameBlocks R (patch R R') := ⟨hb.B, hb.D⟩
  have wp : WF (patch R R') := wf_same hp hbp w hm T
  have hE2 : E.Valid (patch R R') := valid_same hp hE
  have hE3 : E'.Valid (patch R R') := ⟨hE'.threads, hE'.team, hE'.fwd, hE'.bwd, hE'.cutB, hE'.cutD0, hE'.cutD1, hE'.schedB, hE'.schedD0, hE'.schedD1, hE'.red⟩
  have hER : E'.Valid R := by
    refine ⟨hE'.threads, hE'.team, ?_, ?_, ?_, ?_, ?_, hE'.schedB, hE'.schedD0, hE'.schedD1, hE'.red⟩
    · intro l; rw [← h.levels]; exact hE'.fwd l
    · intro l; rw [← h.levels]; exact hE'.bwd l
    · rw [← h.adm]; exact hE'.cutB
    · rw [← h.nLeaf]; exact hE'.cutD0
    · rw [← h.inadm]; exact hE'.cutD1
  rw [← matvec_patch h hER]
  obtain ⟨p, hp', a, ha, rfl⟩ := row_split hk
  obtain ⟨i, hi, rfl⟩ := perm_surj w.perm hp'
  have C1 := (C20_matvec w (basis_nested w) E hE g dx dy x).1 i hi a ha
  have C2 := (C20_matvec wp (nested_same hp w (basis_nested w)) E' hE3 g' dx' dy' x).1 i (by rw [hp.nPoint]; exact hi) a (by rw [hp.kdim]; exact ha)
  rw [C1]
  rw [hp.kdim, hp.nPoint, hp.idx i hi] at C2
  rw [C2]
  apply sum_congr rfl
  intro j hj
  apply sum_congr rfl
  intro b _
  rw [entry_same hp hbp w, hp.idx j (mem_range.1 hj)]

end

end H2Pack.IO
