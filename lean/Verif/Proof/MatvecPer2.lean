import Verif.Proof.MatvecPer

/-! # Periodic matvec: one pair, the sweeps, layouts -/

set_option linter.unusedSectionVars false

namespace H2Pack.MV
open H2Pack.Part (Arr kids ClusterTree)
open Finset (range sum_congr mul_sum sum_mul sum_comm sum_add_distrib sum_range_succ mem_range)

section
variable {K : Type} [CommRing K]

namespace Per
variable {P : Per K}

/-- The representation without pairs: only basis and leaf blocks. -/
def flat (P : Per K) : Rep K := { P.aot with adm := [], inadm := [] }

theorem rows_npt (h : P.Ok) {v : Nat} (hv : v < P.J.R.arr.nNode) : P.J.R.rowE v - P.J.R.rowS v = P.J.npt v * P.J.R.kdim := by
  unfold Rep.rowE Rep.rowS JIT.npt
  have := h.tree.clusterLe v hv
  rw [← Nat.mul_sub, Nat.mul_comm]
  congr 1
  omega

theorem leaf_node (h : P.Ok) {i : Nat} (hi : i < P.J.R.arr.nLeaf) : P.J.R.leaf i < P.J.R.arr.nNode ∧ P.J.R.arr.nChild (P.J.R.leaf i) = 0 := by
  have hh := h.tree.heightList 0
  have hlen := congrArg List.length hh
  rw [List.length_map, List.length_range] at hlen
  have hz : ∀ v < P.J.R.arr.nNode, P.J.R.arr.height v = 0 ↔ P.J.R.arr.nChild v = 0 := by
    intro v hv
    constructor
    · intro h0
      by_contra hne
      obtain ⟨c, _, hc⟩ := (h.tree.nodeHeight v hv hne).2
      omega
    · exact h.tree.leafHeight v hv
  have hcount : ((List.range P.J.R.arr.nNode).filter (fun v => P.J.R.arr.height v = 0)) = (List.range P.J.R.arr.nNode).filter (fun v => P.J.R.arr.nChild v = 0) := by
    apply List.filter_congr
    intro v hv
    simp only [decide_eq_decide]
    exact hz v (List.mem_range.1 hv)
  rw [hcount] at hh hlen
  rw [← h.tree.nLeaf] at hlen
  have hm : P.J.R.leaf i ∈ (List.range (P.J.R.arr.heightN 0)).map (fun r => P.J.R.arr.heightNodes (0 * P.J.R.arr.nLeaf + r)) := by
    refine List.mem_map.2 ⟨i, List.mem_range.2 (by omega), ?_⟩
    rw [Nat.zero_mul, Nat.zero_add]; rfl
  rw [hh, List.mem_filter, List.mem_range] at hm
  exact ⟨hm.1, by simpa using hm.2⟩

theorem flat_wf (h : P.Ok) : WF P.flat := by
  refine ⟨h.tree, h.kdim, h.perm, ?_, ?_, ?_, ?_, ?_, ?_, ?_, ?_, ?_, ?_, ?_⟩
  · intro v hv _
    show 0 < (P.J.R.U v).ncol
    rw [h.rankJ v hv]
    exact Nat.mul_pos (h.jpos v hv) h.kdim
  · intro v hv _ h0
    show (P.J.R.U v).nrow = P.J.R.rowE v - P.J.R.rowS v
    rw [rows_npt h hv]
    exact h.uLeaf v hv h0
  · intro v hv _ h0
    exact h.uInner v hv h0
  · intro x hx; exact absurd hx List.not_mem_nil
  · intro x hx; exact absurd hx List.not_mem_nil
  · intro x hx; exact absurd hx List.not_mem_nil
  · intro i hi; exact absurd hi (Nat.not_lt_zero _)
  · intro i hi; exact absurd hi (Nat.not_lt_zero _)
  · intro x hx; exact absurd hx List.not_mem_nil
  · intro i hi
    have hi' : i < P.J.R.arr.nLeaf := hi
    have hl := leaf_node h hi'
    have e : P.flat.D i = P.block (P.J.cPts (P.J.R.leaf i)) (P.J.cPts (P.J.R.leaf i)) (fun _ => 0) := if_pos hi'
    have e2 : P.flat.rowE (P.flat.leaf i) - P.flat.rowS (P.flat.leaf i) = P.J.npt (P.J.R.leaf i) * P.J.R.kdim := rows_npt h hl.1
    rw [e, e2]
    exact ⟨rfl, rfl⟩
  · intro i hi; exact absurd hi (Nat.not_lt_zero _)

/-- The environment with trivial schedules of the loops that the periodic matvec does not have. -/
def envFlat (E : Env K) (nLeaf : Nat) : Env K := { E with
  nB := 0, blkB := fun _ => 0, schedB := [], nD0 := 1, blkD0 := fun b => if b = 0 then 0 else nLeaf, schedD0 := [(0, 0)]
  nD1 := 0, blkD1 := fun _ => 0, schedD1 := [], redOrd := List.range E.nThread }

theorem fwd_done (h : P.Ok) {W : Nat → Nat → Nat → K} (hW : Nested P.J.R W) {PE : PerEnv K} (hE : PE.Valid P.J.R) (px : Nat → K) :
    ∀ v < P.J.R.arr.nNode, FwdDone P.J.R W px (fwdTransform P.J.R PE.E px) v := by
  intro v hv
  have hWf : Nested P.flat W := ⟨hW.leaf, hW.inner⟩
  have hV : (envFlat PE.E P.J.R.arr.nLeaf).Valid P.flat := by
    refine ⟨hE.threads, hE.team, hE.fwd, hE.bwd, ⟨rfl, rfl, fun b hb => absurd hb (Nat.not_lt_zero _)⟩, ⟨rfl, rfl, fun b hb => ?_⟩,
      ⟨rfl, rfl, fun b hb => absurd hb (Nat.not_lt_zero _)⟩, ⟨List.Perm.refl _, ?_⟩, ⟨List.Perm.refl _, ?_⟩, ⟨List.Perm.refl _, ?_⟩, List.Perm.refl _⟩
    · have hb : b < 1 := hb
      rw [show b = 0 by omega]
      exact Nat.zero_le _
    · intro x hx; exact absurd hx List.not_mem_nil
    · intro x hx
      have : x = (0, 0) := by simpa [envFlat] using hx
      rw [this]; exact hE.threads
    · intro x hx; exact absurd hx List.not_mem_nil
  exact fwd_spec (flat_wf h) hWf _ hV px v hv (by show P.J.R.minAdm ≤ _; rw [h.minAdm]; exact Nat.zero_le _)

theorem pushKids_flat (P : Per K) (E : Env K) (tmp : Nat → K) (cs : List Nat) : ∀ (idx : Nat) (s : BwdSt K),
    pushKids P.J.R E tmp cs idx s = pushKids P.flat E tmp cs idx s := by
  induction cs with
  | nil => intro idx s; rfl
  | cons c cs ih =>
    intro idx s
    rw [pushKids, pushKids, ih]
    rfl

theorem bwd_flat (P : Per K) (E : Env K) (s : BwdSt K) : bwdTransform P.J.R E s = bwdTransform P.flat E s := by
  have node : bwdNode P.J.R E = bwdNode P.flat E := by
    funext s v
    unfold bwdNode
    dsimp only
    rw [pushKids_flat]
    rfl
  unfold bwdTransform
  rw [node]
  rfl

theorem bwd_sum (h : P.Ok) {W : Nat → Nat → Nat → K} (hW : Nested P.J.R W) {PE : PerEnv K} (hE : PE.Valid P.J.R) (s : BwdSt K) (r : Nat) :
    (bwdTransform P.J.R PE.E s).mem (.y r) = s.mem (.y r) + ∑ v ∈ range P.J.R.arr.nNode, term P.J.R W r s v := by
  rw [bwd_flat, bwd_spec (flat_wf h) (W := W) ⟨hW.leaf, hW.inner⟩ PE.E hE.bwd]
  congr 1
  apply sum_congr
  · unfold deep
    rw [Finset.filter_true_of_mem]
    · rfl
    · intro v _; show P.J.R.minAdm ≤ _; rw [h.minAdm]; exact Nat.zero_le _
  · intro v _; rfl

/-! ## Layouts of the inputs -/

theorem x_lay (h : P.Ok) (px gx : Nat → K) {q : Nat} (hq : q < P.J.R.size) :
    (if P.needTrans then JIT.transp P.J.R.nPoint P.J.R.kdim px gx else px) (P.lay P.J.R.nPoint q) = px q := by
  by_cases hn : P.needTrans
  · rw [if_pos hn]
    unfold lay
    rw [if_pos hn]
    obtain ⟨i, hi, a, ha, rfl⟩ := row_split hq
    rw [(div_mod_row ha).1, (div_mod_row ha).2, transp_eq _ _ _ _ ha hi]
  · unfold lay
    rw [if_neg hn, if_neg hn]

theorem y0_lay (h : P.Ok) (g0 : Nat → Nat → K) (y : Y0 K) {v : Nat} (hy : (y v).1 = P.J.jn v * P.J.R.kdim) {c : Nat} (hc : c < P.J.jn v * P.J.R.kdim) :
    ((if P.needTrans then P.J.transY0 g0 y else y) v).2 (P.lay (P.J.jn v) c) = (y v).2 c := by
  by_cases hn : P.needTrans
  · have hl := lay_lt h.kdim hc
    rw [if_pos hn]
    unfold JIT.transY0
    dsimp only
    rw [if_pos (by rw [hy]; exact hl), hy, Nat.mul_div_cancel _ h.kdim]
    unfold lay
    rw [if_pos hn]
    obtain ⟨i, hi, a, ha, rfl⟩ := row_split hc
    rw [(div_mod_row ha).1, (div_mod_row ha).2, transp_eq _ _ _ _ ha hi]
  · unfold lay
    rw [if_neg hn, if_neg hn]

/-! ## One admissible pair -/

/-- Where entry `c` of the product with pair `i` goes. -/
def admLoc (P : Per K) (i c : Nat) : Loc :=
  let n0 := (P.J.R.adm.getD i (0, 0)).1
  let n1 := (P.J.R.adm.getD i (0, 0)).2
  if P.J.R.arr.level n1 ≤ P.J.R.arr.level n0 then .y1 n0 (P.lay (P.J.jn n0) c) else P.yLoc (P.lay P.J.R.nPoint (P.J.R.rowS n0 + c))

/-- Entry `c` of the product with pair `i`. -/
def admVal (P : Per K) (W : Nat → Nat → Nat → K) (px : Nat → K) (i c : Nat) : K :=
  ∑ d ∈ range (P.aot.B i).ncol, (P.aot.B i).e c d * zSide P.aot W px (P.J.R.adm.getD i (0, 0)).2 (P.J.R.adm.getD i (0, 0)).1 d

theorem shiftOf_zero (h : P.Ok) (sh : Nat → K) (i : Nat) : ∀ d, P.J.xdim ≤ d → P.shiftOf sh i d = 0 := by
  intro d hd
  have := h.pdim
  unfold shiftOf
  rw [if_neg (by omega)]

theorem rowS_pt {R : Rep K} (v i a : Nat) : R.rowS v + (i * R.kdim + a) = (R.arr.ptS v + i) * R.kdim + a := by
  unfold Rep.rowS; ring

theorem pt_lt (h : P.Ok) {v i : Nat} (hv : v < P.J.R.arr.nNode) (hi : i < P.J.npt v) : P.J.R.arr.ptS v + i < P.J.R.nPoint := by
  have h1 := h.tree.clusterLt v hv
  have h2 := h.tree.clusterLe v hv
  unfold JIT.npt at hi
  omega

theorem row_in_size (h : P.Ok) {v c : Nat} (hv : v < P.J.R.arr.nNode) (hc : c < P.J.npt v * P.J.R.kdim) : P.J.R.rowS v + c < P.J.R.size := by
  obtain ⟨i, hi, a, ha, rfl⟩ := row_split hc
  rw [rowS_pt]
  exact row_lt (pt_lt h hv hi) ha

/-- The data of a node in the layouts of the two variants: input vector. -/
theorem in_x (h : P.Ok) {x px : Nat → K} (hx : ∀ q < P.J.R.size, x (P.lay P.J.R.nPoint q) = px q) {v : Nat} (hv : v < P.J.R.arr.nNode) :
    (P.mv = none → ∀ c < P.J.npt v * P.J.R.kdim, x (P.J.R.rowS v + c) = px (P.J.R.rowS v + c)) ∧
    (P.mv ≠ none → ∀ b < P.J.R.kdim, ∀ j < P.J.npt v, x (P.J.R.arr.ptS v + (b * P.J.R.nPoint + j)) = px (P.J.R.rowS v + (j * P.J.R.kdim + b))) := by
  refine ⟨fun hm c hc => ?_, fun hm b hb j hj => ?_⟩
  · have := hx (P.J.R.rowS v + c) (row_in_size h hv hc)
    rwa [lay_none hm] at this
  · rw [rowS_pt]
    have := hx ((P.J.R.arr.ptS v + j) * P.J.R.kdim + b) (row_lt (pt_lt h hv hj) hb)
    rw [lay_pt h.kdim hm _ hb] at this
    rw [← this]
    congr 1
    omega

theorem out_y (h : P.Ok) (v : Nat) :
    (P.mv = none → ∀ c < P.J.npt v * P.J.R.kdim, P.yLoc (P.J.R.rowS v + c) = P.yLoc (P.lay P.J.R.nPoint (P.J.R.rowS v + c))) ∧
    (P.mv ≠ none → ∀ a < P.J.R.kdim, ∀ i < P.J.npt v, P.yLoc (P.J.R.arr.ptS v + (a * P.J.R.nPoint + i)) =
      P.yLoc (P.lay P.J.R.nPoint (P.J.R.rowS v + (i * P.J.R.kdim + a)))) := by
  refine ⟨fun hm c _ => by rw [lay_none hm], fun hm a ha i _ => ?_⟩
  rw [rowS_pt, lay_pt h.kdim hm _ ha]
  congr 1
  omega

theorem in_y0 (h : P.Ok) {y0 y : Y0 K} {v : Nat} (hy : ∀ c < P.J.jn v * P.J.R.kdim, (y0 v).2 (P.lay (P.J.jn v) c) = (y v).2 c) :
    (P.mv = none → ∀ c < P.J.jn v * P.J.R.kdim, (y0 v).2 c = (y v).2 c) ∧
    (P.mv ≠ none → ∀ b < P.J.R.kdim, ∀ j < P.J.jn v, (y0 v).2 (b * P.J.jn v + j) = (y v).2 (j * P.J.R.kdim + b)) := by
  refine ⟨fun hm c hc => ?_, fun hm b hb j hj => ?_⟩
  · have := hy c hc
    rwa [lay_none hm] at this
  · have := hy (j * P.J.R.kdim + b) (row_lt hj hb)
    rwa [lay_pt h.kdim hm _ hb] at this

theorem intmdPair_adds (h : P.Ok) {W : Nat → Nat → Nat → K} {M : Meta} {x px : Nat → K} {y0 y : Y0 K}
    (hx : ∀ q < P.J.R.size, x (P.lay P.J.R.nPoint q) = px q)
    (hy : ∀ v < P.J.R.arr.nNode, ∀ c < P.J.jn v * P.J.R.kdim, (y0 v).2 (P.lay (P.J.jn v) c) = (y v).2 c)
    (hd : ∀ v < P.J.R.arr.nNode, FwdDone P.J.R W px y v)
    {i : Nat} (hi : i < P.J.R.adm.length) (hr : M.nrow i = (P.aot.B i).nrow) (hc : M.ncol i = (P.aot.B i).ncol) (mem : Loc → K) (l : Loc) :
    P.intmdPair M x y0 (P.J.R.adm.getD i (0, 0)).1 mem (((P.J.R.adm.getD i (0, 0)).2 : Int), (i : Int) + 1) l =
      mem l + ∑ c ∈ range (P.aot.B i).nrow, if l = P.admLoc i c then P.admVal W px i c else 0 := by
  have hk := h.kdim
  have hn := h.admNode _ (List.getElem_mem hi)
  have hB : P.aot.B i = P.block (P.J.sidePts (P.J.R.adm.getD i (0, 0)).1 (P.J.R.adm.getD i (0, 0)).2)
    (P.J.sidePts (P.J.R.adm.getD i (0, 0)).2 (P.J.R.adm.getD i (0, 0)).1) (P.shiftOf P.admShift i) := rfl
  have hsd : ∀ d < (P.aot.B i).ncol, zSide P.aot W px (P.J.R.adm.getD i (0, 0)).2 (P.J.R.adm.getD i (0, 0)).1 d =
      if P.J.R.arr.level (P.J.R.adm.getD i (0, 0)).1 ≤ P.J.R.arr.level (P.J.R.adm.getD i (0, 0)).2 then (y (P.J.R.adm.getD i (0, 0)).2).2 d
      else px (P.J.R.rowS (P.J.R.adm.getD i (0, 0)).2 + d) := by
    intro d hdd
    rw [hB] at hdd
    rw [getD_adm hi] at hdd ⊢
    generalize P.J.R.adm[i] = pr at *
    obtain ⟨n0, n1⟩ := pr
    dsimp only at *
    have hdd' : d < (P.J.sidePts n1 n0).2.2 * P.J.R.kdim := hdd
    unfold JIT.sidePts at hdd'
    by_cases hl : P.J.R.arr.level n0 ≤ P.J.R.arr.level n1
    · rw [if_pos hl] at hdd' ⊢
      exact (zSide_basis (R := P.J.R) (hd n1 hn.2) hl (by rw [h.rankJ n1 hn.2]; exact hdd')).symm
    · rw [if_neg hl] at hdd' ⊢
      refine (zSide_direct (flat_wf h) (W := W) (x := px) (v := n1) (w := n0) hn.2 (by show P.J.R.arr.level n1 < P.J.R.arr.level n0; omega) ?_).symm
      show d < P.J.R.rowE n1 - P.J.R.rowS n1
      rw [rows_npt h hn.2]
      exact hdd'
  have hval : ∀ c, P.admVal W px i c = ∑ d ∈ range (P.aot.B i).ncol, (P.aot.B i).e c d *
      (if P.J.R.arr.level (P.J.R.adm.getD i (0, 0)).1 ≤ P.J.R.arr.level (P.J.R.adm.getD i (0, 0)).2 then (y (P.J.R.adm.getD i (0, 0)).2).2 d
      else px (P.J.R.rowS (P.J.R.adm.getD i (0, 0)).2 + d)) := by
    intro c
    unfold admVal
    apply sum_congr rfl
    intro d hdd
    rw [hsd d (mem_range.1 hdd)]
  simp only [hval]
  unfold intmdPair admLoc
  dsimp only
  have e1 : (((P.J.R.adm.getD i (0, 0)).2 : Int)).toNat = (P.J.R.adm.getD i (0, 0)).2 := by simp
  have e2 : ((i : Int) + 1 - 1).toNat = i := by omega
  rw [e1, e2, hr, hc, hB]
  rw [getD_adm hi]
  generalize P.J.R.adm[i] = pr at *
  obtain ⟨n0, n1⟩ := pr
  dsimp only at *
  unfold JIT.sidePts
  rcases Nat.lt_trichotomy (P.J.R.arr.level n0) (P.J.R.arr.level n1) with hl | hl | hl
  · simp only [if_neg (show ¬ P.J.R.arr.level n0 = P.J.R.arr.level n1 by omega), if_neg (show ¬ P.J.R.arr.level n0 > P.J.R.arr.level n1 by omega),
      if_neg (show ¬ P.J.R.arr.level n1 ≤ P.J.R.arr.level n0 by omega), if_pos (show P.J.R.arr.level n0 ≤ P.J.R.arr.level n1 by omega)]
    apply call_adds h.simd h.mv (shiftOf_zero h _ _) (y n1).2 (fun c => P.yLoc (P.lay P.J.R.nPoint (P.J.R.rowS n0 + c)))
    · intro hm
      exact ⟨rfl, rfl, (in_y0 h (hy n1 hn.2)).1 hm, (out_y h n0).1 hm⟩
    · intro hm
      have en : (P.block (P.J.cPts n0) (P.J.jPts n1) (P.shiftOf P.admShift i)).ncol / P.J.R.kdim = P.J.jn n1 := Nat.mul_div_cancel _ hk
      rw [en]
      exact ⟨(in_y0 h (hy n1 hn.2)).2 hm, (out_y h n0).2 hm⟩
  · simp only [if_pos hl, if_pos (show P.J.R.arr.level n1 ≤ P.J.R.arr.level n0 by omega), if_pos (show P.J.R.arr.level n0 ≤ P.J.R.arr.level n1 by omega)]
    apply call_adds h.simd h.mv (shiftOf_zero h _ _) (y n1).2 (fun c => .y1 n0 (P.lay (P.J.jn n0) c))
    · intro hm
      exact ⟨rfl, rfl, (in_y0 h (hy n1 hn.2)).1 hm, fun c _ => by rw [lay_none hm]⟩
    · intro hm
      have en : (P.block (P.J.jPts n0) (P.J.jPts n1) (P.shiftOf P.admShift i)).ncol / P.J.R.kdim = P.J.jn n1 := Nat.mul_div_cancel _ hk
      have em : (P.block (P.J.jPts n0) (P.J.jPts n1) (P.shiftOf P.admShift i)).nrow / P.J.R.kdim = P.J.jn n0 := Nat.mul_div_cancel _ hk
      rw [en, em]
      exact ⟨(in_y0 h (hy n1 hn.2)).2 hm, fun a ha i _ => by rw [lay_pt hk hm _ ha]⟩
  · simp only [if_neg (show ¬ P.J.R.arr.level n0 = P.J.R.arr.level n1 by omega), if_pos (show P.J.R.arr.level n0 > P.J.R.arr.level n1 by omega),
      if_pos (show P.J.R.arr.level n1 ≤ P.J.R.arr.level n0 by omega), if_neg (show ¬ P.J.R.arr.level n0 ≤ P.J.R.arr.level n1 by omega)]
    apply call_adds h.simd h.mv (shiftOf_zero h _ _) (fun d => px (P.J.R.rowS n1 + d)) (fun c => .y1 n0 (P.lay (P.J.jn n0) c))
    · intro hm
      exact ⟨rfl, rfl, (in_x h hx hn.2).1 hm, fun c _ => by rw [lay_none hm]⟩
    · intro hm
      have em : (P.block (P.J.jPts n0) (P.J.cPts n1) (P.shiftOf P.admShift i)).nrow / P.J.R.kdim = P.J.jn n0 := Nat.mul_div_cancel _ hk
      rw [em]
      exact ⟨(in_x h hx hn.2).2 hm, fun a ha i _ => by rw [lay_pt hk hm _ ha]⟩

/-! ## One dense block -/

/-- The nodes of dense block `i`. -/
def dNode (P : Per K) (i : Nat) : Nat × Nat :=
  if i < P.J.R.arr.nLeaf then (P.J.R.leaf i, P.J.R.leaf i) else P.J.R.inadm.getD (i - P.J.R.arr.nLeaf) (0, 0)

theorem dNode_lt (h : P.Ok) {i : Nat} (hi : i < P.J.R.arr.nLeaf + P.J.R.inadm.length) :
    (P.dNode i).1 < P.J.R.arr.nNode ∧ (P.dNode i).2 < P.J.R.arr.nNode := by
  unfold dNode
  split
  · next hl => exact ⟨(leaf_node h hl).1, (leaf_node h hl).1⟩
  · next hl =>
    have hj : i - P.J.R.arr.nLeaf < P.J.R.inadm.length := by omega
    rw [getD_inadm hj]
    exact h.inadmNode _ (List.getElem_mem hj)

/-- The shift of dense block `i`. -/
def dShift (P : Per K) (i : Nat) : Nat → K := if i < P.J.R.arr.nLeaf then fun _ => 0 else P.shiftOf P.inadmShift (i - P.J.R.arr.nLeaf)

theorem D_eq (P : Per K) (i : Nat) : P.aot.D i = P.block (P.J.cPts (P.dNode i).1) (P.J.cPts (P.dNode i).2) (P.dShift i) := by
  show (if i < P.J.R.arr.nLeaf then _ else _) = _
  unfold dNode dShift
  split <;> rfl

theorem densePair_adds (h : P.Ok) {M : Meta} {x px : Nat → K} (hx : ∀ q < P.J.R.size, x (P.lay P.J.R.nPoint q) = px q)
    {i : Nat} (hi : i < P.J.R.arr.nLeaf + P.J.R.inadm.length) (hr : M.nrow i = (P.aot.D i).nrow) (hc : M.ncol i = (P.aot.D i).ncol) (mem : Loc → K) (l : Loc) :
    P.densePair M x (P.dNode i).1 mem (((P.dNode i).2 : Int), (i : Int) + 1) l =
      mem l + ∑ c ∈ range (P.aot.D i).nrow, if l = P.yLoc (P.lay P.J.R.nPoint (P.J.R.rowS (P.dNode i).1 + c)) then
        ∑ d ∈ range (P.aot.D i).ncol, (P.aot.D i).e c d * px (P.J.R.rowS (P.dNode i).2 + d) else 0 := by
  have hn := dNode_lt h hi
  unfold densePair
  dsimp only
  have e1 : (((P.dNode i).2 : Int)).toNat = (P.dNode i).2 := by simp
  have e2 : ((i : Int) + 1 - 1).toNat = i := by omega
  rw [e1, e2, hr, hc, D_eq]
  have e3 : (if i < P.J.R.arr.nLeaf then fun _ => 0 else P.shiftOf P.inadmShift (i - P.J.R.arr.nLeaf)) = P.dShift i := rfl
  rw [e3]
  apply call_adds h.simd h.mv _ (fun d => px (P.J.R.rowS (P.dNode i).2 + d)) (fun c => P.yLoc (P.lay P.J.R.nPoint (P.J.R.rowS (P.dNode i).1 + c)))
  · intro hm
    exact ⟨rfl, rfl, (in_x h hx hn.2).1 hm, (out_y h _).1 hm⟩
  · intro hm
    exact ⟨(in_x h hx hn.2).2 hm, (out_y h _).2 hm⟩
  · intro d hd
    unfold dShift
    split
    · rfl
    · exact shiftOf_zero h _ _ d hd

end Per
end
end H2Pack.MV
