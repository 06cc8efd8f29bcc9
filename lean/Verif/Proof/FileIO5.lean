import Verif.Proof.FileIO4

set_option linter.unusedSectionVars false

/-! # Matrices with the same data have the same products -/

namespace H2Pack.IO
open H2Pack.MV
open H2Pack.Part (Arr kids ClusterTree)
open Finset

section
variable {K : Type} [CommRing K]

/-! ## Metadata -/

/-- The halves of the metadata arrays that belong to sizes and to pairs. -/
def mix (a b : MetaSt) : MetaSt := ⟨a.nrow, a.ncol, a.sz, a.total, b.cnt, b.pi, b.pj, b.pv, b.nAdm⟩

theorem fold_mix {f : MetaSt → Nat → MetaSt} {g h : MetaSt → Nat → MetaSt} (L : List Nat) (hf : ∀ i ∈ L, ∀ a b, f (mix a b) i = mix (g a i) (h b i)) (a b : MetaSt) :
    L.foldl f (mix a b) = mix (L.foldl g a) (L.foldl h b) := by
  induction L generalizing a b with
  | nil => rfl
  | cons x L ih =>
    rw [List.foldl_cons, hf x (by simp), ih (fun i hi => hf i (List.mem_cons_of_mem _ hi))]; rfl

theorem fold_id (L : List Nat) (a : MetaSt) : L.foldl (fun s (_ : Nat) => s) a = a := by
  induction L with
  | nil => rfl
  | cons x L ih => exact ih

theorem bMetaStep_mix (J : JIT K) (i : Nat) (a b : MetaSt) :
    bMetaStep J false (mix a b) i = mix (a.size i (J.aot.B i).nrow (J.aot.B i).ncol) (postB J.R.adm b i) := by
  have hp := pair_npt J (J.R.adm.getD i (0, 0)).1 (J.R.adm.getD i (0, 0)).2
  unfold bMetaStep
  dsimp only at hp ⊢
  rw [hp]
  rfl

theorem dMetaLeaf_mix (J : JIT K) (i : Nat) (hi : i < J.R.arr.nLeaf) (a b : MetaSt) :
    dMetaLeaf J (mix a b) i = mix (a.size i (J.aot.D i).nrow (J.aot.D i).ncol) (postD0 J.R.leaf b i) := by
  have e : J.aot.D i = J.block (J.cPts (J.R.leaf i)) (J.cPts (J.R.leaf i)) := if_pos hi
  rw [e]; rfl

theorem dMetaPair_mix (J : JIT K) (i : Nat) (a b : MetaSt) :
    dMetaPair J false (mix a b) i = mix (a.size (i + J.R.arr.nLeaf) (J.aot.D (J.R.arr.nLeaf + i)).nrow (J.aot.D (J.R.arr.nLeaf + i)).ncol)
      (postD1 J.R.arr.nLeaf J.R.inadm b i) := by
  have e : J.aot.D (J.R.arr.nLeaf + i) = J.block (J.cPts (J.R.inadm.getD i (0, 0)).1) (J.cPts (J.R.inadm.getD i (0, 0)).2) := by
    show (if _ then _ else _) = _
    rw [if_neg (by omega), Nat.add_sub_cancel_left]
  rw [e]; rfl

theorem foldl_congr_mem {α β : Type} (L : List α) (f g : β → α → β) (h : ∀ x ∈ L, ∀ s, f s x = g s x) (s : β) : L.foldl f s = L.foldl g s := by
  induction L generalizing s with
  | nil => rfl
  | cons x L ih => rw [List.foldl_cons, List.foldl_cons, h x (by simp), ih (fun y hy => h y (List.mem_cons_of_mem _ hy))]

theorem finishB_eq {F : Fmt K} {H : Mtx K} {c : Nat → K} {tol : K} {jm : Bool} {Q : Raw K} (h : RawOk F H c tol jm Q) (E : MetaEnv) (fuel : Nat) :
    finishB Q E fuel = generateB H.J false E fuel := by
  have e1 : (List.range H.J.R.adm.length).foldl (postB H.J.R.adm) (sizesB H.J) = (List.range H.J.R.adm.length).foldl (bMetaStep H.J false) MetaSt.init := by
    have h1 := fold_mix (f := bMetaStep H.J false) (List.range H.J.R.adm.length) (fun i _ => bMetaStep_mix H.J i) MetaSt.init MetaSt.init
    have h2 := fold_mix (f := postB H.J.R.adm) (g := fun s _ => s) (h := postB H.J.R.adm) (List.range H.J.R.adm.length) (fun i _ a b => rfl) (sizesB H.J) (sizesB H.J)
    have h3 := fold_mix (f := postB H.J.R.adm) (g := fun s _ => s) (h := postB H.J.R.adm) (List.range H.J.R.adm.length) (fun i _ a b => rfl) (sizesB H.J) MetaSt.init
    have hs : mix (sizesB H.J) MetaSt.init = sizesB H.J := by
      have := fold_mix (f := fun (s : MetaSt) i => s.size i (H.J.aot.B i).nrow (H.J.aot.B i).ncol) (g := fun (s : MetaSt) i => s.size i (H.J.aot.B i).nrow (H.J.aot.B i).ncol)
        (h := fun s _ => s) (List.range H.J.R.adm.length) (fun i _ a b => rfl) MetaSt.init MetaSt.init
      rw [fold_id] at this
      exact this.symm
    rw [show mix MetaSt.init MetaSt.init = MetaSt.init from rfl] at h1
    rw [h1]
    rw [fold_id, hs] at h3
    exact h3
  have e2 : (sizesB H.J).sz = ((List.range H.J.R.adm.length).foldl (bMetaStep H.J false) MetaSt.init).sz ∧
      (sizesB H.J).total = ((List.range H.J.R.adm.length).foldl (bMetaStep H.J false) MetaSt.init).total := by
    have h1 := fold_mix (f := bMetaStep H.J false) (List.range H.J.R.adm.length) (fun i _ => bMetaStep_mix H.J i) MetaSt.init MetaSt.init
    rw [show mix MetaSt.init MetaSt.init = MetaSt.init from rfl] at h1
    rw [h1]; exact ⟨rfl, rfl⟩
  unfold finishB generateB
  rw [h.adm, h.sB, h.nodes.nNode]
  dsimp only
  rw [e1, e2.1, e2.2]

theorem finishD_eq {F : Fmt K} {H : Mtx K} {c : Nat → K} {tol : K} {jm : Bool} {Q : Raw K} (h : RawOk F H c tol jm Q)
    (hl : H.J.R.arr.nLeaf = ((List.range H.J.R.arr.nNode).filter (fun v => H.J.R.arr.nChild v = 0)).length) (E : MetaEnv) (fuel : Nat) :
    finishD Q E fuel = generateD H.J false E fuel := by
  have hnl : Q.R.arr.nLeaf = H.J.R.arr.nLeaf := by rw [h.nodes.nLeaf, ← hl]
  have h0 : (List.range H.J.R.arr.nLeaf).foldl (dMetaLeaf H.J) MetaSt.init =
      mix (sizesD0 H.J) ((List.range H.J.R.arr.nLeaf).foldl (postD0 H.J.R.leaf) MetaSt.init) := by
    have := fold_mix (f := dMetaLeaf H.J) (List.range H.J.R.arr.nLeaf) (fun i hi => dMetaLeaf_mix H.J i (List.mem_range.1 hi)) MetaSt.init MetaSt.init
    exact this
  set b0 := (List.range H.J.R.arr.nLeaf).foldl (postD0 H.J.R.leaf) MetaSt.init with hb0
  have h1 : (List.range H.J.R.inadm.length).foldl (dMetaPair H.J false) { mix (sizesD0 H.J) b0 with total := 0 } =
      mix (sizesD1 H.J) ((List.range H.J.R.inadm.length).foldl (postD1 H.J.R.arr.nLeaf H.J.R.inadm) b0) :=
    fold_mix (f := dMetaPair H.J false) (List.range H.J.R.inadm.length) (fun i _ => dMetaPair_mix H.J i) { sizesD0 H.J with total := 0 } b0
  have hpair : ∀ s : MetaSt, s.cnt = 0 → s.pi = (fun _ => 0) → s.pj = (fun _ => 0) → s.pv = (fun _ => 0) → s.nAdm = (fun _ => 0) → mix s MetaSt.init = s := by
    rintro ⟨_, _, _, _, _, _, _, _, _⟩ h1 h2 h3 h4 h5
    dsimp only at h1 h2 h3 h4 h5
    subst h1 h2 h3 h4 h5
    rfl
  have hS0 : mix (sizesD0 H.J) MetaSt.init = sizesD0 H.J := by
    have := fold_mix (f := fun (s : MetaSt) i => s.size i (H.J.aot.D i).nrow (H.J.aot.D i).ncol) (g := fun (s : MetaSt) i => s.size i (H.J.aot.D i).nrow (H.J.aot.D i).ncol)
      (h := fun s _ => s) (List.range H.J.R.arr.nLeaf) (fun i _ a b => rfl) MetaSt.init MetaSt.init
    rw [fold_id] at this
    exact this.symm
  have hS1 : mix (sizesD1 H.J) MetaSt.init = sizesD1 H.J := by
    have := fold_mix (f := fun (s : MetaSt) i => s.size (i + H.J.R.arr.nLeaf) (H.J.aot.D (H.J.R.arr.nLeaf + i)).nrow (H.J.aot.D (H.J.R.arr.nLeaf + i)).ncol)
      (g := fun (s : MetaSt) i => s.size (i + H.J.R.arr.nLeaf) (H.J.aot.D (H.J.R.arr.nLeaf + i)).nrow (H.J.aot.D (H.J.R.arr.nLeaf + i)).ncol)
      (h := fun s _ => s) (List.range H.J.R.inadm.length) (fun i _ a b => rfl) { sizesD0 H.J with total := 0 } MetaSt.init
    rw [fold_id, show mix { sizesD0 H.J with total := 0 } MetaSt.init = { mix (sizesD0 H.J) MetaSt.init with total := 0 } from rfl, hS0] at this
    exact this.symm
  have h2 : (List.range H.J.R.arr.nLeaf).foldl (postD0 H.J.R.leaf) (sizesD1 H.J) = mix (sizesD1 H.J) b0 := by
    have := fold_mix (f := postD0 H.J.R.leaf) (g := fun s _ => s) (h := postD0 H.J.R.leaf) (List.range H.J.R.arr.nLeaf) (fun i _ a b => rfl) (sizesD1 H.J) MetaSt.init
    rw [fold_id, hS1] at this
    exact this
  have h3 : (List.range H.J.R.inadm.length).foldl (postD1 H.J.R.arr.nLeaf H.J.R.inadm) (mix (sizesD1 H.J) b0) =
      mix (sizesD1 H.J) ((List.range H.J.R.inadm.length).foldl (postD1 H.J.R.arr.nLeaf H.J.R.inadm) b0) := by
    have := fold_mix (f := postD1 H.J.R.arr.nLeaf H.J.R.inadm) (g := fun s _ => s) (h := postD1 H.J.R.arr.nLeaf H.J.R.inadm) (List.range H.J.R.inadm.length) (fun i _ a b => rfl)
      (sizesD1 H.J) b0
    rw [fold_id] at this
    exact this
  have h4 : (List.range H.J.R.arr.nLeaf).foldl (postD0 Q.R.leaf) (sizesD1 H.J) = (List.range H.J.R.arr.nLeaf).foldl (postD0 H.J.R.leaf) (sizesD1 H.J) := by
    apply foldl_congr_mem
    intro i hi s
    unfold postD0
    rw [h.leaf i (List.mem_range.1 hi)]
  unfold finishD generateD
  rw [h.inadm, h.sD0, h.sD1, h.nodes.nNode, hnl]
  dsimp only
  rw [h0, h1, h4, h2, h3]
  rfl

/-! ## Products -/

theorem kids_congr {R R' : Rep K} (h : SameTree R R') (hw : ∀ v < R.arr.nNode, R.arr.nChild v ≤ R.arr.maxChild) {v : Nat} (hv : v < R.arr.nNode) :
    kids R'.arr v = kids R.arr v := by
  unfold kids
  rw [h.nChild v hv, h.maxChild]
  apply List.map_congr_left
  intro j hj
  have := hw v hv
  rw [h.children v hv j (by have := List.mem_range.1 hj; omega)]

/-- `R'` with the arrays that products do not read taken from `R`. -/
def patch (R R' : Rep K) : Rep K :=
  { R' with arr := { R'.arr with parent := R.arr.parent, height := R.arr.height, heightN := R.arr.heightN, heightNodes := R.arr.heightNodes, enbox := R.arr.enbox } }

theorem patch_tree {R R' : Rep K} (h : SameTree R R') (T : ClusterTree R.arr R.nPoint) : ClusterTree (patch R R').arr R.nPoint := by
  have hk : ∀ v < R.arr.nNode, kids (patch R R').arr v = kids R.arr v := fun v hv => kids_congr h T.width hv
  have en : (patch R R').arr.nNode = R.arr.nNode := h.nNode
  have elf : (patch R R').arr.nLeaf = R.arr.nLeaf := h.nLeaf
  have hr : R.arr.nNode - 1 < R.arr.nNode := by have := T.nonempty; omega
  have hn : ∀ l, R'.arr.levelN l = R.arr.levelN l := by
    intro l
    have := congrArg List.length (h.levels l)
    unfold Rep.levelList at this
    simpa using this
  refine ⟨?_, ?_, ?_, ?_, ?_, ?_, ?_, ?_, ?_, ?_, ?_, ?_, ?_, ?_, ?_, ?_, ?_, ?_, ?_, ?_, ?_, ?_, ?_, ?_, ?_⟩
  · rw [en]; exact T.nonempty
  · rw [en]; exact T.rootParent
  · rw [en]; show R'.arr.level _ = _; rw [h.level _ hr]; exact T.rootLevel
  · rw [en]; show R'.arr.ptS _ = _; rw [h.ptS _ hr]; exact T.rootS
  · rw [en]; show R'.arr.ptE _ + 1 = _; rw [h.ptE _ hr]; exact T.rootE
  · intro v hv; rw [en] at hv; show R'.arr.nChild v ≤ R'.arr.maxChild; rw [h.nChild v hv, h.maxChild]; exact T.width v hv
  · intro v hv i hi
    rw [en] at hv
    have hi : i < R'.arr.nChild v := hi
    rw [h.nChild v hv] at hi
    show 0 ≤ R'.arr.children (v * R'.arr.maxChild + i)
    rw [h.maxChild, h.children v hv i (by have := T.width v hv; omega)]
    exact T.childNonneg v hv i hi
  · intro v hv i hi hi'
    rw [en] at hv
    have hi : R'.arr.nChild v ≤ i := hi
    have hi' : i < R'.arr.maxChild := hi'
    rw [h.nChild v hv] at hi
    rw [h.maxChild] at hi'
    show R'.arr.children (v * R'.arr.maxChild + i) = _
    rw [h.maxChild, h.children v hv i hi']
    exact T.pad v hv i hi hi'
  · intro v hv c hc; rw [en] at hv; rw [hk v hv] at hc; exact T.childLt v hv c hc
  · intro v hv c hc; rw [en] at hv; rw [hk v hv] at hc; exact T.parentOfChild v hv c hc
  · intro c hc
    rw [en] at hc
    obtain ⟨v, hv, h1, h2⟩ := T.childOfParent c hc
    exact ⟨v, by rw [en]; exact hv, h1, by rw [hk v hv]; exact h2⟩
  · intro v hv; rw [en] at hv; rw [hk v hv]; exact T.kidsNodup v hv
  · intro v hv c hc
    rw [en] at hv
    rw [hk v hv] at hc
    show R'.arr.level c = R'.arr.level v + 1
    have := T.childLt v hv c hc
    rw [h.level v hv, h.level c (by omega)]
    exact T.childLevel v hv c hc
  · intro v hv h0
    rw [en] at hv
    have h0 : R'.arr.nChild v = 0 := h0
    rw [h.nChild v hv] at h0
    exact T.leafHeight v hv h0
  · intro v hv h0
    rw [en] at hv
    have h0 : R'.arr.nChild v ≠ 0 := h0
    rw [h.nChild v hv] at h0
    rw [hk v hv]
    exact T.nodeHeight v hv h0
  · rw [en]; show R'.arr.maxLevel = _; rw [h.maxLevel]; exact T.maxLevel
  · intro v hv; rw [en] at hv; show R'.arr.ptS v ≤ R'.arr.ptE v; rw [h.ptS v hv, h.ptE v hv]; exact T.clusterLe v hv
  · intro v hv; rw [en] at hv; show R'.arr.ptE v < _; rw [h.ptE v hv]; exact T.clusterLt v hv
  · intro v hv h0
    rw [en] at hv
    have h0 : R'.arr.nChild v ≠ 0 := h0
    rw [h.nChild v hv] at h0
    rw [hk v hv]
    show H2Pack.Part.Tiles (R'.arr.ptS v) (R'.arr.ptE v + 1) ((kids R.arr v).map fun c => (R'.arr.ptS c, R'.arr.ptE c))
    rw [h.ptS v hv, h.ptE v hv]
    have e : ((kids R.arr v).map fun c => (R'.arr.ptS c, R'.arr.ptE c)) = (kids R.arr v).map fun c => (R.arr.ptS c, R.arr.ptE c) := by
      apply List.map_congr_left
      intro c hc
      have := T.childLt v hv c hc
      rw [h.ptS c (by omega), h.ptE c (by omega)]
    rw [e]
    exact T.tile v hv h0
  · rw [elf, en, T.nLeaf]
    congr 1
    apply List.filter_congr
    intro v hv
    show _ = decide (R'.arr.nChild v = 0)
    rw [h.nChild v (List.mem_range.1 hv)]
  · intro v hv; rw [en] at hv; show R'.arr.level v ≤ R'.arr.maxLevel; rw [h.level v hv, h.maxLevel]; exact T.levelLe v hv
  · intro l; rw [elf]; show R'.arr.levelN l ≤ _; rw [hn]; exact T.levelRow l
  · intro l
    have e : (List.range ((patch R R').arr.levelN l)).map (fun r => (patch R R').arr.levelNodes (l * (patch R R').arr.nLeaf + r)) = R'.levelList l := rfl
    rw [e, h.levels l, en]
    refine (T.levelList l).trans ?_
    apply List.filter_congr
    intro v hv
    show _ = decide (R'.arr.level v = l)
    rw [h.level v (List.mem_range.1 hv)]
  · intro l; rw [elf]; exact T.heightRow l
  · intro l; rw [elf, en]; exact T.heightList l

theorem patch_same {R R' : Rep K} (h : SameTree R R') : SameTree R (patch R R') :=
  ⟨h.nNode, h.nLeaf, h.maxLevel, h.maxChild, h.level, h.ptS, h.ptE, h.nChild, h.children, fun _ _ => rfl, h.levels, fun _ _ => rfl, h.nPoint, h.kdim, h.idx, h.U,
    h.adm, h.inadm, h.minAdm⟩

theorem SameTree.row {R R' : Rep K} (h : SameTree R R') {v : Nat} (hv : v < R.arr.nNode) : R'.rowS v = R.rowS v ∧ R'.rowE v = R.rowE v := by
  unfold Rep.rowS Rep.rowE
  rw [h.kdim, h.ptS v hv, h.ptE v hv]
  exact ⟨rfl, rfl⟩

/-- The marks that products need. -/
def Marked (R : Rep K) : Prop :=
  ∀ x ∈ R.adm, (R.arr.level x.2 ≤ R.arr.level x.1 → R.mark x.1 ≠ 0) ∧ (R.arr.level x.1 ≤ R.arr.level x.2 → R.mark x.2 ≠ 0)

end

end H2Pack.IO
