import Verif.Proof.Cells
import Mathlib.Tactic.NormNum

/-! # C72: the neighbour lists of the HSS construction fit into their rows -/

namespace H2Pack.Part
open H2Pack.Utils (Box checkBoxAdmissible C39_admissible_iff_gap gap)

section
variable {K : Type} [Field K] [LinearOrder K] [IsStrictOrderedRing K] {n : Nat}

/-- The boxes are not tiny: on level `l` they are at least `(2 l + 9) 10^-6` wide. -/
def WideBoxes (ptDim : Nat) (A : Arr K) : Prop := ∀ v < A.nNode, ∀ j < ptDim, (2 * A.level v + 9) / 10^6 ≤ (A.enbox v).ext j

theorem foldlM_ok {p : Nat → Prop} [DecidablePred p] {mx : Nat} (targets : List Nat) : ∀ l0 : List Nat, (l0 ++ targets.filter p).length ≤ mx →
    targets.foldlM (fun l t => if p t then if l.length < mx then (.ok (l ++ [t]) : Res (List Nat)) else .ub else .ok l) l0 = .ok (l0 ++ targets.filter p) := by
  induction targets with
  | nil => intro l0 _; simp
  | cons t ts ih =>
    intro l0 h
    rw [List.foldlM_cons]
    by_cases hp : p t
    · have hf : (t :: ts).filter p = t :: ts.filter p := by rw [List.filter_cons, if_pos (by simpa using hp)]
      rw [hf] at h ⊢
      have hl : l0.length < mx := by simp at h; omega
      rw [if_pos hp, if_pos hl, Res.bind_ok, ih (l0 ++ [t]) (by simpa using h)]
      simp
    · have hf : (t :: ts).filter p = ts.filter p := by rw [List.filter_cons, if_neg (by simpa using hp)]
      rw [hf] at h ⊢
      rw [if_neg hp, Res.bind_ok, ih _ h]

theorem foldlM_total {σ α : Type} (g : σ → α → Res σ) (L : List α) (h : ∀ s, ∀ x ∈ L, ∃ s', g s x = .ok s') : ∀ s, ∃ s', L.foldlM g s = .ok s' := by
  induction L with
  | nil => exact fun s => ⟨s, rfl⟩
  | cons x L ih =>
    intro s
    obtain ⟨s1, e⟩ := h s x (by simp)
    rw [List.foldlM_cons, e, Res.bind_ok]
    exact ih (fun s y hy => h s y (List.mem_cons_of_mem _ hy)) s1

theorem leaf_iff {A : Arr K} (T : ClusterTree A n) {v : Nat} (hv : v < A.nNode) : A.height v = 0 ↔ A.nChild v = 0 := by
  constructor
  · intro h
    by_contra h0
    obtain ⟨_, c, _, h2⟩ := T.nodeHeight v hv h0
    omega
  · exact T.leafHeight v hv

theorem leaves_eq {A : Arr K} (T : ClusterTree A n) : (List.range A.nLeaf).map A.heightNodes = (List.range A.nNode).filter (fun v => A.height v = 0) := by
  have h := T.heightList 0
  have hf : (List.range A.nNode).filter (fun v => A.height v = 0) = (List.range A.nNode).filter (fun v => A.nChild v = 0) := by
    refine List.filter_congr fun v hv => ?_
    simp [leaf_iff T (List.mem_range.1 hv)]
  have hl := congrArg List.length h
  rw [List.length_map, List.length_range, hf, ← T.nLeaf] at hl
  rw [hl] at h
  simpa using h

theorem mem_target {A : Arr K} (T : ClusterTree A n) (l t : Nat) : t ∈ targetList A l ↔ t < A.nNode ∧ (A.level t = l ∨ (A.nChild t = 0 ∧ A.level t < l)) := by
  unfold targetList
  rw [List.mem_append, T.levelList, leaves_eq T, List.mem_filter, List.mem_filter, List.mem_filter, List.mem_range]
  simp only [decide_eq_true_eq]
  constructor
  · rintro (⟨h1, h2⟩ | ⟨⟨h1, h2⟩, h3⟩)
    · exact ⟨h1, Or.inl h2⟩
    · exact ⟨h1, Or.inr ⟨(leaf_iff T h1).1 h2, h3⟩⟩
  · rintro ⟨h1, h2 | ⟨h2, h3⟩⟩
    · exact Or.inl ⟨h1, h2⟩
    · exact Or.inr ⟨⟨h1, (leaf_iff T h1).2 h2⟩, h3⟩

theorem target_nodup {A : Arr K} (T : ClusterTree A n) (l : Nat) : (targetList A l).Nodup := by
  unfold targetList
  rw [T.levelList, leaves_eq T, List.nodup_append]
  refine ⟨List.nodup_range.filter _, (List.nodup_range.filter _).filter _, ?_⟩
  intro a ha b hb he
  subst he
  rw [List.mem_filter] at ha hb
  have h1 := ha.2
  have h2 := hb.2
  simp only [decide_eq_true_eq] at h1 h2
  omega

variable {ptDim xptDim : Nat} {coord : Nat → Nat → K} {mlp : Nat} {mls : K} {box : Box K} {R : Partitioned K}

/-- The nodes that are not admissible to `v`, together with `v`, number at most `3 ^ ptDim`. -/
theorem inadm_count (O : Outcome ptDim xptDim n coord mlp mls box R) (hw : WideBoxes ptDim R.arr) {v : Nat} (hv : v < R.arr.nNode) :
    ((targetList R.arr (R.arr.level v)).filter (fun t => checkBoxAdmissible (R.arr.enbox v) (R.arr.enbox t) ptDim alphaH2 = false ∧
      checkBoxAdmissible (R.arr.enbox v) (R.arr.enbox t) ptDim alphaHSS = true ∧ t ≠ v)).length < 3 ^ ptDim := by
  have T := O.tree
  have hpos : ∀ v < R.arr.nNode, ∀ j < ptDim, 0 < (R.arr.enbox v).ext j := by
    intro v hv j hj
    have : (0 : K) < (2 * R.arr.level v + 9) / 10^6 := by positivity
    exact lt_of_lt_of_le this (hw v hv j hj)
  obtain ⟨cell, ones, G⟩ := grid_exists O hpos
  have hD : ∀ j < ptDim, 9 / 10^6 - 4 * eps + 2 * (R.arr.level v) / 10^6 ≤ (box.ext j - 4 * eps) / 2 ^ R.arr.level v := by
    intro j hj
    have h1 := G.ext v hv j
    have h2 := hw v hv j hj
    rw [h1] at h2
    have : (2 * (R.arr.level v : K) + 9) / 10^6 = 9 / 10^6 + 2 * (R.arr.level v) / 10^6 := by ring
    linarith
  have he : (eps : K) = 1 / 10^12 := rfl
  have hl0 : (0 : K) ≤ R.arr.level v := Nat.cast_nonneg _
  have hD0 : ∀ j < ptDim, 0 ≤ box.ext j - 4 * eps := by
    intro j hj
    have h1 := hD j hj
    have h2 : (0 : K) ≤ 2 * (R.arr.level v) / 10^6 := by positivity
    have h3 : (0 : K) ≤ (box.ext j - 4 * eps) / 2 ^ R.arr.level v := by rw [he] at h1 ⊢; linarith
    have h4 : (0 : K) < 2 ^ R.arr.level v := by positivity
    by_contra hc
    exact absurd h3 (not_le.2 (div_neg_of_neg_of_pos (not_le.1 hc) h4))
  set L := (targetList R.arr (R.arr.level v)).filter (fun t => checkBoxAdmissible (R.arr.enbox v) (R.arr.enbox t) ptDim alphaH2 = false ∧
      checkBoxAdmissible (R.arr.enbox v) (R.arr.enbox t) ptDim alphaHSS = true ∧ t ≠ v) with hL
  have hmem : ∀ t ∈ L, (t < R.arr.nNode ∧ (R.arr.level t = R.arr.level v ∨ (R.arr.nChild t = 0 ∧ R.arr.level t < R.arr.level v))) ∧
      checkBoxAdmissible (R.arr.enbox v) (R.arr.enbox t) ptDim alphaH2 = false ∧ t ≠ v := by
    intro t ht
    rw [hL, List.mem_filter, mem_target T] at ht
    have := ht.2
    simp only [decide_eq_true_eq] at this
    exact ⟨ht.1, this.1, this.2.2⟩
  have hc := count_near T G (v := v) (v :: L) ?_ ?_ ?_ ?_
  · rw [List.length_cons] at hc; omega
  · exact List.nodup_cons.2 ⟨fun h => (hmem v h).2.2 rfl, (target_nodup T _).filter _⟩
  · intro t ht
    rcases List.mem_cons.1 ht with rfl | ht
    · exact ⟨hv, le_rfl⟩
    · obtain ⟨⟨h1, h2⟩, _⟩ := hmem t ht
      exact ⟨h1, by omega⟩
  · intro t ht hlt
    rcases List.mem_cons.1 ht with rfl | ht
    · omega
    · obtain ⟨⟨h1, h2⟩, _⟩ := hmem t ht
      rcases h2 with h2 | h2
      · omega
      · exact h2.1
  · intro t ht j hj
    rcases List.mem_cons.1 ht with rfl | ht
    · have : nearCell R.arr cell t t j = cell t j := by
        have := nearCell_div R.arr cell t t j
        simpa using this
      omega
    · obtain ⟨⟨h1, h2⟩, h3, _⟩ := hmem t ht
      by_contra hfar
      have hg := far_gap G hv h1 hj (by omega) (hD0 j hj) (by omega)
      have : checkBoxAdmissible (R.arr.enbox v) (R.arr.enbox t) ptDim alphaH2 = true := by
        rw [C39_admissible_iff_gap]
        refine ⟨j, hj, le_trans (mul_le_mul_of_nonneg_left (min_le_left _ _) (by unfold alphaH2; positivity)) (le_trans ?_ hg)⟩
        rw [G.ext v hv j]
        have hd := hD j hj
        unfold alphaH2
        rw [he] at hd ⊢
        generalize (box.ext j - 4 * (1 / 10 ^ 12)) / 2 ^ R.arr.level v = h at hd ⊢
        generalize (R.arr.level v : K) = l at hl0 hd ⊢
        linarith
      rw [h3] at this
      cases this

/-- **C72** For every partitioned point set whose boxes are not tiny, the computation of the neighbour lists stays inside the `max_neighbor = 3^pt_dim`
entries of every row; the list of a node on one of the levels from `minAdm` on consists of the nodes of its level and the leaves above it that are not admissible
for H2 but admissible for HSS, every one once, and there are fewer than `3^pt_dim`. -/
theorem C72_inadm_lists (O : Outcome ptDim xptDim n coord mlp mls box R) (hw : WideBoxes ptDim R.arr) (minAdm : Nat) :
    ∃ f, inadmLists ptDim (3 ^ ptDim) minAdm R.arr = .ok f ∧ ∀ v < R.arr.nNode, (f v).length < 3 ^ ptDim ∧ (f v).Nodup ∧
      ∀ t, t ∈ f v ↔ minAdm ≤ R.arr.level v ∧ t < R.arr.nNode ∧ (R.arr.level t = R.arr.level v ∨ (R.arr.nChild t = 0 ∧ R.arr.level t < R.arr.level v)) ∧ t ≠ v ∧
        (∀ d < ptDim, gap (R.arr.enbox v) (R.arr.enbox t) d < 999999 / 10^6 * min ((R.arr.enbox v).ext d) ((R.arr.enbox t).ext d)) ∧
        ∃ d < ptDim, -(1 / 10^6) * min ((R.arr.enbox v).ext d) ((R.arr.enbox t).ext d) ≤ gap (R.arr.enbox v) (R.arr.enbox t) d := by
  have T := O.tree
  have hok : ∃ f, inadmLists ptDim (3 ^ ptDim) minAdm R.arr = .ok f := by
    unfold inadmLists
    refine foldlM_total _ _ (fun f i hi => foldlM_total _ _ (fun f v hv => ?_) _) _
    rw [T.levelList, List.mem_filter, List.mem_range] at hv
    have hl : R.arr.level v = i := by simpa using hv.2
    have hc := inadm_count O hw hv.1
    rw [hl] at hc
    have := foldlM_ok (mx := 3 ^ ptDim) (p := fun t => checkBoxAdmissible (R.arr.enbox v) (R.arr.enbox t) ptDim alphaH2 = false ∧
      checkBoxAdmissible (R.arr.enbox v) (R.arr.enbox t) ptDim alphaHSS = true ∧ t ≠ v) (targetList R.arr i) [] (by rw [List.nil_append]; exact hc.le)
    unfold nodeInadm
    rw [this, Res.bind_ok]
    exact ⟨_, rfl⟩
  obtain ⟨f, hf⟩ := hok
  refine ⟨f, hf, fun v hv => ?_⟩
  rw [inadmLists_spec T ptDim _ minAdm f hf v hv]
  by_cases hm : minAdm ≤ R.arr.level v
  · rw [if_pos hm]
    refine ⟨inadm_count O hw hv, (target_nodup T _).filter _, fun t => ?_⟩
    rw [List.mem_filter, mem_target T]
    simp only [decide_eq_true_eq]
    rw [C39_admissible_iff_gap, ← Bool.not_eq_true, C39_admissible_iff_gap]
    unfold alphaH2 alphaHSS
    push Not
    constructor
    · rintro ⟨⟨h1, h2⟩, h3, h4, h5⟩; exact ⟨hm, h1, h2, h5, h3, h4⟩
    · rintro ⟨-, h1, h2, h5, h3, h4⟩; exact ⟨⟨h1, h2⟩, h3, h4, h5⟩
  · rw [if_neg hm]
    exact ⟨by positivity, List.nodup_nil, fun t => by simp [hm]⟩

/-- **C72** (a sufficient condition): `max_leaf_size` is at least `(4 max_level + 20) 10^-6` and the root box a cube with more than one node below it. -/
theorem C72_wide (O : Outcome ptDim xptDim n coord mlp mls box R) (hcube : ∀ j < ptDim, box.ext 0 ≤ box.ext j) (h1 : 1 < R.arr.nNode)
    (hm : (4 * R.arr.maxLevel + 20) / 10^6 ≤ mls) : WideBoxes ptDim R.arr := by
  have T := O.tree
  have hr : R.arr.nNode - 1 < R.arr.nNode := by omega
  have hcubes : ∀ k v, v + k = R.arr.nNode - 1 → ∀ j < ptDim, (R.arr.enbox v).ext 0 ≤ (R.arr.enbox v).ext j := by
    intro k
    induction k using Nat.strong_induction_on with
    | _ k ih =>
      intro v hv j hj
      rcases Nat.eq_zero_or_pos k with h0 | hk
      · have e : v = R.arr.nNode - 1 := by omega
        rw [e, O.rootBox]; exact hcube j hj
      · obtain ⟨w, hw, hp, hm⟩ := T.childOfParent v (by omega)
        have hlt := T.childLt w hw v hm
        have := ih (R.arr.nNode - 1 - w) (by omega) w (by omega) j hj
        obtain ⟨r, _, hr⟩ := O.childBox w hw v hm
        rw [hr]
        simp only [subBox]
        linarith
  have hinner : ∀ v < R.arr.nNode, ∀ c ∈ kids R.arr v, R.arr.nChild v ≠ 0 := fun v _ c hc h => by rw [kids_nil_iff.2 h] at hc; simp at hc
  intro v hv j hj
  have hlev : (R.arr.level v : K) ≤ R.arr.maxLevel := by exact_mod_cast T.levelLe v hv
  have hl0 : (0 : K) ≤ R.arr.level v := Nat.cast_nonneg _
  have e1 : (4 * (R.arr.maxLevel : K) + 20) / 10^6 = 4 * R.arr.maxLevel / 10^6 + 20 / 10^6 := by ring
  have e2 : (2 * (R.arr.level v : K) + 9) / 10^6 = 2 * R.arr.level v / 10^6 + 9 / 10^6 := by ring
  rw [e1] at hm
  rw [e2]
  by_cases hroot : v = R.arr.nNode - 1
  · have hne : R.arr.nChild (R.arr.nNode - 1) ≠ 0 := by
      obtain ⟨w, hw, hp, hmem⟩ := T.childOfParent 0 (by omega)
      intro h0
      have hd := T.desc_root (show 0 < R.arr.nNode by omega)
      have := H2Pack.ULV.leaf_desc hd h0
      omega
    have g1 := (O.inner _ hr hne).2
    have g2 := hcubes 0 (R.arr.nNode - 1) (by omega) j hj
    rw [hroot] at hlev hl0 ⊢
    linarith
  · obtain ⟨w, hw, hp, hmem⟩ := T.childOfParent v (by omega)
    have g1 := (O.inner _ hw (hinner w hw v hmem)).2
    have g2 := hcubes (R.arr.nNode - 1 - w) w (by omega) j hj
    obtain ⟨r, _, hrr⟩ := O.childBox w hw v hmem
    rw [hrr]
    simp only [subBox]
    have : (0 : K) < eps := eps_pos
    linarith

end

/-! ## Tiny boxes, and a concrete case -/

/-- Eight points on a line, `5e-6` apart. -/
def tinyCoord (p _j : Nat) : Rat := (p : Rat) * 5 / 10^6

def tinyTest : Bool := match partitionPoints 1 1 8 tinyCoord 1 0 none (fun _ => 1/3) exJunk (fun _ _ => 0) 5 with
  | .ok R => (match inadmLists 1 (3 ^ 1) 1 R.arr, hssPairs 1 R.arr 30 with | .ub, .ok pv => pv.minAdm == 1 | _, _ => false)
  | _ => false

/-- **C72** (the restriction is needed).  For eight points that are `5e-6` apart the partitioning and the HSS block partition succeed and pass the check of
the minimal level, and then the neighbour list of some node does not fit into its row: the program writes into the row of the next node, or behind the array. -/
theorem C72_tiny_boxes_overflow : ∃ R, partitionPoints 1 1 8 tinyCoord 1 0 none (fun _ => 1/3) exJunk (fun _ _ => 0) 5 = .ok R ∧
    (∃ pv, hssPairs 1 R.arr 30 = .ok pv ∧ pv.minAdm = 1) ∧ inadmLists 1 (3 ^ 1) 1 R.arr = .ub := by
  have h : tinyTest = true := by decide +kernel
  unfold tinyTest at h
  split at h
  · next R hR =>
    refine ⟨R, hR, ?_⟩
    split at h
    · next pv h1 h2 => exact ⟨⟨pv, h2, by simpa using h⟩, h1⟩
    · cases h
  · cases h

def wideTest : Bool := match partitionPoints 2 2 5 exCoord 1 (1/100) none (fun _ => 1/3) exJunk (fun _ _ => 7) 9 with
  | .ok R => decide (1 < R.arr.nNode) && decide (∀ v < R.arr.nNode, ∀ j < 2, (2 * (R.arr.level v : Rat) + 9) / 10^6 ≤ (R.arr.enbox v).ext j) &&
    (match inadmLists 2 (3 ^ 2) 1 R.arr with | .ok f => decide (2 ≤ (f 0).length) | _ => false)
  | _ => false

/-- The partitioning of five points in the plane meets the hypotheses of `C72_inadm_lists`, and the first list is not empty. -/
example : ∃ R, Outcome 2 2 5 exCoord 1 (1/100) (rootBox 2 5 exCoord (fun _ => 1/3)) R ∧ WideBoxes 2 R.arr ∧ 1 < R.arr.nNode ∧
    ∃ f, inadmLists 2 (3 ^ 2) 1 R.arr = .ok f ∧ 2 ≤ (f 0).length := by
  have h : wideTest = true := by decide +kernel
  unfold wideTest at h
  split at h
  · next R hR =>
    rw [Bool.and_eq_true, Bool.and_eq_true, decide_eq_true_eq, decide_eq_true_eq] at h
    have hs := partitionPoints_spec 2 2 5 (by norm_num) (le_refl _) exCoord 1 (1/100) none (fun _ => 1/3) exJunk (fun _ _ => 7) 9
    rw [hR] at hs
    refine ⟨R, hs, h.1.2, h.1.1, ?_⟩
    have h2 := h.2
    split at h2
    · next f hf => exact ⟨f, hf, by simpa using h2⟩
    · cases h2
  · cases h

end H2Pack.Part
