import Verif.Model.InadmLists
import Verif.Props.Metadata

set_option linter.unusedSectionVars false

/-!
# C45: partitioning and block metadata establish what matvec relies on
-/

namespace H2Pack.Part
open H2Pack.Utils (Box checkBoxAdmissible C39_admissible_iff_gap gap)

section
variable {K : Type} {A : Arr K} {n : Nat}

theorem two_le_countP {α : Type} (L : List α) (P : α → Bool) {i j : Nat} (hij : i < j) (hj : j < L.length)
    (h1 : P L[i] = true) (h2 : P L[j] = true) : 2 ≤ L.countP P := by
  rw [← List.take_append_drop (i + 1) L, List.countP_append]
  have a1 : 0 < (L.take (i + 1)).countP P := by
    rw [List.countP_pos_iff]
    refine ⟨L[i], ?_, h1⟩
    rw [List.mem_take_iff_getElem]
    exact ⟨i, by omega, rfl⟩
  have a2 : 0 < (L.drop (i + 1)).countP P := by
    rw [List.countP_pos_iff]
    refine ⟨L[j], ?_, h2⟩
    rw [List.mem_drop_iff_getElem]
    exact ⟨j - (i + 1), by omega, by congr 1; omega⟩
  omega

/-- Pairs that cover every matrix entry at most once are distinct as unordered pairs. -/
theorem distinct_of_cover (T : ClusterTree A n) (L : List (Nat × Nat)) (hL : ∀ x ∈ L, x.1 < A.nNode ∧ x.2 < A.nNode ∧ x.1 ≠ x.2)
    (hc : ∀ p < n, ∀ q < n, L.countP (fun x => Holds A p q x) + (L.map Prod.swap).countP (fun x => Holds A p q x) ≤ 1) :
    MV.DistinctPairs A.nNode L := by
  refine ⟨hL, ?_⟩
  intro i hi j hj h
  by_contra hne
  obtain ⟨a1, a2, _⟩ := hL _ (List.getElem_mem hi)
  have b1 := T.clusterLe _ a1
  have b2 := T.clusterLe _ a2
  have c1 := T.clusterLt _ a1
  have c2 := T.clusterLt _ a2
  have hcnt := hc (A.ptS L[i].1) (by omega) (A.ptS L[i].2) (by omega)
  have hold : Holds A (A.ptS L[i].1) (A.ptS L[i].2) L[i] := ⟨⟨le_refl _, b1⟩, ⟨le_refl _, b2⟩⟩
  rcases h with h | h
  · have h2 : Holds A (A.ptS L[i].1) (A.ptS L[i].2) L[j] := by rw [← h]; exact hold
    rcases Nat.lt_or_ge i j with hlt | hge
    · have := two_le_countP L (fun x => decide (Holds A (A.ptS L[i].1) (A.ptS L[i].2) x)) hlt hj (decide_eq_true hold) (decide_eq_true h2)
      omega
    · have := two_le_countP L (fun x => decide (Holds A (A.ptS L[i].1) (A.ptS L[i].2) x)) (show j < i by omega) hi (decide_eq_true h2) (decide_eq_true hold)
      omega
  · have e1 : 0 < L.countP (fun x => Holds A (A.ptS L[i].1) (A.ptS L[i].2) x) :=
      List.countP_pos_iff.2 ⟨L[i], List.getElem_mem hi, decide_eq_true hold⟩
    have e2 : 0 < (L.map Prod.swap).countP (fun x => Holds A (A.ptS L[i].1) (A.ptS L[i].2) x) :=
      List.countP_pos_iff.2 ⟨L[j].swap, List.mem_map.2 ⟨L[j], List.getElem_mem hj, rfl⟩, by rw [← h]; exact decide_eq_true hold⟩
    omega

/-- The pairs found by the search are distinct unordered pairs. -/
theorem distinct_of_blocks (T : ClusterTree A n) (pv : Pairs)
    (h1 : ∀ x ∈ pv.adm, x.1 < A.nNode ∧ x.2 < A.nNode ∧ x.1 ≠ x.2) (h2 : ∀ x ∈ pv.inadm, x.1 < A.nNode ∧ x.2 < A.nNode ∧ x.1 ≠ x.2)
    (hc : ∀ p < n, ∀ q < n, (blocks A pv).countP (fun x => Holds A p q x) = 1) :
    MV.DistinctPairs A.nNode pv.adm ∧ MV.DistinctPairs A.nNode pv.inadm := by
  constructor
  · refine distinct_of_cover T _ h1 (fun p hp q hq => ?_)
    have := hc p hp q hq
    unfold blocks at this
    simp only [List.countP_append] at this
    omega
  · refine distinct_of_cover T _ h2 (fun p hp q hq => ?_)
    have := hc p hp q hq
    unfold blocks at this
    simp only [List.countP_append] at this
    omega

/-- The leaves listed in `height_nodes` are different nodes. -/
theorem leaf_inj (T : ClusterTree A n) : 0 < A.nLeaf ∧ (∀ i < A.nLeaf, A.heightNodes i < A.nNode ∧ A.nChild (A.heightNodes i) = 0) ∧
    (∀ i < A.nLeaf, ∀ j < A.nLeaf, A.heightNodes i = A.heightNodes j → i = j) := by
  have hh := T.heightList 0
  have hz : ∀ v < A.nNode, A.height v = 0 ↔ A.nChild v = 0 := by
    intro v hv
    refine ⟨fun h => ?_, T.leafHeight v hv⟩
    by_contra h0
    obtain ⟨c, _, hc⟩ := (T.nodeHeight v hv h0).2
    omega
  have hfil : (List.range A.nNode).filter (fun v => A.height v = 0) = (List.range A.nNode).filter (fun v => A.nChild v = 0) := by
    apply List.filter_congr
    intro v hv
    rw [decide_eq_decide]
    exact hz v (List.mem_range.1 hv)
  have hn : A.heightN 0 = A.nLeaf := by
    have := congrArg List.length hh
    rw [List.length_map, List.length_range, hfil, ← T.nLeaf] at this
    exact this
  rw [hn, hfil] at hh
  simp only [Nat.zero_mul, Nat.zero_add] at hh
  have hnd : ((List.range A.nLeaf).map A.heightNodes).Nodup := by
    rw [hh]; exact List.Nodup.filter _ List.nodup_range
  refine ⟨?_, ?_, ?_⟩
  · rw [T.nLeaf]
    have hr : A.nNode - 1 < A.nNode := by have := T.nonempty; omega
    obtain ⟨u, ⟨q1, q2, _⟩, _⟩ := T.leaf_at (A.nNode - 1) hr (A.ptS (A.nNode - 1)) (le_refl _) (T.clusterLe _ hr)
    have hu : u < A.nNode := by have := T.desc_le q1 hr; omega
    exact List.length_pos_of_mem (List.mem_filter.2 ⟨List.mem_range.2 hu, by simpa using q2⟩)
  · intro i hi
    have : A.heightNodes i ∈ (List.range A.nLeaf).map A.heightNodes := List.mem_map.2 ⟨i, List.mem_range.2 hi, rfl⟩
    rw [hh, List.mem_filter, List.mem_range] at this
    exact ⟨this.1, by simpa using this.2⟩
  · intro i hi j hj h
    exact List.inj_on_of_nodup_map hnd (List.mem_range.2 hi) (List.mem_range.2 hj) h

end

section
variable {K : Type} [Field K] [LinearOrder K] [IsStrictOrderedRing K] {A : Arr K} {n : Nat}

/-! ## The marks used in HSS mode -/

theorem sib_not_h2 {ptDim : Nat} {box b c : Box K} (h : Sib ptDim box b c) (hw : ∀ j < ptDim, 4 / 10^6 ≤ box.ext j) :
    checkBoxAdmissible b c ptDim alphaH2 = false := by
  rw [Bool.eq_false_iff]
  intro hcon
  rw [C39_admissible_iff_gap] at hcon
  obtain ⟨j, hj, hg⟩ := hcon
  obtain ⟨r, r', h1, h2, _, rfl, rfl⟩ := h
  have hwj := hw j hj
  unfold gap at hg
  simp only [subBox, min_self] at hg
  unfold alphaH2 at hg
  have he : (eps : K) = 1 / 10^12 := rfl
  rw [he, le_max_iff] at hg
  have a1 := h1 j hj
  have a2 := h2 j hj
  have b1 : r j = 0 ∨ r j = 1 := by omega
  have b2 : r' j = 0 ∨ r' j = 1 := by omega
  rcases b1 with b1 | b1 <;> rcases b2 with b2 | b2 <;> rw [b1, b2] at hg <;>
    simp only [Nat.cast_one, Nat.cast_zero] at hg <;> rcases hg with hg | hg <;> linarith

theorem Sib.symm {ptDim : Nat} {box b c : Box K} (h : Sib ptDim box b c) : Sib ptDim box c b := by
  obtain ⟨r, r', h1, h2, ⟨j, hj, hne⟩, e1, e2⟩ := h
  exact ⟨r', r, h2, h1, ⟨j, hj, fun h => hne h.symm⟩, e2, e1⟩

theorem nodeInadm_mem {ptDim mx node : Nat} (targets : List Nat) : ∀ (l0 l : List Nat),
    targets.foldlM (fun l t =>
    if checkBoxAdmissible (A.enbox node) (A.enbox t) ptDim alphaH2 = false ∧
       checkBoxAdmissible (A.enbox node) (A.enbox t) ptDim alphaHSS = true ∧ t ≠ node then
      if l.length < mx then (.ok (l ++ [t]) : Res (List Nat)) else .ub
    else .ok l) l0 = .ok l →
    l = l0 ++ targets.filter (fun t => checkBoxAdmissible (A.enbox node) (A.enbox t) ptDim alphaH2 = false ∧
       checkBoxAdmissible (A.enbox node) (A.enbox t) ptDim alphaHSS = true ∧ t ≠ node) := by
  induction targets with
  | nil => intro l0 l h; simp only [List.foldlM_nil, Res.pure_eq, Res.ok.injEq] at h; simp [h]
  | cons t ts ih =>
    intro l0 l h
    rw [List.foldlM_cons] at h
    by_cases hp : checkBoxAdmissible (A.enbox node) (A.enbox t) ptDim alphaH2 = false ∧
       checkBoxAdmissible (A.enbox node) (A.enbox t) ptDim alphaHSS = true ∧ t ≠ node
    · rw [if_pos hp] at h
      by_cases hl : l0.length < mx
      · rw [if_pos hl] at h
        simp only [Res.bind_ok] at h
        rw [ih _ _ h, List.filter_cons, if_pos (by simpa using hp)]
        simp
      · rw [if_neg hl] at h; simp at h
    · rw [if_neg hp] at h
      simp only [Res.bind_ok] at h
      rw [ih _ _ h, List.filter_cons, if_neg (by simpa using hp)]

theorem foldlM_update {g : Nat → Res (List Nat)} (L : List Nat) : ∀ (f f' : Nat → List Nat),
    L.foldlM (fun f node => do let l ← g node; (.ok (Function.update f node l) : Res _)) f = .ok f' →
    ∀ v, (v ∈ L → g v = .ok (f' v)) ∧ (v ∉ L → f' v = f v) := by
  induction L with
  | nil => intro f f' h; simp only [List.foldlM_nil, Res.pure_eq, Res.ok.injEq] at h; subst h; simp
  | cons x L ih =>
    intro f f' h v
    rw [List.foldlM_cons] at h
    cases hg : g x with
    | ok l =>
      rw [hg] at h
      simp only [Res.bind_ok] at h
      obtain ⟨i1, i2⟩ := ih _ _ h v
      refine ⟨fun hv => ?_, fun hv => ?_⟩
      · by_cases hm : v ∈ L
        · exact i1 hm
        · rw [i2 hm]
          rcases List.mem_cons.1 hv with rfl | hv
          · rw [Function.update_self]; exact hg
          · exact absurd hv hm
      · rw [i2 (fun h => hv (List.mem_cons_of_mem _ h)), Function.update_of_ne (fun h => hv (by rw [h]; simp))]
    | ub => rw [hg] at h; simp at h
    | diverge => rw [hg] at h; simp at h

/-- The list of a node on a level from `minAdm` on: the targets that are neighbours in the sense of the two box tests. -/
theorem inadmLists_spec (T : ClusterTree A n) (ptDim mx minAdm : Nat) (f : Nat → List Nat) (h : inadmLists ptDim mx minAdm A = .ok f) :
    ∀ v < A.nNode, f v = if minAdm ≤ A.level v then (targetList A (A.level v)).filter (fun t =>
      checkBoxAdmissible (A.enbox v) (A.enbox t) ptDim alphaH2 = false ∧ checkBoxAdmissible (A.enbox v) (A.enbox t) ptDim alphaHSS = true ∧ t ≠ v) else [] := by
  have key : ∀ (lv : List Nat), lv.Nodup → ∀ f0 f', lv.foldlM (fun f i =>
      ((List.range (A.levelN i)).map fun j => A.levelNodes (i * A.nLeaf + j)).foldlM (fun f node => do
        let l ← nodeInadm ptDim mx A node (targetList A i)
        (.ok (Function.update f node l) : Res _)) f) f0 = .ok f' →
      ∀ v < A.nNode, f' v = if A.level v ∈ lv then (targetList A (A.level v)).filter (fun t =>
        checkBoxAdmissible (A.enbox v) (A.enbox t) ptDim alphaH2 = false ∧ checkBoxAdmissible (A.enbox v) (A.enbox t) ptDim alphaHSS = true ∧ t ≠ v) else f0 v := by
    intro lv
    induction lv with
    | nil => intro _ f0 f' h v _; simp only [List.foldlM_nil, Res.pure_eq, Res.ok.injEq] at h; subst h; simp
    | cons i lv ih =>
      intro hnd f0 f' h v hv
      rw [List.foldlM_cons] at h
      cases hi : ((List.range (A.levelN i)).map fun j => A.levelNodes (i * A.nLeaf + j)).foldlM (fun f node => do
        let l ← nodeInadm ptDim mx A node (targetList A i)
        (.ok (Function.update f node l) : Res _)) f0 with
      | ok f1 =>
        rw [hi] at h
        simp only [Res.bind_ok] at h
        have hnd' := List.nodup_cons.1 hnd
        rw [ih hnd'.2 f1 f' h v hv]
        have hu := foldlM_update _ _ _ hi v
        have hmem : v ∈ ((List.range (A.levelN i)).map fun j => A.levelNodes (i * A.nLeaf + j)) ↔ A.level v = i := by
          rw [T.levelList i, List.mem_filter, List.mem_range]; simp [hv]
        rw [hmem] at hu
        by_cases hl : A.level v ∈ lv
        · rw [if_pos hl, if_pos (List.mem_cons_of_mem _ hl)]
        · rw [if_neg hl]
          by_cases he : A.level v = i
          · rw [if_pos (by rw [he]; simp)]
            have h1 := hu.1 he
            unfold nodeInadm at h1
            rw [nodeInadm_mem _ _ _ h1, he, List.nil_append]
          · rw [if_neg (by rw [List.mem_cons]; rintro (h | h) <;> [exact he h; exact hl h])]
            exact hu.2 he
      | ub => rw [hi] at h; simp at h
      | diverge => rw [hi] at h; simp at h
  intro v hv
  unfold inadmLists at h
  rw [key _ (by rw [List.nodup_reverse]; exact List.nodup_range') _ _ h v hv]
  have hm : A.level v ∈ (List.range' minAdm (A.maxLevel + 1 - minAdm)).reverse ↔ minAdm ≤ A.level v := by
    rw [List.mem_reverse, List.mem_range'_1]
    have := T.levelLe v hv
    omega
  by_cases h : minAdm ≤ A.level v
  · rw [if_pos (hm.2 h), if_pos h]
  · rw [if_neg (fun g => h (hm.1 g)), if_neg h]

/-- **C45** (HSS marks).  In HSS mode matvec finds the nodes that take part in the intermediate multiplication by
`node_n_r_inadm`; under the hypotheses of C12 every node of an HSS pair has a non-empty neighbour list, so it is found. -/
theorem C45_hss_marks (ptDim xptDim : Nat) (coord : Nat → Nat → K) (mlp : Nat) (mls : K) (hmls : 4 / 10^6 ≤ mls) (box : Box K)
    (hcube : ∀ j < ptDim, box.ext 0 ≤ box.ext j) (R : Partitioned K) (O : Outcome ptDim xptDim n coord mlp mls box R)
    (h2 : 2 ≤ R.arr.nChild (R.arr.nNode - 1)) (fuel : Nat) (hf : 2 * R.arr.nNode ≤ fuel) (mx : Nat) (f : Nat → List Nat)
    (hl : inadmLists ptDim mx 1 R.arr = .ok f) :
    ∃ pv, hssPairs ptDim R.arr fuel = .ok pv ∧ ∀ a b, (a, b) ∈ pv.adm → (f a).length ≠ 0 ∧ (f b).length ≠ 0 := by
  obtain ⟨pv, h1, _, _, hs, _⟩ := C12_hss_siblings ptDim xptDim coord mlp mls hmls box hcube R O h2 fuel hf
  refine ⟨pv, h1, ?_⟩
  have T := O.tree
  have hcubes : ∀ k v, v + k = R.arr.nNode - 1 → ∀ j < ptDim, (R.arr.enbox v).ext 0 ≤ (R.arr.enbox v).ext j := by
    intro k
    induction k using Nat.strong_induction_on with
    | _ k ih =>
      intro v hv j hj
      rcases Nat.eq_zero_or_pos k with h0 | hk
      · have e : v = R.arr.nNode - 1 := by omega
        rw [e, O.rootBox]; exact hcube j hj
      · obtain ⟨w, hw, hp, hm⟩ := T.childOfParent v (by omega)
        have hlt := T.childLt w hw v hm
        have := ih (R.arr.nNode - 1 - w) (by omega) w (by omega) j hj
        obtain ⟨r, _, hr⟩ := O.childBox w hw v hm
        rw [hr]
        simp only [subBox]
        linarith
  have one : ∀ v < R.arr.nNode, ∀ a ∈ kids R.arr v, ∀ b ∈ kids R.arr v, a ≠ b → (f a).length ≠ 0 := by
    intro v hv a ha b hb hab
    have hne : R.arr.nChild v ≠ 0 := fun h => by rw [kids_nil_iff.2 h] at ha; simp at ha
    have hwide : ∀ j < ptDim, 4 / 10^6 ≤ (R.arr.enbox v).ext j := by
      intro j hj
      have g1 := (O.inner v hv hne).2
      have g2 := hcubes (R.arr.nNode - 1 - v) v (by omega) j hj
      linarith
    have hsib : Sib ptDim (R.arr.enbox v) (R.arr.enbox a) (R.arr.enbox b) := by
      have hp := O.sibling v hv
      rw [List.pairwise_iff_getElem] at hp
      obtain ⟨i, hi, rfl⟩ := List.getElem_of_mem ha
      obtain ⟨j, hj, rfl⟩ := List.getElem_of_mem hb
      rcases Nat.lt_trichotomy i j with h | h | h
      · exact hp i j hi hj h
      · subst h; exact absurd rfl hab
      · exact (hp j i hj hi h).symm
    have hlev := T.childLevel v hv a ha
    have hlev' := T.childLevel v hv b hb
    rw [inadmLists_spec T ptDim mx 1 f hl a (T.kid_lt hv ha), if_pos (by omega)]
    intro h0
    rw [List.length_eq_zero_iff] at h0
    have : b ∈ (targetList R.arr (R.arr.level a)).filter (fun t =>
        checkBoxAdmissible (R.arr.enbox a) (R.arr.enbox t) ptDim alphaH2 = false ∧ checkBoxAdmissible (R.arr.enbox a) (R.arr.enbox t) ptDim alphaHSS = true ∧ t ≠ a) := by
      rw [List.mem_filter]
      refine ⟨?_, by simpa using ⟨sib_not_h2 hsib hwide, sib_admissible hsib hwide, fun h => hab h.symm⟩⟩
      unfold targetList
      rw [List.mem_append]; left
      rw [T.levelList, List.mem_filter, List.mem_range]
      exact ⟨T.kid_lt hv hb, by simp; omega⟩
    rw [h0] at this
    simp at this
  intro a b hab
  obtain ⟨hne, v, hv, ka, kb⟩ := hs a b hab
  exact ⟨one v hv a ka b kb hne, one v hv b kb a ka (fun h => hne h.symm)⟩

end

end H2Pack.Part
