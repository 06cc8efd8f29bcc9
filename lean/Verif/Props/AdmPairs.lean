import Verif.Proof.AdmPairs
import Verif.Props.Partition
import Verif.Props.Utils
import Verif.Props.DAGQueue

/-!
# C11 - C14: the block partition of the kernel matrix

`Holds A p q (a, b)`: the block of nodes `a`, `b` contains the matrix entry of the points `p`, `q`.
-/

set_option linter.unusedSectionVars false

namespace H2Pack.Part
open H2Pack.Utils (Box checkBoxAdmissible C39_admissible_iff_gap gap)

section
variable {K : Type} {A : Arr K} {n : Nat}

/-- The leaves, ascending. -/
def leaves (A : Arr K) : List Nat := (List.range A.nNode).filter (fun v => A.nChild v = 0)

/-- All blocks of the matrix: diagonal blocks of the leaves, the inadmissible and the admissible pairs in
both orientations. -/
def blocks (A : Arr K) (pv : Pairs) : List (Nat × Nat) :=
  (leaves A).map (fun v => (v, v)) ++ (pv.inadm ++ pv.inadm.map Prod.swap) ++ (pv.adm ++ pv.adm.map Prod.swap)

theorem countP_swap (A : Arr K) (L : List (Nat × Nat)) (p q : Nat) :
    (L.map Prod.swap).countP (fun x => Holds A p q x) = L.countP (fun x => Holds A q p x) := by
  rw [List.countP_map]
  apply List.countP_congr
  intro x _
  simp only [Function.comp, decide_eq_true_eq]
  exact and_comm

theorem leaf_count (T : ClusterTree A n) {p q : Nat} (hp : p < n) :
    ((leaves A).map (fun v => (v, v))).countP (fun x => Holds A p q x) = ClusterTree.same A p q := by
  have hr : A.nNode - 1 < A.nNode := by have := T.nonempty; omega
  have hE := T.rootE
  obtain ⟨u, ⟨q1, q2, q3, q4⟩, q5⟩ := T.leaf_at (A.nNode - 1) hr p (by rw [T.rootS]; omega) (by omega)
  have hu : u < A.nNode := by have := T.desc_le q1 hr; omega
  have huniq : ∀ w < A.nNode, A.nChild w = 0 → A.ptS w ≤ p → p ≤ A.ptE w → w = u :=
    fun w hw h0 h1 h2 => q5 w (T.desc_root hw) h0 h1 h2
  rw [List.countP_map]
  by_cases hs : A.ptS u ≤ q ∧ q ≤ A.ptE u
  · have h1 : ClusterTree.same A p q = 1 := by
      unfold ClusterTree.same
      rw [if_pos ⟨u, hu, q2, inn_eq_one.2 ⟨q3, q4⟩, inn_eq_one.2 hs⟩]
    have h2 : (leaves A).countP ((fun x => decide (Holds A p q x)) ∘ fun v => (v, v)) = (leaves A).count u := by
      unfold List.count
      apply List.countP_congr
      intro x hx
      unfold leaves at hx
      rw [List.mem_filter, List.mem_range] at hx
      simp only [Function.comp, decide_eq_true_eq, beq_iff_eq] at hx ⊢
      constructor
      · intro h; exact huniq x hx.1 hx.2 h.1.1 h.1.2
      · rintro rfl; exact ⟨⟨q3, q4⟩, hs⟩
    rw [h1, h2]
    refine List.count_eq_one_of_mem (List.nodup_range.filter _) ?_
    unfold leaves
    rw [List.mem_filter, List.mem_range]
    exact ⟨hu, by simpa using q2⟩
  · have h1 : ClusterTree.same A p q = 0 := by
      unfold ClusterTree.same
      rw [if_neg]
      rintro ⟨w, hw, h0, h1, h2⟩
      rw [inn_eq_one] at h1 h2
      have := huniq w hw h0 h1.1 h1.2
      subst this
      exact hs h2
    rw [h1, List.countP_eq_zero]
    intro x hx
    unfold leaves at hx
    rw [List.mem_filter, List.mem_range] at hx
    simp only [Function.comp, decide_eq_true_eq] at hx ⊢
    rintro ⟨h2, h3⟩
    have := huniq x hx.1 hx.2 h2.1 h2.2
    subst this
    exact hs h3

/-- Everything about a search from the root. -/
theorem search_spec (T : ClusterTree A n) (adm : Nat → Nat → Bool) (minLv init fuel : Nat) (hf : 2 * A.nNode ≤ fuel) :
    ∃ pv, calcPairs A adm minLv fuel (A.nNode - 1) (A.nNode - 1) ⟨[], [], init⟩ = .ok pv ∧
      GoodPairs A adm minLv (pv.adm, pv.inadm) ∧
      pv.minAdm = (pv.adm.map (fun x => max (A.level x.1) (A.level x.2))).foldl min init ∧
      ∀ p < n, ∀ q < n, (blocks A pv).countP (fun x => Holds A p q x) = 1 := by
  have hr : A.nNode - 1 < A.nNode := by have := T.nonempty; omega
  have hE := T.rootE
  have hS := T.rootS
  obtain ⟨D, d1, d2, d3⟩ := calcPairs_self T adm minLv fuel (A.nNode - 1) hr (by omega)
  refine ⟨⟨D.1, D.2, (D.1.map (fun x => max (A.level x.1) (A.level x.2))).foldl min init⟩, ?_, d2, rfl, ?_⟩
  · rw [d1]; simp [frame2]
  · intro p hp q hq
    have e := d3 (p, q)
    dsimp only at e
    have i1 : inn A (A.nNode - 1) p = 1 := inn_eq_one.2 ⟨by omega, by omega⟩
    have i2 : inn A (A.nNode - 1) q = 1 := inn_eq_one.2 ⟨by omega, by omega⟩
    rw [i1, i2] at e
    have ec : (frame2 A adm minLv).cov D (p, q) = cover2 A D.1 p q + cover2 A D.2 p q := rfl
    rw [ec] at e
    unfold blocks
    dsimp only
    rw [List.countP_append, List.countP_append, List.countP_append, List.countP_append, countP_swap, countP_swap, leaf_count T hp]
    unfold cover2 at e
    omega

/-! ## C11 -/

/-- C11: whatever the outcomes of the admissibility test and whatever the minimum admissible level, the
search returns and its pairs together with the diagonal blocks of the leaves contain every matrix entry
exactly once. -/
theorem C11_exact_cover (T : ClusterTree A n) (adm : Nat → Nat → Bool) (minLv init fuel : Nat) (hf : 2 * A.nNode ≤ fuel) :
    ∃ pv, calcPairs A adm minLv fuel (A.nNode - 1) (A.nNode - 1) ⟨[], [], init⟩ = .ok pv ∧
      ∀ p < n, ∀ q < n, (blocks A pv).countP (fun x => Holds A p q x) = 1 := by
  obtain ⟨pv, h1, _, _, h4⟩ := search_spec T adm minLv init fuel hf
  exact ⟨pv, h1, h4⟩

/-! ## C13 -/

theorem foldl_min_le (l : List Nat) : ∀ a : Nat, l.foldl min a ≤ a ∧ ∀ x ∈ l, l.foldl min a ≤ x := by
  induction l with
  | nil => intro a; simp
  | cons y l ih =>
    intro a
    rw [List.foldl_cons]
    obtain ⟨h1, h2⟩ := ih (min a y)
    refine ⟨by omega, ?_⟩
    intro x hx
    rcases List.mem_cons.1 hx with rfl | hx
    · omega
    · exact h2 x hx

theorem foldl_min_mem (l : List Nat) : ∀ a : Nat, l.foldl min a = a ∨ l.foldl min a ∈ l := by
  induction l with
  | nil => intro a; simp
  | cons y l ih =>
    intro a
    rw [List.foldl_cons]
    rcases ih (min a y) with h | h
    · rw [h]
      rcases le_total a y with h' | h'
      · left; omega
      · right; rw [min_eq_right h']; simp
    · right; exact List.mem_cons_of_mem _ h

/-- C13: what is recorded is what it claims to be. -/
theorem C13_recorded (T : ClusterTree A n) (adm : Nat → Nat → Bool) (minLv init fuel : Nat) (hf : 2 * A.nNode ≤ fuel) :
    ∃ pv, calcPairs A adm minLv fuel (A.nNode - 1) (A.nNode - 1) ⟨[], [], init⟩ = .ok pv ∧
      (∀ a b, (a, b) ∈ pv.adm → a < A.nNode ∧ b < A.nNode ∧ (∀ p, ¬ (A.ptS a ≤ p ∧ p ≤ A.ptE a ∧ A.ptS b ≤ p ∧ p ≤ A.ptE b)) ∧
        adm a b = true ∧ minLv ≤ A.level a ∧ minLv ≤ A.level b) ∧
      (∀ a b, (a, b) ∈ pv.inadm → a < A.nNode ∧ b < A.nNode ∧ a ≠ b ∧ A.nChild a = 0 ∧ A.nChild b = 0 ∧
        (minLv ≤ A.level a → minLv ≤ A.level b → adm a b = false)) ∧
      (∀ a b, (a, b) ∈ pv.adm → pv.minAdm ≤ max (A.level a) (A.level b)) ∧
      pv.minAdm ≤ init ∧ (pv.minAdm = init ∨ ∃ a b, (a, b) ∈ pv.adm ∧ pv.minAdm = max (A.level a) (A.level b)) := by
  obtain ⟨pv, h1, h2, h3, h4⟩ := search_spec T adm minLv init fuel hf
  refine ⟨pv, h1, ?_, ?_, ?_, ?_, ?_⟩
  · intro a b hab
    obtain ⟨g1, g2, g3, g4, g5, g6⟩ := h2.1 (a, b) hab
    refine ⟨g1, g2, ?_, g4, g5, g6⟩
    rintro p ⟨q1, q2, q3, q4⟩
    dsimp only at g3
    omega
  · intro a b hab
    obtain ⟨g1, g2, g3, g4, g5, g6⟩ := h2.2 (a, b) hab
    refine ⟨g1, g2, g3, g4, g5, ?_⟩
    intro l1 l2
    by_contra h
    rw [Bool.not_eq_false] at h
    exact g6 ⟨h, l1, l2⟩
  · intro a b hab
    rw [h3]
    exact (foldl_min_le _ _).2 _ (List.mem_map.2 ⟨(a, b), hab, rfl⟩)
  · rw [h3]; exact (foldl_min_le _ _).1
  · rw [h3]
    rcases foldl_min_mem (pv.adm.map (fun x => max (A.level x.1) (A.level x.2))) init with h | h
    · exact Or.inl h
    · right
      obtain ⟨⟨a, b⟩, hx, he⟩ := List.mem_map.1 h
      exact ⟨a, b, hx, he.symm⟩

/-- A node other than the root is on level one or deeper. -/
theorem level_pos (T : ClusterTree A n) {v : Nat} (hv : v + 1 < A.nNode) : 1 ≤ A.level v := by
  obtain ⟨w, hw, _, hm⟩ := T.childOfParent v hv
  rw [T.childLevel w hw v hm]; omega

/-- Nodes with disjoint clusters are not the root. -/
theorem disjoint_not_root (T : ClusterTree A n) {a b : Nat} (ha : a < A.nNode) (hb : b < A.nNode)
    (h : A.ptE a < A.ptS b ∨ A.ptE b < A.ptS a) : a + 1 < A.nNode := by
  by_contra hcon
  have e : a = A.nNode - 1 := by omega
  have hE := T.rootE
  have hS := T.rootS
  rw [← e] at hE hS
  have := T.clusterLt b hb
  have := T.clusterLe b hb
  omega

theorem maxLevel_pos (T : ClusterTree A n) (h1 : 1 < A.nNode) : 1 ≤ A.maxLevel := by
  have := T.levelLe 0 (by omega)
  have := level_pos T (v := 0) (by omega)
  omega

end

/-! ## The code's own parameters -/

section
variable {K : Type} [Field K] [LinearOrder K] [IsStrictOrderedRing K] {A : Arr K} {n : Nat}

/-- C11, C13 for step 4 of `H2P_partition_points`: exact cover; every recorded admissible pair passes the
geometric test (a gap of `ALPHA_H2` times the smaller width in some dimension); the reported minimum level
is at least one as soon as the tree has more than one node. -/
theorem C11_h2_pairs (ptDim : Nat) (T : ClusterTree A n) (fuel : Nat) (hf : 2 * A.nNode ≤ fuel) :
    ∃ pv, h2Pairs ptDim A fuel = .ok pv ∧
      (∀ p < n, ∀ q < n, (blocks A pv).countP (fun x => Holds A p q x) = 1) ∧
      (∀ a b, (a, b) ∈ pv.adm → ∃ d < ptDim, 999999 / 10^6 * min ((A.enbox a).ext d) ((A.enbox b).ext d) ≤ gap (A.enbox a) (A.enbox b) d) ∧
      (∀ a b, (a, b) ∈ pv.adm → pv.minAdm ≤ max (A.level a) (A.level b)) ∧
      pv.minAdm ≤ A.maxLevel ∧ (1 < A.nNode → 1 ≤ pv.minAdm) := by
  obtain ⟨pv, h1, h2, h3, h4⟩ := search_spec T (fun a b => checkBoxAdmissible (A.enbox a) (A.enbox b) ptDim alphaH2) 0 A.maxLevel fuel hf
  refine ⟨pv, h1, h4, ?_, ?_, ?_, ?_⟩
  · intro a b hab
    exact (C39_admissible_iff_gap _ _ _ _).1 (h2.1 (a, b) hab).2.2.2.1
  · intro a b hab
    rw [h3]
    exact (foldl_min_le _ _).2 _ (List.mem_map.2 ⟨(a, b), hab, rfl⟩)
  · rw [h3]; exact (foldl_min_le _ _).1
  · intro hn
    rw [h3]
    rcases foldl_min_mem (pv.adm.map (fun x => max (A.level x.1) (A.level x.2))) A.maxLevel with h | h
    · rw [h]; exact maxLevel_pos T hn
    · obtain ⟨⟨a, b⟩, hx, he⟩ := List.mem_map.1 h
      obtain ⟨g1, g2, g3, _⟩ := h2.1 (a, b) hx
      have := level_pos T (disjoint_not_root T g1 g2 g3)
      dsimp only at he this
      omega

/-! ## C44: the task graph of the upward sweep -/

omit [Field K] [LinearOrder K] [IsStrictOrderedRing K] in
theorem up_tree (T : ClusterTree A n) : DAG.UpTree A.nNode A.level A.parent := by
  refine ⟨T.nonempty, ⟨T.rootParent, T.rootLevel⟩, ?_⟩
  intro i hi
  obtain ⟨v, hv, hp, hm⟩ := T.childOfParent i hi
  have h1 := T.childLt v hv i hm
  have h2 := T.childLevel v hv i hm
  rw [hp]
  refine ⟨by omega, by omega, ?_⟩
  rw [Int.toNat_natCast]
  omega

/-- C44: for a tree with more than one node the task graph built from the search for admissible pairs is
accepted and can be executed, and the tasks are the nodes on levels from `min_adm_level` on. -/
theorem C44_upward_graph (ptDim : Nat) (T : ClusterTree A n) (hn : 1 < A.nNode) (fuel : Nat) (hf : 2 * A.nNode ≤ fuel) :
    ∃ pv, h2Pairs ptDim A fuel = .ok pv ∧
      DAG.Executable (DAG.upwardDAG A.nNode A.level A.parent pv.minAdm) ∧
      (∀ g, ∃ S d, DAG.init (DAG.upwardDAG A.nNode A.level A.parent pv.minAdm) g = .ok S d) ∧
      (∀ t < A.nNode, DAG.Skipped (DAG.upwardDAG A.nNode A.level A.parent pv.minAdm) t ↔ A.level t < pv.minAdm) := by
  obtain ⟨pv, h1, _, _, _, _, h6⟩ := C11_h2_pairs ptDim T fuel hf
  exact ⟨pv, h1, DAG.upward_executable (up_tree T) (h6 hn)⟩

/-- C44: when all points fit into one leaf, the construction of the task graph accesses `indeg[-1]`. -/
theorem C44_single_leaf_ub (ptDim : Nat) (T : ClusterTree A n) (hn : A.nNode = 1) (fuel : Nat) (hf : 2 ≤ fuel) :
    ∃ pv, h2Pairs ptDim A fuel = .ok pv ∧ ∀ g, DAG.init (DAG.upwardDAG A.nNode A.level A.parent pv.minAdm) g = .ub := by
  obtain ⟨pv, h1, _, _, _, h5, _⟩ := C11_h2_pairs ptDim T fuel (by omega)
  refine ⟨pv, h1, ?_⟩
  have h0 : A.nChild (A.nNode - 1) = 0 := by
    by_contra hne
    have hk : kids A (A.nNode - 1) ≠ [] := fun h => by rw [kids_nil_iff] at h; omega
    obtain ⟨c, hc⟩ := List.exists_mem_of_ne_nil _ hk
    have := T.childLt _ (by omega) c hc
    omega
  have hm : A.maxLevel = 0 := by rw [T.maxLevel]; exact T.leafHeight _ (by omega) h0
  rw [show pv.minAdm = 0 by omega]
  exact fun g => DAG.upward_ub_level_zero (up_tree T) g

/-- C44 for `H2P_partition_points` as a whole: at most `max_leaf_points` points (or a box that is not larger
than `max_leaf_size`) lead to this out-of-bounds access. -/
theorem C44_few_points_ub (ptDim xptDim n : Nat) (hn : 0 < n) (hx : ptDim ≤ xptDim) (coord : Nat → Nat → K) (mlp : Int) (mls : K)
    (rb : Option (Box K)) (rnd : Nat → K) (junk : Arr K) (g : Nat → Nat → Nat) (fuel : Nat) (R : Partitioned K)
    (h : partitionPoints ptDim xptDim n coord mlp mls rb rnd junk g fuel = .ok R)
    (hsmall : n ≤ effLeafPoints ptDim mlp) (fuel2 : Nat) (hf : 2 ≤ fuel2) :
    ∃ pv, h2Pairs ptDim R.arr fuel2 = .ok pv ∧ ∀ d, DAG.init (DAG.upwardDAG R.arr.nNode R.arr.level R.arr.parent pv.minAdm) d = .ub := by
  have O := partitionPoints_spec ptDim xptDim n hn hx coord mlp mls rb rnd junk g fuel
  rw [h] at O
  have T : ClusterTree R.arr n := O.tree
  have hr : R.arr.nNode - 1 < R.arr.nNode := by have := T.nonempty; omega
  have hleaf : R.arr.nChild (R.arr.nNode - 1) = 0 := by
    by_contra hne
    have := (O.inner _ hr hne).1
    have := T.rootE
    have := T.rootS
    omega
  have h1 : R.arr.nNode = 1 := by
    by_contra hne
    have hd := T.desc_root (u := 0) (by omega)
    generalize hR : R.arr.nNode - 1 = r at hd hleaf
    cases hd with
    | refl => omega
    | step h1 _ => rw [kids_nil_iff.2 hleaf] at h1; simp at h1
  exact C44_single_leaf_ub ptDim T h1 fuel2 hf

/-! ## C12 -/

/-- C12: exact cover for every search the code runs in HSS mode; the only way not to return is the failure of
the assertion on the minimum level. -/
theorem C12_exact_cover (ptDim : Nat) (T : ClusterTree A n) (fuel : Nat) (hf : 2 * A.nNode ≤ fuel) :
    hssPairs ptDim A fuel ≠ .diverge ∧
    ∀ pv, hssPairs ptDim A fuel = .ok pv → ∀ p < n, ∀ q < n, (blocks A pv).countP (fun x => Holds A p q x) = 1 := by
  obtain ⟨pv, h1, h2, h3, h4⟩ := search_spec T (fun a b => checkBoxAdmissible (A.enbox a) (A.enbox b) ptDim alphaHSS) 0 A.maxLevel fuel hf
  unfold hssPairs
  rw [h1]
  simp only [Res.bind_ok]
  constructor
  · split <;> simp
  · intro pv' h
    split at h
    · simp only [Res.ok.injEq] at h; rw [← h]; exact h4
    · simp at h

/-- Frame that records whether only siblings are paired. -/
def frameS (A : Arr K) : Frame (Nat × Nat) Pairs Unit where
  app s D := ⟨s.adm ++ D.1, s.inadm ++ D.2, (D.1.map (fun x => max (A.level x.1) (A.level x.2))).foldl min s.minAdm⟩
  app0 s := by simp
  appAdd s D E := by simp [Delta.add]
  good D := D.2 = [] ∧ ∀ x ∈ D.1, ∃ v < A.nNode, x.1 ∈ kids A v ∧ x.2 ∈ kids A v
  good0 := by simp
  goodAdd D E hD hE := by
    refine ⟨by simp [Delta.add, hD.1, hE.1], ?_⟩
    intro x hx; rcases List.mem_append.1 hx with h | h
    · exact hD.2 x h
    · exact hE.2 x h
  cov _ _ := 0
  cov0 _ := rfl
  covAdd _ _ _ := rfl

theorem calcPairs_sib (T : ClusterTree A n) (adm : Nat → Nat → Bool)
    (hadm : ∀ v < A.nNode, (kids A v).Pairwise (fun c d => adm c d = true)) :
    ∀ (fuel a : Nat), a < A.nNode → a + a < fuel → Does (frameS A) (calcPairs A adm 0 fuel a a) (fun _ => 0) (fun _ => 0) := by
  intro fuel
  induction fuel with
  | zero => intro a _ h; omega
  | succ fuel ih =>
    intro a ha hf
    have hfun : calcPairs A adm 0 (fuel+1) a a = fun pv => if A.nChild a = 0 then .ok pv else
        (forEach (fun c pv => calcPairs A adm 0 fuel c c pv) (kids A a) pv >>=
          forPairs (fun c d pv => calcPairs A adm 0 fuel c d pv) (kids A a)) := by
      funext pv
      rw [calcPairs, if_pos ⟨ha, ha⟩, if_pos rfl]
    rw [hfun]
    by_cases h0 : A.nChild a = 0
    · simp only [if_pos h0]
      exact Does.skip (frameS A) (fun _ => 0)
    · simp only [if_neg h0]
      have h1 := Does.forEach0 (frameS A) (fun c pv => calcPairs A adm 0 fuel c c pv) (fun _ _ => 0) (kids A a)
        (fun c hc => ih c (T.kid_lt ha hc) (by have := T.childLt a ha c hc; omega))
      have h2 := Does.forPairs (frameS A) (fun c d pv => calcPairs A adm 0 fuel c d pv) (fun _ _ _ => 0) (kids A a)
        (((hadm a ha).and (T.kids_pairwise ha h0)).imp_of_mem (fun {c d} hc hd hcd => by
          have hne : c ≠ d := by
            rintro rfl
            have := T.clusterLe c (T.kid_lt ha hc)
            omega
          have hf' : 0 < fuel := by have := T.childLt a ha c hc; omega
          obtain ⟨f, rfl⟩ : ∃ f, fuel = f + 1 := ⟨fuel - 1, by omega⟩
          refine ⟨([(c, d)], []), ?_, ⟨rfl, ?_⟩, fun _ => rfl⟩
          · intro s
            show calcPairs A adm 0 (f+1) c d s = _
            rw [calcPairs, if_pos ⟨T.kid_lt ha hc, T.kid_lt ha hd⟩, if_neg hne, if_pos ⟨hcd.1, Nat.zero_le _, Nat.zero_le _⟩]
            simp [frameS]
          · intro x hx
            rw [List.mem_singleton] at hx
            subst hx
            exact ⟨a, ha, hc, hd⟩))
      obtain ⟨D, d1, d2, d3⟩ := Does.seq _ h1 h2
      exact ⟨D, d1, d2, fun i => rfl⟩

theorem sib_admissible {ptDim : Nat} {box b c : Box K} (h : Sib ptDim box b c) (hw : ∀ j < ptDim, 4 / 10^6 ≤ box.ext j) :
    checkBoxAdmissible b c ptDim alphaHSS = true := by
  obtain ⟨r, r', h1, h2, ⟨j, hj, hne⟩, rfl, rfl⟩ := h
  rw [C39_admissible_iff_gap]
  refine ⟨j, hj, ?_⟩
  have hwj := hw j hj
  unfold gap
  simp only [subBox, min_self]
  unfold alphaHSS
  have he : (eps : K) = 1 / 10^12 := rfl
  rw [he]
  have a1 := h1 j hj
  have a2 := h2 j hj
  rw [le_max_iff]
  rcases Nat.lt_or_gt_of_ne hne with hlt | hlt
  · right
    rw [show r j = 0 by omega, show r' j = 1 by omega]
    simp only [Nat.cast_one, Nat.cast_zero]
    linarith
  · left
    rw [show r j = 1 by omega, show r' j = 0 by omega]
    simp only [Nat.cast_one, Nat.cast_zero]
    linarith

/-- C12: when the root box is at least as wide in every dimension as in the first one (a cube, as computed by
the code) and `max_leaf_size ≥ 4e-6`, the HSS pairs of a partitioned point set are pairs of siblings only,
there is no inadmissible pair, and the minimum level is one when the root has two children. -/
theorem C12_hss_siblings (ptDim xptDim : Nat) (coord : Nat → Nat → K) (mlp : Nat) (mls : K) (hmls : 4 / 10^6 ≤ mls) (box : Box K)
    (hcube : ∀ j < ptDim, box.ext 0 ≤ box.ext j) (R : Partitioned K) (O : Outcome ptDim xptDim n coord mlp mls box R)
    (h2 : 2 ≤ R.arr.nChild (R.arr.nNode - 1)) (fuel : Nat) (hf : 2 * R.arr.nNode ≤ fuel) :
    ∃ pv, hssPairs ptDim R.arr fuel = .ok pv ∧ pv.inadm = [] ∧ pv.minAdm = 1 ∧
      (∀ a b, (a, b) ∈ pv.adm → a ≠ b ∧ ∃ v < R.arr.nNode, a ∈ kids R.arr v ∧ b ∈ kids R.arr v) ∧
      ∀ p < n, ∀ q < n, (blocks R.arr pv).countP (fun x => Holds R.arr p q x) = 1 := by
  have T := O.tree
  set A := R.arr with hA
  have hr : A.nNode - 1 < A.nNode := by have := T.nonempty; omega
  -- all boxes are wide
  have hcubes : ∀ k v, v + k = A.nNode - 1 → ∀ j < ptDim, (A.enbox v).ext 0 ≤ (A.enbox v).ext j := by
    intro k
    induction k using Nat.strong_induction_on with
    | _ k ih =>
      intro v hv j hj
      rcases Nat.eq_zero_or_pos k with h0 | hk
      · have e : v = A.nNode - 1 := by omega
        rw [e, O.rootBox]; exact hcube j hj
      · obtain ⟨w, hw, hp, hm⟩ := T.childOfParent v (by omega)
        have hlt := T.childLt w hw v hm
        have := ih (A.nNode - 1 - w) (by omega) w (by omega) j hj
        obtain ⟨r, _, hr⟩ := O.childBox w hw v hm
        rw [hr]
        simp only [subBox]
        linarith
  have hwide : ∀ v < A.nNode, A.nChild v ≠ 0 → ∀ j < ptDim, 4 / 10^6 ≤ (A.enbox v).ext j := by
    intro v hv hne j hj
    have h1 := (O.inner v hv hne).2
    have h2 := hcubes (A.nNode - 1 - v) v (by omega) j hj
    linarith
  have hadm : ∀ v < A.nNode, (kids A v).Pairwise (fun c d => checkBoxAdmissible (A.enbox c) (A.enbox d) ptDim alphaHSS = true) := by
    intro v hv
    by_cases h0 : A.nChild v = 0
    · rw [kids_nil_iff.2 h0]; exact List.Pairwise.nil
    · exact (O.sibling v hv).imp (fun hs => sib_admissible hs (hwide v hv h0))
  obtain ⟨pv, s1, s2, s3, s4⟩ := search_spec T (fun a b => checkBoxAdmissible (A.enbox a) (A.enbox b) ptDim alphaHSS) 0 A.maxLevel fuel hf
  obtain ⟨D, d1, d2, _⟩ := calcPairs_sib T (fun a b => checkBoxAdmissible (A.enbox a) (A.enbox b) ptDim alphaHSS) hadm fuel (A.nNode - 1) hr (by omega)
  have e := d1 ⟨[], [], A.maxLevel⟩
  rw [s1] at e
  simp only [Res.ok.injEq] at e
  have e1 : pv.adm = D.1 := by rw [e]; simp [frameS]
  have e2 : pv.inadm = [] := by rw [e]; simp [frameS, d2.1]
  have hsib : ∀ a b, (a, b) ∈ pv.adm → a ≠ b ∧ ∃ v < A.nNode, a ∈ kids A v ∧ b ∈ kids A v := by
    intro a b hab
    refine ⟨?_, d2.2 (a, b) (by rw [← e1]; exact hab)⟩
    rintro rfl
    obtain ⟨g1, g2, g3, _⟩ := s2.1 (a, a) hab
    dsimp only at g3
    have := T.clusterLe a g1
    omega
  -- a pair of children of the root
  have hmin : pv.minAdm = 1 := by
    have hn : 1 < A.nNode := by
      have hk : kids A (A.nNode - 1) ≠ [] := fun h => by rw [kids_nil_iff] at h; omega
      obtain ⟨c, hc⟩ := List.exists_mem_of_ne_nil _ hk
      have := T.childLt _ hr c hc
      omega
    have hge : 1 ≤ pv.minAdm := by
      rw [s3]
      rcases foldl_min_mem (pv.adm.map (fun x => max (A.level x.1) (A.level x.2))) A.maxLevel with h | h
      · rw [h]; exact maxLevel_pos T hn
      · obtain ⟨⟨a, b⟩, hx, he⟩ := List.mem_map.1 h
        obtain ⟨g1, g2, g3, _⟩ := s2.1 (a, b) hx
        have := level_pos T (disjoint_not_root T g1 g2 g3)
        dsimp only at he this
        omega
    -- two different children of the root
    have hk2 : 2 ≤ (kids A (A.nNode - 1)).length := by unfold kids; rw [List.length_map, List.length_range]; exact h2
    obtain ⟨c, d, hc, hd, hcd⟩ : ∃ c d, c ∈ kids A (A.nNode - 1) ∧ d ∈ kids A (A.nNode - 1) ∧ c ≠ d := by
      have hnd := T.kidsNodup _ hr
      generalize kids A (A.nNode - 1) = L at hk2 hnd
      match L, hk2, hnd with
      | c :: d :: _, _, hnd =>
        refine ⟨c, d, by simp, by simp, ?_⟩
        rintro rfl
        simp at hnd
    have hcov := s4 (A.ptS c) (by have := T.clusterLt c (T.kid_lt hr hc); have := T.clusterLe c (T.kid_lt hr hc); omega)
      (A.ptS d) (by have := T.clusterLt d (T.kid_lt hr hd); have := T.clusterLe d (T.kid_lt hr hd); omega)
    have hex : ∃ x ∈ blocks A pv, Holds A (A.ptS c) (A.ptS d) x := by
      have : 0 < (blocks A pv).countP (fun x => Holds A (A.ptS c) (A.ptS d) x) := by omega
      rw [List.countP_pos_iff] at this
      obtain ⟨x, hx, hh⟩ := this
      exact ⟨x, hx, by simpa using hh⟩
    obtain ⟨⟨a, b⟩, hx, ⟨ha, hb⟩⟩ := hex
    dsimp only at ha hb
    have hcc := T.clusterLe c (T.kid_lt hr hc)
    have hdd := T.clusterLe d (T.kid_lt hr hd)
    -- a node that holds both points is the root
    have hroot : ∀ v < A.nNode, A.ptS v ≤ A.ptS c → A.ptS c ≤ A.ptE v → A.ptS v ≤ A.ptS d → A.ptS d ≤ A.ptE v → v = A.nNode - 1 := by
      intro v hv q1 q2 q3 q4
      by_contra hne
      have key : ∃ e ∈ kids A (A.nNode - 1), Desc A v e := by
        have := T.desc_root hv
        generalize hR : A.nNode - 1 = r at this hne
        cases this with
        | refl => exact absurd rfl hne
        | step h1 h2 => exact ⟨_, h1, h2⟩
      obtain ⟨e', he', hde⟩ := key
      have hcl := T.desc_cluster hde (T.kid_lt hr he')
      have c1 := T.kid_unique hr hc he' (le_refl _) hcc (by omega) (by omega)
      have c2 := T.kid_unique hr hd he' (le_refl _) hdd (by omega) (by omega)
      exact hcd (c1.trans c2.symm)
    -- so the block is a pair of children of the root
    have hpair : ∃ x, x ∈ pv.adm ∧ max (A.level x.1) (A.level x.2) = 1 := by
      unfold blocks at hx
      rw [e2] at hx
      simp only [List.map_nil, List.append_nil, List.mem_append, List.mem_map, Prod.mk.injEq] at hx
      have mk : ∀ x1 x2, (x1, x2) ∈ pv.adm → (A.ptS x1 ≤ A.ptS c ∧ A.ptS c ≤ A.ptE x1 ∧ A.ptS x2 ≤ A.ptS d ∧ A.ptS d ≤ A.ptE x2 ∨
          A.ptS x1 ≤ A.ptS d ∧ A.ptS d ≤ A.ptE x1 ∧ A.ptS x2 ≤ A.ptS c ∧ A.ptS c ≤ A.ptE x2) → max (A.level x1) (A.level x2) = 1 := by
        intro x1 x2 hm hh
        obtain ⟨_, v, hv, k1, k2⟩ := hsib x1 x2 hm
        have u1 := T.kid_cluster hv k1
        have u2 := T.kid_cluster hv k2
        have hvr : v = A.nNode - 1 := by
          apply hroot v hv
          · rcases hh with h | h <;> omega
          · rcases hh with h | h <;> omega
          · rcases hh with h | h <;> omega
          · rcases hh with h | h <;> omega
        rw [T.childLevel v hv x1 k1, T.childLevel v hv x2 k2, hvr, T.rootLevel]
        rfl
      rcases hx with ⟨u, hu, rfl, rfl⟩ | hx | ⟨x, hx, hsw⟩
      · exfalso
        unfold leaves at hu
        rw [List.mem_filter, List.mem_range] at hu
        have := hroot u hu.1 ha.1 ha.2 hb.1 hb.2
        have h0 : A.nChild u = 0 := by simpa using hu.2
        rw [this] at h0
        omega
      · exact ⟨(a, b), hx, mk a b hx (Or.inl ⟨ha.1, ha.2, hb.1, hb.2⟩)⟩
      · refine ⟨x, hx, ?_⟩
        simp only [Prod.swap, Prod.mk.injEq] at hsw
        exact mk x.1 x.2 hx (Or.inr ⟨by rw [hsw.2]; exact hb.1, by rw [hsw.2]; exact hb.2, by rw [hsw.1]; exact ha.1, by rw [hsw.1]; exact ha.2⟩)
    obtain ⟨x, hx1, hx2⟩ := hpair
    have : pv.minAdm ≤ 1 := by
      rw [s3, ← hx2]
      exact (foldl_min_le _ _).2 _ (List.mem_map.2 ⟨x, hx1, rfl⟩)
    omega
  refine ⟨pv, ?_, e2, hmin, hsib, s4⟩
  unfold hssPairs
  rw [s1]
  simp only [Res.bind_ok]
  rw [if_pos hmin]

/-- C12: when the root has exactly one child and the tree is deeper than one level, the assertion fails. -/
theorem C12_single_child_aborts (ptDim : Nat) (T : ClusterTree A n) (h1 : A.nChild (A.nNode - 1) = 1) (hl : 2 ≤ A.maxLevel)
    (fuel : Nat) (hf : 2 * A.nNode ≤ fuel) : hssPairs ptDim A fuel = .ub := by
  obtain ⟨pv, s1, s2, s3, s4⟩ := search_spec T (fun a b => checkBoxAdmissible (A.enbox a) (A.enbox b) ptDim alphaHSS) 0 A.maxLevel fuel hf
  have hr : A.nNode - 1 < A.nNode := by have := T.nonempty; omega
  have hlen : (kids A (A.nNode - 1)).length = 1 := by unfold kids; rw [List.length_map, List.length_range]; exact h1
  obtain ⟨c, hc⟩ := List.length_eq_one_iff.1 hlen
  -- a node on level one is the child
  have hone : ∀ v, v + 1 < A.nNode → A.level v ≤ 1 → v = c := by
    intro v hv hlv
    obtain ⟨w, hw, _, hm⟩ := T.childOfParent v hv
    have h2 := T.childLevel w hw v hm
    have hwr : w = A.nNode - 1 := by
      by_contra hne
      have := level_pos T (v := w) (by omega)
      omega
    rw [hwr, hc, List.mem_singleton] at hm
    exact hm
  have : pv.minAdm ≠ 1 := by
    rw [s3]
    rcases foldl_min_mem (pv.adm.map (fun x => max (A.level x.1) (A.level x.2))) A.maxLevel with h | h
    · rw [h]; omega
    · obtain ⟨⟨a, b⟩, hx, he⟩ := List.mem_map.1 h
      obtain ⟨g1, g2, g3, _⟩ := s2.1 (a, b) hx
      dsimp only at he g1 g2 g3
      intro h'
      have hab : max (A.level a) (A.level b) = 1 := by rw [he]; exact h'
      have e1 := hone a (disjoint_not_root T g1 g2 g3) (by omega)
      have e2 := hone b (disjoint_not_root T g2 g1 g3.symm) (by omega)
      rw [e1, e2] at g3
      have := T.clusterLe c (T.kid_lt hr (by rw [hc]; simp))
      omega
  unfold hssPairs
  rw [s1]
  simp only [Res.bind_ok]
  rw [if_neg this]

/-! ## C14 -/

/-- Specification: lattice vector `l` leaves the points (up to `1e-10`) where they are. -/
def NoShift (ptDim : Nat) (A : Arr K) (lattice : Nat → Nat → K) (l : Nat) : Prop :=
  ∀ j < ptDim, |(A.enbox (A.nNode - 1)).ext j * lattice l j| ≤ 1 / 10^10

instance (ptDim : Nat) (A : Arr K) (lattice : Nat → Nat → K) (l : Nat) : Decidable (NoShift ptDim A lattice l) := by
  unfold NoShift; infer_instance

theorem hasShift_iff (ptDim : Nat) (A : Arr K) (lattice : Nat → Nat → K) (l : Nat) :
    hasShift ptDim (latShift A lattice l) = false ↔ NoShift ptDim A lattice l := by
  unfold hasShift NoShift latShift
  rw [List.any_eq_false]
  simp

/-- C14: for every lattice vector the triples recorded for it, and the diagonal blocks of the leaves if its
shift is zero, contain every pair (point, image of a point) exactly once. -/
theorem C14_periodic_cover (ptDim : Nat) (hd : ptDim ≤ 4) (T : ClusterTree A n) (nLattice : Nat) (lattice : Nat → Nat → K) (fuel : Nat) (hf : 2 * A.nNode ≤ fuel) :
    ∃ pv, perPairs ptDim A nLattice lattice fuel = .ok pv ∧
      (∀ l < nLattice, ∀ p < n, ∀ q < n,
        ((pv.adm ++ pv.inadm ++ (if NoShift ptDim A lattice l then (leaves A).map (fun v => (v, v, l)) else [])).filter
          (fun x => x.2.2 = l)).countP (fun x => Holds A p q (x.1, x.2.1)) = 1) ∧
      (∀ x ∈ pv.adm ++ pv.inadm, x.1 < A.nNode ∧ x.2.1 < A.nNode ∧ x.2.2 < nLattice) ∧
      (∀ x ∈ pv.adm, checkBoxAdmissible (A.enbox x.1) (shiftBox (A.enbox x.2.1) (latShift A lattice x.2.2)) ptDim alphaH2 = true ∨
        NoShift ptDim A lattice x.2.2 ∧
          checkBoxAdmissible (A.enbox x.2.1) (shiftBox (A.enbox x.1) (latShift A lattice x.2.2)) ptDim alphaH2 = true) ∧
      (∀ x ∈ pv.inadm, A.nChild x.1 = 0 ∧ A.nChild x.2.1 = 0 ∧
        (checkBoxAdmissible (A.enbox x.1) (shiftBox (A.enbox x.2.1) (latShift A lattice x.2.2)) ptDim alphaH2 = false ∨
          NoShift ptDim A lattice x.2.2 ∧
            checkBoxAdmissible (A.enbox x.2.1) (shiftBox (A.enbox x.1) (latShift A lattice x.2.2)) ptDim alphaH2 = false)) := by
  have hr : A.nNode - 1 < A.nNode := by have := T.nonempty; omega
  have hE := T.rootE
  have hS := T.rootS
  set admL : Nat → Nat → Nat → Bool := fun l a b => checkBoxAdmissible (A.enbox a) (shiftBox (A.enbox b) (latShift A lattice l)) ptDim alphaH2 with hadmL
  set hsL : Nat → Bool := fun l => hasShift ptDim (latShift A lattice l) with hhsL
  set r := A.nNode - 1 with hrdef
  have hl : ∀ l, Does (frame3 A admL hsL) (calcPairsPer A (admL l) (hsL l) l fuel r r)
      (fun i => (if hsL l = true then 0 else inn A r i.1 * inn A r i.2.1 * ClusterTree.same A i.1 i.2.1) * dl l i.2.2)
      (fun i => inn A r i.1 * inn A r i.2.1 * dl l i.2.2) := by
    intro l
    cases h : hsL l
    · have := calcPairsPer_self T admL hsL l h fuel r hr (by omega)
      rw [h] at this
      simpa using this
    · have := calcPairsPer_diff T admL hsL l fuel r r hr hr (by omega) (Or.inl h)
      unfold wper at this
      rw [h] at this
      simpa using this
  obtain ⟨D, d1, d2, d3⟩ := Does.forEach (frame3 A admL hsL) (fun l pv => calcPairsPer A (admL l) (hsL l) l fuel r r pv)
    (fun l i => (if hsL l = true then 0 else inn A r i.1 * inn A r i.2.1 * ClusterTree.same A i.1 i.2.1) * dl l i.2.2)
    (fun l i => inn A r i.1 * inn A r i.2.1 * dl l i.2.2) (List.range nLattice) (fun l _ => hl l)
  have hdl : ∀ (f : Nat → Nat) (m l : Nat), ((List.range m).map (fun k => f k * dl k l)).sum = if l < m then f l else 0 := by
    intro f m l
    induction m with
    | zero => simp
    | succ m ih =>
      rw [List.range_succ, List.map_append, List.sum_append, ih]
      unfold dl
      by_cases h : l = m
      · subst h; simp
      · by_cases h2 : l < m
        · rw [if_pos h2, if_pos (by omega)]; simp [show ¬ m = l by omega]
        · rw [if_neg h2, if_neg (by omega)]; simp [show ¬ m = l by omega]
  have hcov : ∀ p q l, cover3 A (D.1 ++ D.2) p q l + (if l < nLattice then (if hsL l = true then 0 else inn A r p * inn A r q * ClusterTree.same A p q) else 0) =
      if l < nLattice then inn A r p * inn A r q else 0 := by
    intro p q l
    have e := d3 (p, q, l)
    dsimp only at e
    rw [hdl (fun k => if hsL k = true then 0 else inn A r p * inn A r q * ClusterTree.same A p q), hdl (fun _ => inn A r p * inn A r q)] at e
    rw [cover3_append]
    exact e
  refine ⟨⟨D.1, D.2⟩, ?_, ?_, ?_, ?_, ?_⟩
  · unfold perPairs
    rw [if_pos hd]
    have := d1 ⟨[], []⟩
    simpa [frame3] using this
  · intro l hll p hp q hq
    dsimp only
    rw [List.countP_filter]
    have i1 : inn A r p = 1 := inn_eq_one.2 ⟨by omega, by omega⟩
    have i2 : inn A r q = 1 := inn_eq_one.2 ⟨by omega, by omega⟩
    have e := hcov p q l
    rw [if_pos hll, if_pos hll, i1, i2] at e
    have ec : ∀ L : List (Nat × Nat × Nat), L.countP (fun x => decide (Holds A p q (x.1, x.2.1)) && decide (x.2.2 = l)) = cover3 A L p q l := by
      intro L
      unfold cover3
      apply List.countP_congr
      intro x _
      simp
    rw [List.countP_append, ec, ec]
    have hshift : hsL l = false ↔ NoShift ptDim A lattice l := hasShift_iff ptDim A lattice l
    cases h : hsL l
    · rw [h] at e
      rw [if_pos (hshift.1 h)]
      simp only [Bool.false_eq_true, if_false] at e ⊢
      have : cover3 A ((leaves A).map (fun v => (v, v, l))) p q l = ClusterTree.same A p q := by
        rw [← leaf_count T hp, cover3, List.countP_map, List.countP_map]
        apply List.countP_congr
        intro x _
        simp
      omega
    · rw [h] at e
      rw [if_neg (fun h' => by rw [hshift.2 h'] at h; simp at h)]
      simp only [if_true] at e
      simp only [cover3, List.countP_nil] at e ⊢
      omega
  · intro x hx
    have hgood : x.1 < A.nNode ∧ x.2.1 < A.nNode := by
      rcases List.mem_append.1 hx with h | h
      · have := d2.1 x h; exact ⟨this.1, this.2.1⟩
      · have := d2.2 x h; exact ⟨this.1, this.2.1⟩
    refine ⟨hgood.1, hgood.2, ?_⟩
    by_contra hcon
    have e := hcov (A.ptS x.1) (A.ptS x.2.1) x.2.2
    rw [if_neg hcon, if_neg hcon, Nat.add_zero] at e
    unfold cover3 at e
    rw [List.countP_eq_zero] at e
    apply e x hx
    rw [decide_eq_true_eq]
    exact ⟨⟨⟨le_refl _, T.clusterLe _ hgood.1⟩, ⟨le_refl _, T.clusterLe _ hgood.2⟩⟩, rfl⟩
  · intro x hx
    have := (d2.1 x hx).2.2
    rw [← hasShift_iff]
    exact this
  · intro x hx
    have := d2.2 x hx
    refine ⟨this.2.2.1, this.2.2.2.1, ?_⟩
    rw [← hasShift_iff]
    exact this.2.2.2.2

end

/-! ## Concrete cases -/

/-- Six points on a line, one point per leaf, cube `[0, 8]` as root box. -/
def lineCoord (p _j : Nat) : Rat := p + 1

def lineBox : Box Rat := ⟨fun _ => 0, fun _ => 8⟩

/-- A partitioning whose root has two children exists: the hypotheses of C11 - C14 and of
`C12_hss_siblings` are met. -/
theorem line_partition : ∃ R, Outcome 1 1 6 lineCoord 1 (1/100) lineBox R ∧ 2 ≤ R.arr.nChild (R.arr.nNode - 1) := by
  obtain ⟨R, F, hF⟩ := C09_terminates 1 1 6 (by norm_num) (le_refl _) lineCoord 1 (1/100) (by norm_num) (some lineBox) (fun _ => 0) exJunk (fun _ _ => 0)
  have h := hF F (le_refl _)
  have O := partitionPoints_spec 1 1 6 (by norm_num) (le_refl _) lineCoord 1 (1/100) (some lineBox) (fun _ => 0) exJunk (fun _ _ => 0) F
  rw [h] at O
  dsimp only [Option.getD] at O
  refine ⟨R, O, ?_⟩
  have T := O.tree
  have hr : R.arr.nNode - 1 < R.arr.nNode := by have := T.nonempty; omega
  have hE := T.rootE
  have hS := T.rootS
  by_contra hcon
  have hne : R.arr.nChild (R.arr.nNode - 1) ≠ 0 := by
    intro h0
    rcases O.leaf _ hr h0 with h1 | h1
    · have : effLeafPoints 1 1 = 1 := rfl
      omega
    · rw [O.rootBox] at h1
      norm_num [lineBox] at h1
  have hin : ∀ i < 6, Box.Holds 1 lineBox (lineCoord i) := by
    intro i hi j hj
    have h6 : (i : Rat) ≤ 5 := by exact_mod_cast (by omega : i ≤ 5)
    have h0 : (0 : Rat) ≤ i := by exact_mod_cast Nat.zero_le i
    simp only [lineBox, lineCoord]
    constructor <;> linarith
  -- the points that hold the extreme coordinates
  have hsrc : ∀ i < 6, ∃ p < 6, R.coord p 0 = lineCoord i 0 := by
    intro i hi
    have : i ∈ (List.range 6).map R.coordIdx := O.perm.mem_iff.2 (List.mem_range.2 hi)
    obtain ⟨p, hp, rfl⟩ := List.mem_map.1 this
    exact ⟨p, List.mem_range.1 hp, O.sorted p (List.mem_range.1 hp) 0 (by norm_num)⟩
  obtain ⟨p, hp, hpc⟩ := hsrc 0 (by norm_num)
  obtain ⟨q, hq, hqc⟩ := hsrc 5 (by norm_num)
  obtain ⟨c, hc, c1, c2⟩ := T.kid_at hr hne (p := p) (by omega) (by omega)
  obtain ⟨d, hd, e1, e2⟩ := T.kid_at hr hne (p := q) (by omega) (by omega)
  have hcd : c = d := by
    have hl : (kids R.arr (R.arr.nNode - 1)).length = 1 := by unfold kids; rw [List.length_map, List.length_range]; omega
    obtain ⟨x, hx⟩ := List.length_eq_one_iff.1 hl
    rw [hx, List.mem_singleton] at hc hd
    rw [hc, hd]
  subst hcd
  have b1 := O.inBox hin c (T.kid_lt hr hc) p c1 c2 0 (by norm_num)
  have b2 := O.inBox hin c (T.kid_lt hr hc) q e1 e2 0 (by norm_num)
  obtain ⟨r, hr1, hr2⟩ := O.childBox _ hr c hc
  have hr0 := hr1 0 (by norm_num)
  rw [hr2, hpc] at b1
  rw [hr2, hqc] at b2
  rw [O.rootBox] at b1 b2
  simp only [subBox, lineBox, lineCoord, eps] at b1 b2
  rcases Nat.lt_or_ge (r 0) 1 with h | h
  · rw [show r 0 = 0 by omega] at b2
    norm_num at b2
  · rw [show r 0 = 1 by omega] at b1
    norm_num at b1

/-- The same points in the box `[0, 32]`: the root has a single child, the tree is deeper. -/
def wideBox : Box Rat := ⟨fun _ => 0, fun _ => 32⟩

theorem wide_partition : ∃ R, Outcome 1 1 6 lineCoord 1 (1/100) wideBox R ∧ R.arr.nChild (R.arr.nNode - 1) = 1 ∧ 2 ≤ R.arr.maxLevel := by
  obtain ⟨R, F, hF⟩ := C09_terminates 1 1 6 (by norm_num) (le_refl _) lineCoord 1 (1/100) (by norm_num) (some wideBox) (fun _ => 0) exJunk (fun _ _ => 0)
  have h := hF F (le_refl _)
  have O := partitionPoints_spec 1 1 6 (by norm_num) (le_refl _) lineCoord 1 (1/100) (some wideBox) (fun _ => 0) exJunk (fun _ _ => 0) F
  rw [h] at O
  dsimp only [Option.getD] at O
  refine ⟨R, O, ?_⟩
  have T := O.tree
  have hr : R.arr.nNode - 1 < R.arr.nNode := by have := T.nonempty; omega
  have hE := T.rootE
  have hS := T.rootS
  have heff : effLeafPoints 1 1 = 1 := rfl
  have hne : R.arr.nChild (R.arr.nNode - 1) ≠ 0 := by
    intro h0
    rcases O.leaf _ hr h0 with h1 | h1
    · omega
    · rw [O.rootBox] at h1
      norm_num [wideBox] at h1
  have hin : ∀ i < 6, Box.Holds 1 wideBox (lineCoord i) := by
    intro i hi j hj
    have h6 : (i : Rat) ≤ 5 := by exact_mod_cast (by omega : i ≤ 5)
    have h0 : (0 : Rat) ≤ i := by exact_mod_cast Nat.zero_le i
    simp only [wideBox, lineCoord]
    constructor <;> linarith
  have hbit : ∀ c ∈ kids R.arr (R.arr.nNode - 1), ∀ r : Nat → Nat, R.arr.enbox c = subBox (R.arr.enbox (R.arr.nNode - 1)) r → r 0 ≤ 1 → r 0 = 0 := by
    intro c hc r hrb hr1
    have hcl := T.clusterLe c (T.kid_lt hr hc)
    have hcl2 := T.clusterLt c (T.kid_lt hr hc)
    have b := (O.inBox hin c (T.kid_lt hr hc) (R.arr.ptS c) (le_refl _) hcl 0 (by norm_num)).1
    rw [O.sorted _ (by omega) 0 (by norm_num), hrb, O.rootBox] at b
    have hlt : R.coordIdx (R.arr.ptS c) < 6 := by
      have : R.coordIdx (R.arr.ptS c) ∈ (List.range 6).map R.coordIdx := List.mem_map.2 ⟨_, List.mem_range.2 (by omega), rfl⟩
      exact List.mem_range.1 (O.perm.mem_iff.1 this)
    have h6 : (R.coordIdx (R.arr.ptS c) : Rat) ≤ 5 := by exact_mod_cast (by omega : R.coordIdx (R.arr.ptS c) ≤ 5)
    simp only [subBox, wideBox, lineCoord, eps] at b
    by_contra h
    rw [show r 0 = 1 by omega] at b
    norm_num at b
    linarith
  have hone : R.arr.nChild (R.arr.nNode - 1) = 1 := by
    by_contra hcon
    have hl : 2 ≤ (kids R.arr (R.arr.nNode - 1)).length := by unfold kids; rw [List.length_map, List.length_range]; omega
    have hs := O.sibling _ hr
    generalize kids R.arr (R.arr.nNode - 1) = L at hl hs hbit
    match L, hl, hs, hbit with
    | c :: d :: _, _, hs, hbit =>
      have := (List.pairwise_cons.1 hs).1 d (by simp)
      obtain ⟨r, r', q1, q2, ⟨j, hj, hjne⟩, q4, q5⟩ := this
      have hj0 : j = 0 := by omega
      subst hj0
      have := hbit c (by simp) r q4 (q1 0 (by norm_num))
      have := hbit d (by simp) r' q5 (q2 0 (by norm_num))
      omega
  refine ⟨hone, ?_⟩
  have hl : (kids R.arr (R.arr.nNode - 1)).length = 1 := by unfold kids; rw [List.length_map, List.length_range]; exact hone
  obtain ⟨c, hc⟩ := List.length_eq_one_iff.1 hl
  have hcm : c ∈ kids R.arr (R.arr.nNode - 1) := by rw [hc]; simp
  have hcn := T.kid_lt hr hcm
  obtain ⟨r, hr1, hr2⟩ := O.childBox _ hr c hcm
  have hcne : R.arr.nChild c ≠ 0 := by
    intro h0
    have htile := T.tile _ hr hne
    rw [hc] at htile
    obtain ⟨t1, t2, t3⟩ : R.arr.ptS c = R.arr.ptS (R.arr.nNode - 1) ∧ R.arr.ptS c ≤ R.arr.ptE c ∧ R.arr.ptE c + 1 = R.arr.ptE (R.arr.nNode - 1) + 1 := htile
    rcases O.leaf c hcn h0 with h1 | h1
    · omega
    · rw [hr2, O.rootBox] at h1
      norm_num [wideBox, subBox, eps] at h1
  have hk : kids R.arr c ≠ [] := fun h => hcne (kids_nil_iff.1 h)
  obtain ⟨d, hd⟩ := List.exists_mem_of_ne_nil _ hk
  have l1 := T.childLevel _ hr c hcm
  have l2 := T.childLevel _ hcn d hd
  have l3 := T.levelLe d (T.kid_lt hcn hd)
  have := T.rootLevel
  omega

example : ∃ R : Partitioned Rat, hssPairs 1 R.arr (2 * R.arr.nNode) = .ub := by
  obtain ⟨R, O, h1, h2⟩ := wide_partition
  exact ⟨R, C12_single_child_aborts 1 O.tree h1 h2 _ (le_refl _)⟩

example : ∃ R : Partitioned Rat, ∃ pv, h2Pairs 1 R.arr (2 * R.arr.nNode) = .ok pv ∧
    DAG.Executable (DAG.upwardDAG R.arr.nNode R.arr.level R.arr.parent pv.minAdm) := by
  obtain ⟨R, O, h⟩ := line_partition
  have hn : 1 < R.arr.nNode := by
    have hr : R.arr.nNode - 1 < R.arr.nNode := by have := O.tree.nonempty; omega
    have hk : kids R.arr (R.arr.nNode - 1) ≠ [] := fun h' => by rw [kids_nil_iff] at h'; omega
    obtain ⟨c, hc⟩ := List.exists_mem_of_ne_nil _ hk
    have := O.tree.childLt _ hr c hc
    omega
  obtain ⟨pv, h1, h2, _⟩ := C44_upward_graph 1 O.tree hn _ (le_refl _)
  exact ⟨R, pv, h1, h2⟩

example : ∃ R : Partitioned Rat, ∃ pv, h2Pairs 1 R.arr 2 = .ok pv ∧
    ∀ d, DAG.init (DAG.upwardDAG R.arr.nNode R.arr.level R.arr.parent pv.minAdm) d = .ub := by
  obtain ⟨R, F, hF⟩ := C09_terminates 1 1 6 (by norm_num) (le_refl _) lineCoord 0 (1/100) (by norm_num) none (fun _ => 0) exJunk (fun _ _ => 0)
  exact ⟨R, C44_few_points_ub 1 1 6 (by norm_num) (le_refl _) lineCoord 0 (1/100) none (fun _ => 0) exJunk (fun _ _ => 0) F R (hF F (le_refl _))
    (by decide) 2 (le_refl _)⟩

example : ∃ R : Partitioned Rat, ∃ pv, hssPairs 1 R.arr (2 * R.arr.nNode) = .ok pv ∧ pv.inadm = [] ∧ pv.minAdm = 1 := by
  obtain ⟨R, O, h⟩ := line_partition
  obtain ⟨pv, h1, h2, h3, _⟩ := C12_hss_siblings 1 1 lineCoord 1 (1/100) (by norm_num) lineBox (by intro j hj; exact le_refl _) R O h _ (le_refl _)
  exact ⟨R, pv, h1, h2, h3⟩

example : ∃ R : Partitioned Rat, ∃ pv, h2Pairs 1 R.arr (2 * R.arr.nNode) = .ok pv ∧
    ∀ p < 6, ∀ q < 6, (blocks R.arr pv).countP (fun x => Holds R.arr p q x) = 1 := by
  obtain ⟨R, O, h⟩ := line_partition
  obtain ⟨pv, h1, h2, _⟩ := C11_h2_pairs 1 O.tree _ (le_refl _)
  exact ⟨R, pv, h1, h2⟩

example : ∃ R : Partitioned Rat, ∃ pv, perPairs 1 R.arr 3 (fun l _ => (l : Rat) - 1) (2 * R.arr.nNode) = .ok pv := by
  obtain ⟨R, O, h⟩ := line_partition
  obtain ⟨pv, h1, _⟩ := C14_periodic_cover 1 (by norm_num) O.tree 3 (fun l _ => (l : Rat) - 1) _ (le_refl _)
  exact ⟨R, pv, h1⟩

end H2Pack.Part
