import Verif.Proof.TreeArray

/-! # From the recursive tree to the exported arrays -/

namespace H2Pack.Part
open H2Pack.Utils (Box)

section
variable {K : Type}

theorem child_po_lt : ∀ (t : Tree K), ((postorder t).map Tree.po).Pairwise (· < ·) →
    ∀ t' ∈ postorder t, ∀ c ∈ t'.children, c.po < t'.po := by
  intro t
  induction t using Tree.ind with
  | _ t ih =>
    intro h t' ht' c hc
    rw [postorder_eq, List.map_append, List.pairwise_append] at h
    obtain ⟨h1, -, h3⟩ := h
    rw [mem_postorder] at ht'
    rcases ht' with ⟨d, hd, hm⟩ | rfl
    · refine ih d hd ?_ t' hm c hc
      have hsub : (postorder d).Sublist (t.children.flatMap postorder) := by
        obtain ⟨a, b, hab⟩ := List.append_of_mem hd
        rw [hab, List.flatMap_append, List.flatMap_cons]
        exact List.Sublist.trans (List.sublist_append_left _ _) (List.sublist_append_right _ _)
      exact List.Pairwise.sublist (hsub.map _) h1
    · refine h3 c.po (List.mem_map_of_mem (List.mem_flatMap.2 ⟨c, hc, self_mem c⟩)) t'.po (by simp)

theorem level_le_height : ∀ (t : Tree K), (∀ t' ∈ postorder t, ∀ c ∈ t'.children, c.level = t'.level + 1) →
    (∀ t' ∈ postorder t, ∀ c ∈ t'.children, c.height < t'.height) → ∀ t' ∈ postorder t, t'.level ≤ t.level + t.height := by
  intro t
  induction t using Tree.ind with
  | _ t ih =>
    intro h1 h2 t' ht'
    rcases (mem_postorder t t').1 ht' with ⟨c, hc, hm⟩ | rfl
    · have := ih c hc (fun x hx => h1 x ((mem_postorder t x).2 (Or.inl ⟨c, hc, hx⟩)))
        (fun x hx => h2 x ((mem_postorder t x).2 (Or.inl ⟨c, hc, hx⟩))) t' hm
      have := h1 t (self_mem t) c hc
      have := h2 t (self_mem t) c hc
      omega
    · omega

theorem filter_po {L : List (Tree K)} {n : Nat} (h : L.map Tree.po = List.range n) (p : Tree K → Bool) (q : Nat → Bool)
    (hpq : ∀ t ∈ L, q t.po = p t) : (List.range n).filter q = (L.filter p).map Tree.po := by
  rw [← h, List.filter_map]
  congr 1
  apply List.filter_congr
  intro t ht
  exact hpq t ht

end

variable {K : Type} [Field K] [LinearOrder K] [IsStrictOrderedRing K]

omit [IsStrictOrderedRing K] in
theorem tree_arrays (P : Params K) (n : Nat) (hn : 0 < n) (box : Box K) (st st' : St K) (root : Tree K)
    (hpo : st.po = 0) (hnl : st.nLeaf = 0) (hml : st.maxLevel = 0)
    (h : Post P 0 0 (n-1) box st root st') (hPn : P.nPoint = n) (A : Arr K)
    (h1 : A.nNode = root.nNode) (h2 : A.nLeaf = st'.nLeaf) (h3 : A.maxLevel = st'.maxLevel) (h4 : A.maxChild = 2 ^ P.ptDim)
    (h5 : ∀ l, A.levelN l = 0) (h6 : ∀ l, A.heightN l = 0) :
    ∃ B, treeToArray root A = .ok B ∧ ClusterTree { B with parent := Function.update B.parent (root.nNode - 1) (-1) } n ∧
      B.nNode = root.nNode ∧ B.maxChild = 2 ^ P.ptDim ∧ (postorder root).map Tree.po = List.range root.nNode ∧
      (∀ t ∈ postorder root, B.enbox t.po = t.box ∧ B.ptS t.po = t.s ∧ B.ptE t.po = t.e ∧ B.nChild t.po = t.children.length ∧ kids B t.po = t.children.map Tree.po) := by
  have hpos : (postorder root).map Tree.po = List.range root.nNode := by rw [h.pos, hpo, List.range_eq_range']
  have hnd : ((postorder root).map Tree.po).Nodup := by rw [hpos]; exact List.nodup_range
  have hpw : ((postorder root).map Tree.po).Pairwise (· < ·) := by rw [hpos]; exact List.pairwise_lt_range
  have hmem : ∀ t ∈ postorder root, t.po < root.nNode := by
    intro t ht
    have : t.po ∈ (postorder root).map Tree.po := List.mem_map_of_mem ht
    rwa [hpos, List.mem_range] at this
  have hfind : ∀ v < root.nNode, ∃ t ∈ postorder root, t.po = v := by
    intro v hv
    have : v ∈ (postorder root).map Tree.po := by rw [hpos, List.mem_range]; exact hv
    exact List.mem_map.1 this
  have hnn : 0 < root.nNode := lt_of_le_of_lt (Nat.zero_le _) (hmem root (self_mem root))
  have hroot : root.po = root.nNode - 1 := by
    have e := hpos
    rw [postorder_eq, List.map_append, List.map_singleton, show root.nNode = (root.nNode - 1) + 1 by omega, List.range_succ] at e
    have := (List.append_inj' e rfl).2
    simpa using this
  have hcl := fun t ht => (h.ok t ht).level
  have hch : ∀ t' ∈ postorder root, ∀ c ∈ t'.children, c.height < t'.height := by
    intro t' ht' c hc
    have hne : t'.children ≠ [] := by intro e; rw [e] at hc; simp at hc
    have := ((h.ok t' ht').inner hne).2.2.2
    have := (foldl_max_ge (t'.children.map Tree.height) 0).2 c.height (List.mem_map_of_mem hc)
    omega
  have hlc := cnt_level_le root hcl
  have hhc := cnt_height_le root hch
  have hcd : (childPos (postorder root)).Nodup := by
    have := (childPos_perm root).nodup_iff.2 hnd
    exact (List.nodup_append.1 this).1
  have hclt := child_po_lt root hpw
  obtain ⟨B, hB, hW⟩ := writeAll_spec A (postorder root) hnd hcd (fun t ht => by rw [h1]; exact hmem t ht)
    (fun t ht c hc => by rw [h1]; exact hmem c (child_mem root t c ht hc))
    (fun t ht => by rw [h4]; exact (h.ok t ht).nchild)
    (fun t ht => by rw [h3]; have := h.lev2 t ht; omega) (fun t ht => by rw [h3]; have := h.lev2 t ht; omega)
    (fun l => by rw [h2, h.leaf, hnl, Nat.zero_add]; exact hlc.2 l) (fun l => by rw [h2, h.leaf, hnl, Nat.zero_add]; exact hhc.2 l)
    [] (postorder root) A rfl
    ⟨rfl, rfl, rfl, rfl, by simp, by simp, by simp, by simp, by simp, by intro l; rw [h5]; rfl, by intro l; rfl, by intro l; rw [h6]; rfl, by intro l; rfl⟩
  have hB' : treeToArray root A = .ok B := by rw [treeToArray_eq]; exact hB
  have hkids : ∀ t ∈ postorder root, kids B t.po = t.children.map Tree.po := by
    intro t ht
    unfold kids
    rw [(hW.data t ht).1, hW.c4]
    apply List.ext_getElem
    · simp
    · intro i hi1 hi2
      simp only [List.length_map, List.length_range] at hi1
      simp only [List.getElem_map, List.getElem_range]
      rw [hW.children t ht i hi1]
      simp
  have hnN : B.nNode = root.nNode := hW.c1.trans h1
  have hkB : ∀ v, kids { B with parent := Function.update B.parent (root.nNode - 1) (-1) } v = kids B v := fun v => rfl
  have hrd := hW.data root (self_mem root)
  rw [hroot] at hrd
  refine ⟨B, hB', ?_, hnN, hW.c4.trans h4, hpos, fun t ht => ⟨(hW.data t ht).2.2.2.2.2, (hW.data t ht).2.2.2.1, (hW.data t ht).2.2.2.2.1, (hW.data t ht).1, hkids t ht⟩⟩
  have hleaf0 : ∀ t : Tree K, t.children.length = 0 ↔ t.children = [] := fun t => List.length_eq_zero_iff
  constructor <;> dsimp only
  · rw [hnN]; exact hnn
  · rw [hnN, Function.update_self]
  · rw [hnN, hrd.2.1, h.hl]
  · rw [hnN, hrd.2.2.2.1, h.hs]
  · rw [hnN, hrd.2.2.2.2.1, h.he]; omega
  · intro v hv
    obtain ⟨t, ht, rfl⟩ := hfind v (by rw [← hnN]; exact hv)
    rw [(hW.data t ht).1, hW.c4]; exact hW.wide t ht
  · intro v hv i hi
    obtain ⟨t, ht, rfl⟩ := hfind v (by rw [← hnN]; exact hv)
    rw [(hW.data t ht).1] at hi
    rw [hW.c4, hW.children t ht i hi]; exact Int.natCast_nonneg _
  · intro v hv i hi hi'
    obtain ⟨t, ht, rfl⟩ := hfind v (by rw [← hnN]; exact hv)
    rw [(hW.data t ht).1] at hi
    rw [hW.c4] at hi' ⊢
    exact hW.pad t ht i hi hi'
  · intro v hv c hc
    obtain ⟨t, ht, rfl⟩ := hfind v (by rw [← hnN]; exact hv)
    rw [hkB, hkids t ht, List.mem_map] at hc
    obtain ⟨d, hd, rfl⟩ := hc
    exact hclt t ht d hd
  · intro v hv c hc
    obtain ⟨t, ht, rfl⟩ := hfind v (by rw [← hnN]; exact hv)
    rw [hkB, hkids t ht, List.mem_map] at hc
    obtain ⟨d, hd, rfl⟩ := hc
    have := hclt t ht d hd
    have := hmem t ht
    rw [Function.update_of_ne (by omega)]
    exact hW.parent t ht d hd
  · intro c hc
    have hcm : c ∈ childPos (postorder root) ++ [root.po] := by
      rw [(childPos_perm root).mem_iff, hpos, List.mem_range]; omega
    rw [List.mem_append, List.mem_singleton] at hcm
    rcases hcm with hcm | hcm
    · unfold childPos at hcm
      obtain ⟨t, ht, hct⟩ := List.mem_flatMap.1 hcm
      obtain ⟨d, hd, rfl⟩ := List.mem_map.1 hct
      refine ⟨t.po, by rw [hnN]; exact hmem t ht, ?_, ?_⟩
      · rw [Function.update_of_ne (by omega)]; exact hW.parent t ht d hd
      · rw [hkB, hkids t ht]; exact hct
    · omega
  · intro v hv
    obtain ⟨t, ht, rfl⟩ := hfind v (by rw [← hnN]; exact hv)
    rw [hkB, hkids t ht]
    unfold childPos at hcd
    exact (List.nodup_flatMap.1 hcd).1 t ht
  · intro v hv c hc
    obtain ⟨t, ht, rfl⟩ := hfind v (by rw [← hnN]; exact hv)
    rw [hkB, hkids t ht, List.mem_map] at hc
    obtain ⟨d, hd, rfl⟩ := hc
    rw [(hW.data t ht).2.1, (hW.data d (child_mem root t d ht hd)).2.1]
    exact hcl t ht d hd
  · intro v hv hv0
    obtain ⟨t, ht, rfl⟩ := hfind v (by rw [← hnN]; exact hv)
    rw [(hW.data t ht).1] at hv0
    rw [(hW.data t ht).2.2.1]
    exact ((h.ok t ht).leaf ((hleaf0 t).1 hv0)).2
  · intro v hv hv0
    obtain ⟨t, ht, rfl⟩ := hfind v (by rw [← hnN]; exact hv)
    rw [(hW.data t ht).1] at hv0
    have hne : t.children ≠ [] := fun e => hv0 ((hleaf0 t).2 e)
    have hH := ((h.ok t ht).inner hne).2.2.2
    rw [hkB, hkids t ht, (hW.data t ht).2.2.1]
    constructor
    · intro c hc
      obtain ⟨d, hd, rfl⟩ := List.mem_map.1 hc
      rw [(hW.data d (child_mem root t d ht hd)).2.2.1]
      exact hch t ht d hd
    · rcases foldl_max_mem (t.children.map Tree.height) 0 with h0 | h0
      · obtain ⟨d, hd⟩ := List.exists_mem_of_ne_nil _ hne
        refine ⟨d.po, List.mem_map_of_mem hd, ?_⟩
        rw [(hW.data d (child_mem root t d ht hd)).2.2.1]
        have := hch t ht d hd
        omega
      · obtain ⟨d, hd, hd2⟩ := List.mem_map.1 h0
        refine ⟨d.po, List.mem_map_of_mem hd, ?_⟩
        rw [(hW.data d (child_mem root t d ht hd)).2.2.1]
        omega
  · rw [hW.c3, h3, hnN, hrd.2.2.1]
    have l2 := h.lev2 root (self_mem root)
    have hl := h.hl
    rcases h.lev3 with e | ⟨t', ht', e⟩
    · omega
    · have := level_le_height root hcl hch t' ht'
      omega
  · intro v hv
    obtain ⟨t, ht, rfl⟩ := hfind v (by rw [← hnN]; exact hv)
    rw [(hW.data t ht).2.2.2.1, (hW.data t ht).2.2.2.2.1]; exact (h.ok t ht).le
  · intro v hv
    obtain ⟨t, ht, rfl⟩ := hfind v (by rw [← hnN]; exact hv)
    rw [(hW.data t ht).2.2.2.2.1, ← hPn]; exact (h.ok t ht).inRange
  · intro v hv hv0
    obtain ⟨t, ht, rfl⟩ := hfind v (by rw [← hnN]; exact hv)
    rw [(hW.data t ht).1] at hv0
    have hne : t.children ≠ [] := fun e => hv0 ((hleaf0 t).2 e)
    have hT := ((h.ok t ht).inner hne).2.2.1
    rw [hkB, hkids t ht, (hW.data t ht).2.2.2.1, (hW.data t ht).2.2.2.2.1, List.map_map]
    have e : t.children.map ((fun c => (B.ptS c, B.ptE c)) ∘ Tree.po) = t.children.map (fun c => (c.s, c.e)) := by
      apply List.map_congr_left
      intro d hd
      have := hW.data d (child_mem root t d ht hd)
      show (B.ptS d.po, B.ptE d.po) = _
      rw [this.2.2.2.1, this.2.2.2.2.1]
    rw [e]; exact hT
  · rw [hW.c2, h2, h.leaf, hnl, hnN, filter_po hpos (fun t => t.children.isEmpty)]
    · rw [List.length_map, Nat.zero_add]; rfl
    · intro t ht
      rw [(hW.data t ht).1]
      cases hc : t.children <;> simp
  · intro v hv
    obtain ⟨t, ht, rfl⟩ := hfind v (by rw [← hnN]; exact hv)
    rw [(hW.data t ht).2.1, hW.c3, h3]; have := h.lev2 t ht; omega
  · intro l
    rw [hW.levelN, hW.c2, h2, h.leaf, hnl, Nat.zero_add]; exact hlc.2 l
  · intro l
    rw [hW.levelN, hW.c2, hW.levelNodes, hnN]
    rw [filter_po hpos (fun t => t.level = l)]
    intro t ht
    rw [(hW.data t ht).2.1]
  · intro l
    rw [hW.heightN, hW.c2, h2, h.leaf, hnl, Nat.zero_add]; exact hhc.2 l
  · intro l
    rw [hW.heightN, hW.c2, hW.heightNodes, hnN]
    rw [filter_po hpos (fun t => t.height = l)]
    intro t ht
    rw [(hW.data t ht).2.2.1]

end H2Pack.Part
