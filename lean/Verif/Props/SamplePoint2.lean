import Verif.Props.SamplePoint
import Verif.Props.BuildUJ3

/-!
# C82: the sample points of the nodes
-/

namespace H2Pack.Sample
open Finset
open H2Pack.Part (Arr kids ClusterTree Desc h2Pairs)

theorem partners_mem {adm : List (Nat × Nat)} {v w : Nat} : w ∈ partners adm v ↔ (v, w) ∈ adm ∨ (w, v) ∈ adm := by
  unfold partners
  rw [List.mem_flatMap]
  constructor
  · rintro ⟨⟨a, b⟩, h, hm⟩
    rcases List.mem_append.mp hm with h' | h'
    · split_ifs at h' with e
      · dsimp only at e h'; rw [List.mem_singleton] at h'; subst e; subst h'; exact Or.inl h
      · simp at h'
    · split_ifs at h' with e
      · dsimp only at e h'; rw [List.mem_singleton] at h'; subst e; subst h'; exact Or.inr h
      · simp at h'
  · rintro (h | h)
    · exact ⟨_, h, by simp⟩
    · exact ⟨_, h, by simp⟩

theorem partner_lt {S : In} {ri : Int} (H : Setting S ri) {v w : Nat} (h : w ∈ partners S.adm v) : w < S.arr.nNode ∧ v < S.arr.nNode := by
  rcases partners_mem.mp h with h | h
  · exact ⟨(H.pairs _ h).2, (H.pairs _ h).1⟩
  · exact ⟨(H.pairs _ h).1, (H.pairs _ h).2⟩

theorem clu_sub {S : In} {ri : Int} (H : Setting S ri) {clu : Nat → List Pt} (h : Refined S ri clu) {w : Nat} (hw : w < S.arr.nNode) : ∀ p ∈ clu w, p ∈ clusterPts S w := by
  intro p hp
  by_cases hl : S.minAdm ≤ S.arr.level w
  · exact (h.facts H.tree H.dim H.size w hw hl).1.subset hp
  · rw [h.above w hw (by omega)] at hp; simp at hp

theorem farInRange {S : In} {ri : Int} (H : Setting S ri) {clu : Nat → List Pt} (h : Refined S ri clu) : FarInRange S clu := by
  intro v p hp i
  obtain ⟨L, hL, hp⟩ := List.mem_flatten.mp hp
  obtain ⟨w, hw, rfl⟩ := List.mem_map.mp hL
  rw [admList_eq] at hw
  have := clu_sub H h (partner_lt H hw).1 p hp
  unfold clusterPts at this
  obtain ⟨j, _, rfl⟩ := List.mem_map.mp this
  exact H.range _

theorem rDown_nonneg {ri : Int} (h : 0 ≤ ri) : 0 ≤ rDown ri := by unfold rDown; split_ifs <;> omega

/-- **C82** (the two grid sizes).  The way down uses the size of the way up plus three, but at least 10 if it was above 3. -/
theorem C82_down_size (ri : Int) : rDown ri = if ri ≤ 3 then ri + 3 else max 10 (ri + 3) := by
  unfold rDown
  split_ifs <;> omega

/-- The two sweeps. -/
theorem samplePoints_cases {S : In} {ri : Int} (H : Setting S ri) {o1 o2 o3 : Nat → List Nat} (h1 : ∀ l, LevelOrder S l (o1 l)) (h2 : ∀ l, LevelOrder S l (o2 l)) (h3 : ∀ l, LevelOrder S l (o3 l)) :
    (samplePoints S ri o1 o2 o3 = .ub ∧ ((¬ ∃ clu, upSweep S ri o1 o2 = .ok clu) ∨ ∃ clu, Refined S ri clu ∧ ∃ v < S.arr.nNode, S.minAdm ≤ S.arr.level v ∧ S.admList v ≠ [] ∧ ∃ sp', downNode S (rDown ri) clu v sp' = .ub)) ∨
    ∃ clu sp, samplePoints S ri o1 o2 o3 = .ok sp ∧ Refined S ri clu ∧ Sampled S (rDown ri) clu sp := by
  unfold samplePoints
  rcases upSweep_cases H.tree H.dim H.size h1 h2 with ⟨h, _⟩ | ⟨clu, h, hr⟩
  · left; rw [h]; exact ⟨rfl, Or.inl (by rintro ⟨clu, h'⟩; simp at h')⟩
  · rw [h, Res.bind_ok]
    rcases downSweep_cases H.tree H.dim (rDown_nonneg H.size) (farInRange H hr) h3 with ⟨h', hv⟩ | ⟨sp, h', hs⟩
    · exact Or.inl ⟨h', Or.inr ⟨clu, hr, hv⟩⟩
    · exact Or.inr ⟨clu, sp, h', hr, hs⟩

/-- **C82** (outcome).  Whatever the orders in which the threads take the nodes of a level, the selection ends, and its result, unless undefined, is this: every cluster has refined points, chosen from its
points or from the refined points of its children, and every node has sample points, chosen from those of its parent and from the refined points of its partners. -/
theorem C82_points (S : In) (ri : Int) (H : Setting S ri) (o1 o2 o3 : Nat → List Nat) (h1 : ∀ l, LevelOrder S l (o1 l)) (h2 : ∀ l, LevelOrder S l (o2 l)) (h3 : ∀ l, LevelOrder S l (o3 l)) :
    samplePoints S ri o1 o2 o3 = .ub ∨
    ∃ clu sp, samplePoints S ri o1 o2 o3 = .ok sp ∧ RefinedPoints S ri clu ∧ SamplePoints S (rDown ri) clu sp := by
  rcases samplePoints_cases H h1 h2 h3 with h | ⟨clu, sp, h, hr, hs⟩
  · exact Or.inl h.1
  · exact Or.inr ⟨clu, sp, h, refined_points H.dim H.size hr, sampled_points H.dim (rDown_nonneg H.size) (farInRange H hr) hs⟩

/-- **C82** (schedule).  The outcome does not depend on the orders. -/
theorem C82_schedule (S : In) (ri : Int) (H : Setting S ri) (o1 o2 o3 o1' o2' o3' : Nat → List Nat) (h1 : ∀ l, LevelOrder S l (o1 l)) (h2 : ∀ l, LevelOrder S l (o2 l)) (h3 : ∀ l, LevelOrder S l (o3 l))
    (h1' : ∀ l, LevelOrder S l (o1' l)) (h2' : ∀ l, LevelOrder S l (o2' l)) (h3' : ∀ l, LevelOrder S l (o3' l)) : samplePoints S ri o1 o2 o3 = samplePoints S ri o1' o2' o3' := by
  unfold samplePoints
  rw [upSweep_perm H.tree H.dim H.size h1 h2 h1' h2']
  rcases upSweep_cases H.tree H.dim H.size h1' h2' with ⟨h, _⟩ | ⟨clu, h, hr⟩
  · rw [h]; rfl
  · rw [h, Res.bind_ok, Res.bind_ok]
    exact downSweep_perm H.tree H.dim (rDown_nonneg H.size) (farInRange H hr) h3 h3'

theorem sampled_of {S : In} {ri : Int} (H : Setting S ri) {o1 o2 o3 : Nat → List Nat} (h1 : ∀ l, LevelOrder S l (o1 l)) (h2 : ∀ l, LevelOrder S l (o2 l)) (h3 : ∀ l, LevelOrder S l (o3 l)) {sp : Nat → List Pt}
    (h : samplePoints S ri o1 o2 o3 = .ok sp) : ∃ clu, Refined S ri clu ∧ Sampled S (rDown ri) clu sp := by
  rcases samplePoints_cases H h1 h2 h3 with h' | ⟨clu, sp', h', hr, hs⟩
  · rw [h'.1] at h; simp at h
  · rw [h'] at h; obtain rfl := Res.ok.inj h; exact ⟨clu, hr, hs⟩

/-- Descending one level. -/
theorem desc_child {A : Arr ℝ} {v u : Nat} (h : v ∈ kids A u) {w : Nat} (hd : Desc A u w) : Desc A v w := (Desc.step h (Desc.refl v)).trans hd

/-- **C82** (source).  Every sample point of a node is a point of the cluster of a partner of the node or of one of its ancestors. -/
theorem C82_source (S : In) (ri : Int) (H : Setting S ri) (o1 o2 o3 : Nat → List Nat) (h1 : ∀ l, LevelOrder S l (o1 l)) (h2 : ∀ l, LevelOrder S l (o2 l)) (h3 : ∀ l, LevelOrder S l (o3 l)) (sp : Nat → List Pt)
    (h : samplePoints S ri o1 o2 o3 = .ok sp) : ∀ v < S.arr.nNode, ∀ p ∈ sp v, ∃ u < S.arr.nNode, Desc S.arr v u ∧ ∃ w ∈ partners S.adm u, p ∈ clusterPts S w := by
  obtain ⟨clu, hr, hs⟩ := sampled_of H h1 h2 h3 h
  have hR := farInRange H hr
  have key : ∀ l v, v < S.arr.nNode → S.arr.level v = l → ∀ p ∈ sp v, ∃ u < S.arr.nNode, Desc S.arr v u ∧ ∃ w ∈ partners S.adm u, p ∈ clusterPts S w := by
    intro l
    induction l with
    | zero =>
      intro v hv hl p hp
      by_cases hm : S.minAdm ≤ S.arr.level v
      · obtain ⟨I, hI, hN⟩ := hs.node v hv hm
        have hI0 : I = [] := by
          rcases hI with h | ⟨u, hu, _, hk, _⟩
          · exact h.2
          · have := H.tree.childLevel u hu v hk; omega
        subst hI0
        split_ifs at hN with h0
        · rw [hN] at hp; simp at hp
        · obtain ⟨y, hy, hd⟩ := hN
          have hp' := (refineDown_inv H.dim (rDown_nonneg H.size) hd).2.1.subset hp
          rw [List.nil_append] at hp'
          rcases farPoints_cases H.dim S.alg (rDown_nonneg H.size) (hR v) with e | ⟨y', e, f, _⟩
          · rw [hy] at e; simp at e
          · rw [hy] at e; obtain rfl := Res.ok.inj e
            obtain ⟨L, hL, hpL⟩ := List.mem_flatten.mp (f p hp')
            obtain ⟨w, hw, rfl⟩ := List.mem_map.mp hL
            rw [admList_eq] at hw
            exact ⟨v, hv, Desc.refl v, w, hw, clu_sub H hr (partner_lt H hw).1 p hpL⟩
      · rw [hs.above v hv (by omega)] at hp; simp at hp
    | succ l ih =>
      intro v hv hl p hp
      by_cases hm : S.minAdm ≤ S.arr.level v
      · obtain ⟨I, hI, hN⟩ := hs.node v hv hm
        have hI' : ∀ p ∈ I, ∃ u < S.arr.nNode, Desc S.arr v u ∧ ∃ w ∈ partners S.adm u, p ∈ clusterPts S w := by
          intro p hp
          rcases hI with h | ⟨u, hu, _, hk, hI⟩
          · rw [h.2] at hp; simp at hp
          · rw [hI] at hp
            split_ifs at hp
            · simp at hp
            · have := H.tree.childLevel u hu v hk
              obtain ⟨a, b, c, d⟩ := ih u hu (by omega) p hp
              exact ⟨a, b, desc_child hk c, d⟩
        split_ifs at hN with h0
        · rw [hN] at hp; exact hI' p hp
        · obtain ⟨y, hy, hd⟩ := hN
          have hp' := (refineDown_inv H.dim (rDown_nonneg H.size) hd).2.1.subset hp
          rcases List.mem_append.mp hp' with hp' | hp'
          · exact hI' p hp'
          · rcases farPoints_cases H.dim S.alg (rDown_nonneg H.size) (hR v) with e | ⟨y', e, f, _⟩
            · rw [hy] at e; simp at e
            · rw [hy] at e; obtain rfl := Res.ok.inj e
              obtain ⟨L, hL, hpL⟩ := List.mem_flatten.mp (f p hp')
              obtain ⟨w, hw, rfl⟩ := List.mem_map.mp hL
              rw [admList_eq] at hw
              exact ⟨v, hv, Desc.refl v, w, hw, clu_sub H hr (partner_lt H hw).1 p hpL⟩
      · rw [hs.above v hv (by omega)] at hp; simp at hp
  exact fun v hv => key _ v hv rfl

theorem inherits_size {S : In} {r : Int} {clu sp : Nat → List Pt} (hd : 0 < S.dim) (hr : 0 ≤ r) (hs : Sampled S r clu sp) {v : Nat} {I : List Pt} (hI : Inherits S sp v I) :
    I.length ≤ (r.toNat + 1) ^ S.dim := by
  rcases hI with h | ⟨u, hu, hm, hk, hI⟩
  · rw [h.2]; exact Nat.zero_le _
  · rw [hI]
    split_ifs with h0
    · exact Nat.zero_le _
    · obtain ⟨I', _, hN⟩ := hs.node u hu hm
      rw [if_neg h0] at hN
      obtain ⟨y, _, h'⟩ := hN
      exact (refineDown_inv hd hr h').2.2.2

/-- **C82** (size).  No node has more than `(r + 1) ^ dim` sample points, where `r` is `r_down`. -/
theorem C82_size (S : In) (ri : Int) (H : Setting S ri) (o1 o2 o3 : Nat → List Nat) (h1 : ∀ l, LevelOrder S l (o1 l)) (h2 : ∀ l, LevelOrder S l (o2 l)) (h3 : ∀ l, LevelOrder S l (o3 l)) (sp : Nat → List Pt)
    (h : samplePoints S ri o1 o2 o3 = .ok sp) : ∀ v < S.arr.nNode, (sp v).length ≤ ((rDown ri).toNat + 1) ^ S.dim := by
  obtain ⟨clu, hr, hs⟩ := sampled_of H h1 h2 h3 h
  intro v hv
  by_cases hm : S.minAdm ≤ S.arr.level v
  · obtain ⟨I, hI, hN⟩ := hs.node v hv hm
    split_ifs at hN with h0
    · rw [hN]; exact inherits_size H.dim (rDown_nonneg H.size) hs hI
    · obtain ⟨y, _, h'⟩ := hN
      exact (refineDown_inv H.dim (rDown_nonneg H.size) h').2.2.2
  · rw [hs.above v hv (by omega)]; exact Nat.zero_le _

/-- **C82** (nodes without sample points).  A node at `min_adm_level` or below has no sample points exactly if it has no partner and is at `min_adm_level` or its parent has no partner. -/
theorem C82_empty (S : In) (ri : Int) (H : Setting S ri) (o1 o2 o3 : Nat → List Nat) (h1 : ∀ l, LevelOrder S l (o1 l)) (h2 : ∀ l, LevelOrder S l (o2 l)) (h3 : ∀ l, LevelOrder S l (o3 l)) (sp : Nat → List Pt)
    (h : samplePoints S ri o1 o2 o3 = .ok sp) : ∀ v < S.arr.nNode, S.minAdm ≤ S.arr.level v →
      (sp v = [] ↔ partners S.adm v = [] ∧ (S.arr.level v = S.minAdm ∨ ∃ u < S.arr.nNode, v ∈ kids S.arr u ∧ partners S.adm u = [])) := by
  obtain ⟨clu, hr, hs⟩ := sampled_of H h1 h2 h3 h
  intro v hv hm
  obtain ⟨I, hI, hN⟩ := hs.node v hv hm
  have hrd := rDown_nonneg H.size
  simp only [← admList_eq]
  split_ifs at hN with h0
  · rw [hN]
    constructor
    · intro hI0
      refine ⟨h0, ?_⟩
      rcases hI with h | ⟨u, hu, hmu, hk, hI⟩
      · exact Or.inl h.1
      · right
        refine ⟨u, hu, hk, ?_⟩
        by_contra hne
        rw [if_neg hne] at hI
        obtain ⟨I', _, hN'⟩ := hs.node u hu hmu
        rw [if_neg hne] at hN'
        obtain ⟨y, _, h'⟩ := hN'
        exact (refineDown_inv H.dim hrd h').2.2.1 (hI ▸ hI0)
    · rintro ⟨_, hl | ⟨u, hu, hk, h0u⟩⟩
      · rcases hI with h | ⟨u, hu, hmu, hk, hI⟩
        · exact h.2
        · have := H.tree.childLevel u hu v hk; omega
      · rcases hI with h | ⟨u', hu', _, hk', hI⟩
        · exact h.2
        · have e1 := H.tree.parentOfChild u hu v hk
          have e2 := H.tree.parentOfChild u' hu' v hk'
          rw [e1] at e2
          have : u = u' := by exact_mod_cast e2
          subst this
          rw [hI, if_pos h0u]
  · obtain ⟨y, _, h'⟩ := hN
    exact ⟨fun h => absurd h (refineDown_inv H.dim hrd h').2.2.1, fun h => absurd h.1 h0⟩

/-- **C82** (defined).  With algorithm 0, distinct points, and partners whose refined points are not all equal, the selection is defined. -/
theorem C82_defined (S : In) (ri : Int) (H : Setting S ri) (o1 o2 o3 : Nat → List Nat) (h1 : ∀ l, LevelOrder S l (o1 l)) (h2 : ∀ l, LevelOrder S l (o2 l)) (h3 : ∀ l, LevelOrder S l (o3 l))
    (halg : S.alg = 0) (hD : Distinct S) (hF : ∀ clu, RefinedPoints S ri clu → ∀ v < S.arr.nNode, S.minAdm ≤ S.arr.level v → partners S.adm v ≠ [] → Spread S.dim ((partners S.adm v).map clu).flatten) :
    ∃ sp, samplePoints S ri o1 o2 o3 = .ok sp := by
  obtain ⟨clu0, hu, _⟩ := upSweep_ok H.tree H.dim H.size hD h1 h2
  rcases samplePoints_cases H h1 h2 h3 with ⟨_, h⟩ | ⟨clu, sp, h, _⟩
  · exfalso
    rcases h with h | ⟨clu, hr, v, hv, hm, h0, sp', hub⟩
    · exact h ⟨_, hu⟩
    · have hs := hF clu (refined_points H.dim H.size hr) v hv hm (by rw [← admList_eq]; exact h0)
      rw [← admList_eq] at hs
      rcases farPoints_spread H.dim S.alg (rDown_nonneg H.size) (farInRange H hr v) hs with ⟨y, e, _, _, ha, _⟩ | ⟨h', _⟩
      · unfold downNode at hub
        rw [e, Res.bind_ok] at hub
        rw [ha halg] at hub
        obtain ⟨R, e', _⟩ := (refineDown_cases H.dim (rDown_nonneg H.size) (sp' v ++ ((S.admList v).map clu).flatten)).2 (hs.mono fun p hp => List.mem_append_right _ hp)
        rw [e'] at hub; simp at hub
      · exact h' halg
  · exact ⟨sp, h⟩

/-- **C82** (undefined).  If the refined points of the partners of a node all coincide, the distribution over the sides of their box is not a number: the selection is undefined. -/
theorem C82_coincide (S : In) (ri : Int) (H : Setting S ri) (o1 o2 o3 : Nat → List Nat) (h1 : ∀ l, LevelOrder S l (o1 l)) (h2 : ∀ l, LevelOrder S l (o2 l)) (h3 : ∀ l, LevelOrder S l (o3 l))
    (hF : ∀ clu, RefinedPoints S ri clu → ∃ v < S.arr.nNode, S.minAdm ≤ S.arr.level v ∧ ((partners S.adm v).map clu).flatten ≠ [] ∧ ¬ Spread S.dim ((partners S.adm v).map clu).flatten) :
    samplePoints S ri o1 o2 o3 = .ub := by
  rcases samplePoints_cases H h1 h2 h3 with h | ⟨clu, sp, h, hr, hs⟩
  · exact h.1
  · exfalso
    obtain ⟨v, hv, hm, hne, hns⟩ := hF clu (refined_points H.dim H.size hr)
    have h0 : S.admList v ≠ [] := by rw [admList_eq]; intro h; rw [h] at hne; exact hne rfl
    obtain ⟨I, _, hN⟩ := hs.node v hv hm
    rw [if_neg h0] at hN
    obtain ⟨y, hy, _⟩ := hN
    rw [← admList_eq] at hne hns
    rw [farPoints_ub S.alg _ hne (farInRange H hr v) hns] at hy
    simp at hy

/-- **C82** (a single far point).  If the only partner of a node is a leaf with one point, the selection is undefined. -/
theorem C82_single (S : In) (ri : Int) (H : Setting S ri) (o1 o2 o3 : Nat → List Nat) (h1 : ∀ l, LevelOrder S l (o1 l)) (h2 : ∀ l, LevelOrder S l (o2 l)) (h3 : ∀ l, LevelOrder S l (o3 l))
    (v w : Nat) (hm : S.minAdm ≤ S.arr.level v) (hp : partners S.adm v = [w]) (hw : S.minAdm ≤ S.arr.level w) (hleaf : S.arr.nChild w = 0) (h1p : S.arr.ptS w = S.arr.ptE w) :
    samplePoints S ri o1 o2 o3 = .ub := by
  have hlt := partner_lt H (v := v) (w := w) (by rw [hp]; simp)
  refine C82_coincide S ri H o1 o2 o3 h1 h2 h3 fun clu hc => ⟨v, hlt.2, hm, ?_⟩
  obtain ⟨G, hG, hc'⟩ := hc.node w hlt.1 hw
  rw [if_pos hleaf] at hG
  have hGe : G = [S.pt (S.arr.ptS w)] := by rw [hG]; unfold clusterPts; rw [← h1p]; simp
  have : clu w = [S.pt (S.arr.ptS w)] := by
    rcases hc' with h | h
    · rw [h.2, hGe]
    · rw [hGe] at h; simp at h
  rw [hp]
  simp only [List.map_cons, List.map_nil, this, List.flatten_cons, List.flatten_nil, List.append_nil]
  refine ⟨by simp, ?_⟩
  rintro ⟨p, hp, q, hq, i, _, hne⟩
  rw [List.mem_singleton] at hp hq
  rw [hp, hq] at hne
  exact hne rfl

/-- **C82** (partners above `min_adm_level`).  Leaves above `min_adm_level` have no refined points: a node at `min_adm_level` all of whose partners are above it makes the selection undefined. -/
theorem C82_above (S : In) (ri : Int) (H : Setting S ri) (o1 o2 o3 : Nat → List Nat) (h1 : ∀ l, LevelOrder S l (o1 l)) (h2 : ∀ l, LevelOrder S l (o2 l)) (h3 : ∀ l, LevelOrder S l (o3 l))
    (v : Nat) (hm : S.arr.level v = S.minAdm) (hp : partners S.adm v ≠ []) (hw : ∀ w ∈ partners S.adm v, S.arr.level w < S.minAdm) : samplePoints S ri o1 o2 o3 = .ub := by
  obtain ⟨w0, hw0⟩ := List.exists_mem_of_ne_nil _ hp
  have hv := (partner_lt H hw0).2
  rcases samplePoints_cases H h1 h2 h3 with h | ⟨clu, sp, h, hr, hs⟩
  · exact h.1
  · exfalso
    obtain ⟨I, hI, hN⟩ := hs.node v hv (by omega)
    rw [if_neg (by rw [admList_eq]; exact hp)] at hN
    obtain ⟨y, hy, hd⟩ := hN
    have hI0 : I = [] := by
      rcases hI with h | ⟨u, hu, hmu, hk, _⟩
      · exact h.2
      · have := H.tree.childLevel u hu v hk; omega
    have hfl : ((S.admList v).map clu).flatten = [] := by
      rw [List.flatten_eq_nil_iff]
      intro L hL
      obtain ⟨w, hw', rfl⟩ := List.mem_map.mp hL
      rw [admList_eq] at hw'
      exact hr.above w (partner_lt H hw').1 (hw w hw')
    rw [farPoints_nil H.dim S.alg (rDown_nonneg H.size) hfl] at hy
    obtain rfl := Res.ok.inj hy
    rw [hI0] at hd
    have := (refineDown_inv H.dim (rDown_nonneg H.size) hd).1.ne_nil
    exact this rfl

end H2Pack.Sample
