import Verif.Proof.Sample5

/-! # The refined points and the sample points -/

namespace H2Pack.Sample
open Finset
open H2Pack.Part (Arr kids ClusterTree Tiles)

theorem tiles_le : ∀ (L : List (Nat × Nat)) (a b : Nat), Tiles a b L → a ≤ b := by
  intro L
  induction L with
  | nil => intro a b h; exact le_of_eq h
  | cons x L ih => rintro a b ⟨h1, h2, h3⟩; have := ih _ _ h3; omega

theorem tiles_range : ∀ (L : List (Nat × Nat)) (a b : Nat), Tiles a b L → L.flatMap (fun x => List.range' x.1 (x.2 - x.1 + 1)) = List.range' a (b - a) := by
  intro L
  induction L with
  | nil => intro a b h; have : a = b := h; subst this; simp
  | cons x L ih =>
    rintro a b ⟨h1, h2, h3⟩
    have h4 := tiles_le _ _ _ h3
    rw [List.flatMap_cons, ih _ _ h3]
    subst h1
    have e : b - x.1 = (x.2 - x.1 + 1) + (b - (x.2 + 1)) := by omega
    have e2 : x.2 + 1 = x.1 + (x.2 - x.1 + 1) := by omega
    have e3 := List.range'_append_1 (s := x.1) (m := x.2 - x.1 + 1) (n := b - (x.2 + 1))
    rw [← e2] at e3
    rw [e, e3]

theorem flatMap_sublist {α β : Type} {f g : α → List β} : ∀ (L : List α), (∀ a ∈ L, (f a).Sublist (g a)) → (L.flatMap f).Sublist (L.flatMap g) := by
  intro L
  induction L with
  | nil => intro _; simp
  | cons a L ih =>
    intro h
    rw [List.flatMap_cons, List.flatMap_cons]
    exact (h a List.mem_cons_self).append (ih fun b hb => h b (List.mem_cons_of_mem _ hb))

theorem clusterPts_kids {S : In} (T : ClusterTree S.arr S.nPoint) {v : Nat} (hv : v < S.arr.nNode) (h : S.arr.nChild v ≠ 0) :
    (kids S.arr v).flatMap (clusterPts S) = clusterPts S v := by
  have := tiles_range _ _ _ (T.tile v hv h)
  rw [List.flatMap_map] at this
  unfold clusterPts
  have e : (kids S.arr v).flatMap (fun c => (List.range' (S.arr.ptS c) (S.arr.ptE c - S.arr.ptS c + 1)).map S.pt) =
      ((kids S.arr v).flatMap fun c => List.range' (S.arr.ptS c) (S.arr.ptE c - S.arr.ptS c + 1)).map S.pt := by
    rw [List.map_flatMap]
  rw [e, this]
  have := T.clusterLe v hv
  congr 2; omega

theorem kid_lt {S : In} (T : ClusterTree S.arr S.nPoint) {v c : Nat} (hv : v < S.arr.nNode) (hc : c ∈ kids S.arr v) : c < S.arr.nNode := lt_trans (T.childLt v hv c hc) hv

theorem gather_sub {S : In} (T : ClusterTree S.arr S.nPoint) {v : Nat} (hv : v < S.arr.nNode) {clu : Nat → List Pt} (h : ∀ c ∈ kids S.arr v, (clu c).Sublist (clusterPts S c)) :
    (gatherUp S v clu).Sublist (clusterPts S v) := by
  unfold gatherUp
  split_ifs with h0
  · exact List.Sublist.refl _
  · rw [← clusterPts_kids T hv h0]
    exact flatMap_sublist _ h

theorem refineUp_inv {dim : Nat} (hd : 0 < dim) {r : Int} (hr : 0 ≤ r) {P R : List Pt} (h : refineUp dim r P = .ok R) :
    R.Sublist P ∧ (P ≠ [] → R ≠ []) ∧ R.length ≤ max 5 ((r.toNat + 1) ^ dim) := by
  obtain ⟨h1, h2⟩ := refineUp_cases hd hr P
  by_cases hc : P.length ≤ 5 ∨ Spread dim P
  · obtain ⟨R', e, f⟩ := h2 hc
    rw [h] at e
    obtain rfl := Res.ok.inj e
    exact f
  · push Not at hc
    rw [h1 ⟨hc.1, hc.2⟩] at h; simp at h

theorem refineDown_inv {dim : Nat} (hd : 0 < dim) {r : Int} (hr : 0 ≤ r) {P R : List Pt} (h : refineDown dim r P = .ok R) :
    Spread dim P ∧ R.Sublist P ∧ R ≠ [] ∧ R.length ≤ (r.toNat + 1) ^ dim := by
  obtain ⟨h1, h2⟩ := refineDown_cases hd hr P
  by_cases hc : Spread dim P
  · obtain ⟨R', e, f⟩ := h2 hc
    rw [h] at e
    obtain rfl := Res.ok.inj e
    exact ⟨hc, f⟩
  · rw [h1 hc] at h; simp at h

theorem gather_ne {S : In} {v : Nat} {clu : Nat → List Pt} (h : ∀ c ∈ kids S.arr v, clu c ≠ []) : gatherUp S v clu ≠ [] := by
  unfold gatherUp
  split_ifs with h0
  · simp
  · have : kids S.arr v ≠ [] := by intro h'; apply h0; have := congrArg List.length h'; simpa [kids] using this
    obtain ⟨c, hc⟩ := List.exists_mem_of_ne_nil _ this
    obtain ⟨p, hp⟩ := List.exists_mem_of_ne_nil _ (h c hc)
    exact List.ne_nil_of_mem (List.mem_flatMap.mpr ⟨c, hc, hp⟩)

theorem Refined.facts {S : In} (T : ClusterTree S.arr S.nPoint) (hd : 0 < S.dim) {r : Int} (hr : 0 ≤ r) {clu : Nat → List Pt} (h : Refined S r clu) :
    ∀ v < S.arr.nNode, S.minAdm ≤ S.arr.level v → (clu v).Sublist (clusterPts S v) ∧ clu v ≠ [] ∧ (clu v).length ≤ max 5 ((r.toNat + 1) ^ S.dim) := by
  intro v
  induction v using Nat.strong_induction_on with
  | _ v ih =>
    intro hv hl
    obtain ⟨h1, h2, h3⟩ := refineUp_inv hd hr (h.node v hv hl)
    have hk : ∀ c ∈ kids S.arr v, (clu c).Sublist (clusterPts S c) ∧ clu c ≠ [] := fun c hc => by
      have := T.childLevel v hv c hc
      obtain ⟨a, b, _⟩ := ih c (T.childLt v hv c hc) (kid_lt T hv hc) (by omega)
      exact ⟨a, b⟩
    exact ⟨h1.trans (gather_sub T hv fun c hc => (hk c hc).1), h2 (gather_ne fun c hc => (hk c hc).2), h3⟩

theorem Refined.unique {S : In} (T : ClusterTree S.arr S.nPoint) {r : Int} {clu clu' : Nat → List Pt} (h : Refined S r clu) (h' : Refined S r clu') :
    ∀ v < S.arr.nNode, clu v = clu' v := by
  intro v
  induction v using Nat.strong_induction_on with
  | _ v ih =>
    intro hv
    by_cases hl : S.minAdm ≤ S.arr.level v
    · have e : gatherUp S v clu = gatherUp S v clu' := gatherUp_congr fun c hc => ih c (T.childLt v hv c hc) (kid_lt T hv hc)
      have := h.node v hv hl
      rw [e, h'.node v hv hl] at this
      exact (Res.ok.inj this).symm
    · rw [h.above v hv (by omega), h'.above v hv (by omega)]


theorem spread_of_sub {S : In} (hD : Distinct S) {v : Nat} (hE : S.arr.ptE v < S.nPoint) {P : List Pt} (h : P.Sublist (clusterPts S v)) (h2 : 2 ≤ P.length) : Spread S.dim P := by
  obtain ⟨idx, hi, rfl⟩ := List.sublist_map_iff.mp h
  rw [List.length_map] at h2
  have hn : idx.Pairwise (· < ·) := List.Pairwise.sublist hi List.pairwise_lt_range'
  match idx, h2, hn, hi with
  | a :: b :: L, _, hn, hi =>
    have hab : a < b := (List.pairwise_cons.mp hn).1 b (by simp)
    have hb := List.mem_range'_1.mp (hi.subset (show b ∈ a :: b :: L by simp))
    have ha := List.mem_range'_1.mp (hi.subset (show a ∈ a :: b :: L by simp))
    obtain ⟨d, hd, hne⟩ := hD a (by omega) b (by omega) (by omega)
    exact ⟨S.pt a, by simp, S.pt b, by simp, d, hd, hne⟩

/-- With distinct points the bottom-up sweep is defined. -/
theorem upSweep_ok {S : In} (T : ClusterTree S.arr S.nPoint) (hd : 0 < S.dim) {r : Int} (hr : 0 ≤ r) (hD : Distinct S) {o1 o2 : Nat → List Nat} (h1 : ∀ l, LevelOrder S l (o1 l)) (h2 : ∀ l, LevelOrder S l (o2 l)) :
    ∃ clu, upSweep S r o1 o2 = .ok clu ∧ Refined S r clu := by
  rcases upSweep_cases T hd hr h1 h2 with ⟨_, clu, v, hv, hl, hw, hub⟩ | h
  · exfalso
    have hsub : ∀ w < S.arr.nNode, S.arr.level v < S.arr.level w → (clu w).Sublist (clusterPts S w) := by
      intro w
      induction w using Nat.strong_induction_on with
      | _ w ih =>
        intro hwn hlt
        refine (refineUp_inv hd hr (hw w hwn hlt)).1.trans (gather_sub T hwn fun c hc => ?_)
        have := T.childLevel w hwn c hc
        exact ih c (T.childLt w hwn c hc) (kid_lt T hwn hc) (by omega)
    have hg := gather_sub T hv fun c hc => hsub c (kid_lt T hv hc) (by have := T.childLevel v hv c hc; omega)
    have hc : (gatherUp S v clu).length ≤ 5 ∨ Spread S.dim (gatherUp S v clu) := by
      by_cases h5 : (gatherUp S v clu).length ≤ 5
      · exact Or.inl h5
      · exact Or.inr (spread_of_sub hD (T.clusterLt v hv) hg (by omega))
    obtain ⟨R, e, _⟩ := (refineUp_cases hd hr (gatherUp S v clu)).2 hc
    rw [hub] at e; simp at e
  · exact h

/-! ### Top-down -/

theorem down_indep {S : In} (T : ClusterTree S.arr S.nPoint) {r : Int} {clu : Nat → List Pt} {l : Nat} {o : List Nat} (ho : LevelOrder S l o) :
    Indep (fun v => v :: kids S.arr v) (downNode S r clu) (o.filter fun v => S.admList v ≠ []) where
  nodup := ho.nodup.filter _
  disj := fun v hv w hw hne u hu hu' => by
    obtain ⟨hv1, hv2⟩ := ho.mem.mp (List.mem_filter.mp hv).1
    obtain ⟨hw1, hw2⟩ := ho.mem.mp (List.mem_filter.mp hw).1
    rcases List.mem_cons.mp hu with rfl | hu
    · rcases List.mem_cons.mp hu' with h | h
      · exact hne h
      · have := T.childLevel w hw1 u h; omega
    · rcases List.mem_cons.mp hu' with rfl | h
      · have := T.childLevel v hv1 u hu; omega
      · have e1 := T.parentOfChild v hv1 u hu
        have e2 := T.parentOfChild w hw1 u h
        rw [e1] at e2
        exact hne (by exact_mod_cast e2)
  reads := fun v hv s s' hs => by
    unfold downNode
    rw [hs v fun w hw hne hvw => ?_]
    obtain ⟨hv1, hv2⟩ := ho.mem.mp (List.mem_filter.mp hv).1
    obtain ⟨hw1, hw2⟩ := ho.mem.mp (List.mem_filter.mp hw).1
    rcases List.mem_cons.mp hvw with h | h
    · exact hne h.symm
    · have := T.childLevel w hw1 v h; omega

/-- The coordinates of the refined points of all partners are in range. -/
def FarInRange (S : In) (clu : Nat → List Pt) : Prop := ∀ v, InRange ((S.admList v).map clu).flatten

theorem downNode_inv {S : In} {r : Int} {clu : Nat → List Pt} {v : Nat} {sp : Nat → List Pt} {P : List Pt} (h : downNode S r clu v sp = .ok P) :
    ∃ y, farPoints S.dim S.alg r ((S.admList v).map clu) = .ok y ∧ refineDown S.dim r (sp v ++ y) = .ok P := by
  unfold downNode at h
  cases hf : farPoints S.dim S.alg r ((S.admList v).map clu) with
  | ok y => rw [hf, Res.bind_ok] at h; exact ⟨y, rfl, h⟩
  | ub => rw [hf] at h; simp at h
  | diverge => rw [hf] at h; cases h

theorem downNode_no_diverge {S : In} (hd : 0 < S.dim) {r : Int} (hr : 0 ≤ r) {clu : Nat → List Pt} (hR : FarInRange S clu) (v : Nat) (sp : Nat → List Pt) : downNode S r clu v sp ≠ .diverge := by
  unfold downNode
  rcases farPoints_cases hd S.alg hr (hR v) with h | ⟨y, h, _⟩
  · rw [h]; simp
  · rw [h, Res.bind_ok]; exact refineDown_no_diverge hd hr _

structure DownInv (S : In) (r : Int) (clu : Nat → List Pt) (t : Nat) (sp : Nat → List Pt) : Prop where
  node : ∀ v < S.arr.nNode, S.minAdm ≤ S.arr.level v → S.arr.level v < t → ∃ I, Inherits S sp v I ∧
    if S.admList v = [] then sp v = I else ∃ y, farPoints S.dim S.alg r ((S.admList v).map clu) = .ok y ∧ refineDown S.dim r (I ++ y) = .ok (sp v)
  cur : ∀ v < S.arr.nNode, S.arr.level v = t → Inherits S sp v (sp v)
  rest : ∀ v < S.arr.nNode, t < S.arr.level v → sp v = []
  above : ∀ v < S.arr.nNode, S.arr.level v < S.minAdm → sp v = []

theorem inherits_congr {S : In} {sp sp' : Nat → List Pt} {v : Nat} {I : List Pt} (h : Inherits S sp v I) (hu : ∀ u < S.arr.nNode, v ∈ kids S.arr u → S.admList u ≠ [] → sp' u = sp u) : Inherits S sp' v I := by
  rcases h with h | ⟨u, h1, h2, h3, h4⟩
  · exact Or.inl h
  · refine Or.inr ⟨u, h1, h2, h3, ?_⟩
    rw [h4]
    by_cases h0 : S.admList u = []
    · rw [if_pos h0, if_pos h0]
    · rw [if_neg h0, if_neg h0, hu u h1 h3 h0]

theorem downLevel_step {S : In} (T : ClusterTree S.arr S.nPoint) (hd : 0 < S.dim) {r : Int} (hr : 0 ≤ r) {clu : Nat → List Pt} (hR : FarInRange S clu) {t : Nat} (hm : S.minAdm ≤ t) {o : List Nat} (ho : LevelOrder S t o)
    {sp : Nat → List Pt} (hI : DownInv S r clu t sp) :
    ((∃ v < S.arr.nNode, S.minAdm ≤ S.arr.level v ∧ S.admList v ≠ [] ∧ downNode S r clu v sp = .ub) ∧ downLevel S r clu o sp = .ub) ∨
    ∃ sp', downLevel S r clu o sp = .ok sp' ∧ DownInv S r clu (t + 1) sp' := by
  unfold downLevel
  have hmem : ∀ v, v ∈ (o.filter fun v => S.admList v ≠ []) ↔ (v < S.arr.nNode ∧ S.arr.level v = t) ∧ S.admList v ≠ [] := fun v => by
    rw [List.mem_filter, ho.mem]; simp
  rcases sweep_cases (st := sp) (down_indep (r := r) (clu := clu) T ho) (fun v _ => downNode_no_diverge hd hr hR v sp) with ⟨⟨v, hv, hub⟩, h⟩ | ⟨Q, sp', q1, q2, q3, q4⟩
  · left
    obtain ⟨⟨a, b⟩, c⟩ := (hmem v).mp hv
    exact ⟨⟨v, a, by omega, c, hub⟩, h⟩
  · right
    refine ⟨sp', q2, ?_⟩
    -- nodes of other levels than `t` and `t + 1` keep their points
    have keep : ∀ v < S.arr.nNode, S.arr.level v ≠ t → S.arr.level v ≠ t + 1 → sp' v = sp v := fun v hv h1 h2 => q4 v fun w hw hvw => by
      obtain ⟨⟨a, b⟩, c⟩ := (hmem w).mp hw
      rcases List.mem_cons.mp hvw with rfl | h
      · exact h1 b
      · have := T.childLevel w a v h; omega
    have keepE : ∀ v < S.arr.nNode, S.arr.level v = t → S.admList v = [] → sp' v = sp v := fun v hv h1 h2 => q4 v fun w hw hvw => by
      obtain ⟨⟨a, b⟩, c⟩ := (hmem w).mp hw
      rcases List.mem_cons.mp hvw with rfl | h
      · exact c h2
      · have := T.childLevel w a v h; omega
    have par : ∀ v < S.arr.nNode, S.arr.level v ≤ t → ∀ u < S.arr.nNode, v ∈ kids S.arr u → sp' u = sp u := fun v hv hl u hu hk => by
      have := T.childLevel u hu v hk
      exact keep u hu (by omega) (by omega)
    refine ⟨fun v hv h1 h2 => ?_, fun v hv h1 => ?_, fun v hv h1 => ?_, fun v hv h1 => ?_⟩
    · by_cases hlt : S.arr.level v < t
      · obtain ⟨I, i1, i2⟩ := hI.node v hv h1 hlt
        refine ⟨I, inherits_congr i1 fun u hu hk _ => par v hv (by omega) u hu hk, ?_⟩
        rw [keep v hv (by omega) (by omega)]
        exact i2
      · have hl : S.arr.level v = t := by omega
        refine ⟨sp v, inherits_congr (hI.cur v hv hl) fun u hu hk _ => par v hv (by omega) u hu hk, ?_⟩
        by_cases h0 : S.admList v = []
        · rw [if_pos h0]; exact keepE v hv hl h0
        · rw [if_neg h0]
          have hvo := (hmem v).mpr ⟨⟨hv, hl⟩, h0⟩
          rw [q3 v hvo v List.mem_cons_self]
          exact downNode_inv (q1 v hvo)
    · -- the parent
      have hroot : v + 1 < S.arr.nNode := by
        by_contra hc
        have : v = S.arr.nNode - 1 := by omega
        rw [this, T.rootLevel] at h1
        omega
      obtain ⟨u, hu, _, hk⟩ := T.childOfParent v hroot
      have hul : S.arr.level u = t := by have := T.childLevel u hu v hk; omega
      right
      refine ⟨u, hu, by omega, hk, ?_⟩
      by_cases h0 : S.admList u = []
      · rw [if_pos h0, q4 v fun w hw hvw => ?_]
        · exact hI.rest v hv (by omega)
        · obtain ⟨⟨a, b⟩, c⟩ := (hmem w).mp hw
          rcases List.mem_cons.mp hvw with rfl | h
          · omega
          · have e1 := T.parentOfChild w a v h
            have e2 := T.parentOfChild u hu v hk
            rw [e1] at e2
            have : w = u := by exact_mod_cast e2
            exact c (this ▸ h0)
      · rw [if_neg h0]
        have huo := (hmem u).mpr ⟨⟨hu, hul⟩, h0⟩
        rw [q3 u huo v (List.mem_cons_of_mem _ hk), q3 u huo u List.mem_cons_self]
    · rw [keep v hv (by omega) (by omega)]; exact hI.rest v hv (by omega)
    · rw [keep v hv (by omega) (by omega)]; exact hI.above v hv h1

theorem down_fold {S : In} (T : ClusterTree S.arr S.nPoint) (hd : 0 < S.dim) {r : Int} (hr : 0 ≤ r) {clu : Nat → List Pt} (hR : FarInRange S clu) {o : Nat → List Nat} (ho : ∀ l, LevelOrder S l (o l)) :
    ∀ (k t : Nat) (sp : Nat → List Pt), S.minAdm ≤ t → DownInv S r clu t sp →
      (levelFold (fun l => downLevel S r clu (o l)) (List.range' t k) (.ok sp) = .ub ∧ ∃ v < S.arr.nNode, S.minAdm ≤ S.arr.level v ∧ S.admList v ≠ [] ∧ ∃ sp', downNode S r clu v sp' = .ub) ∨
      ∃ sp', levelFold (fun l => downLevel S r clu (o l)) (List.range' t k) (.ok sp) = .ok sp' ∧ DownInv S r clu (t + k) sp' := by
  intro k
  induction k with
  | zero => intro t sp _ hI; exact Or.inr ⟨sp, rfl, hI⟩
  | succ k ih =>
    intro t sp hm hI
    rw [List.range'_succ, levelFold_cons]
    rcases downLevel_step T hd hr hR hm (ho t) hI with ⟨⟨v, a, b, c, d⟩, e⟩ | ⟨sp', e, hI'⟩
    · left
      rw [e]
      exact ⟨levelFold_ub _ _, v, a, b, c, sp, d⟩
    · rw [e]
      rcases ih (t + 1) sp' (by omega) hI' with h | ⟨sp'', e1, e2⟩
      · exact Or.inl h
      · right
        refine ⟨sp'', e1, ?_⟩
        rw [show t + (k + 1) = t + 1 + k by omega]
        exact e2

theorem levels_asc (M m : Nat) : (List.range (M + 1)).filter (fun l => m ≤ l) = List.range' m (M + 1 - m) := by
  refine List.Perm.eq_of_pairwise (fun a b _ _ h1 h2 => ?_) (List.Pairwise.filter _ List.pairwise_lt_range) List.pairwise_lt_range' ?_
  · omega
  · refine (List.perm_ext_iff_of_nodup (List.nodup_range.filter _) List.nodup_range').mpr fun a => ?_
    simp only [List.mem_filter, List.mem_range, decide_eq_true_eq, List.mem_range'_1]
    omega

theorem downSweep_cases {S : In} (T : ClusterTree S.arr S.nPoint) (hd : 0 < S.dim) {r : Int} (hr : 0 ≤ r) {clu : Nat → List Pt} (hR : FarInRange S clu) {o : Nat → List Nat} (ho : ∀ l, LevelOrder S l (o l)) :
    (downSweep S r clu o = .ub ∧ ∃ v < S.arr.nNode, S.minAdm ≤ S.arr.level v ∧ S.admList v ≠ [] ∧ ∃ sp', downNode S r clu v sp' = .ub) ∨
    ∃ sp, downSweep S r clu o = .ok sp ∧ Sampled S r clu sp := by
  have e : downSweep S r clu o = levelFold (fun l => downLevel S r clu (o l)) (List.range' S.minAdm (S.arr.maxLevel + 1 - S.minAdm)) (.ok fun _ => []) := by
    unfold downSweep; rw [levels_asc]; rfl
  rw [e]
  have h0 : DownInv S r clu S.minAdm (fun _ => []) := ⟨fun v _ h1 h2 => by omega, fun v _ h => Or.inl ⟨h, rfl⟩, fun _ _ _ => rfl, fun _ _ _ => rfl⟩
  rcases down_fold T hd hr hR ho (S.arr.maxLevel + 1 - S.minAdm) S.minAdm _ (le_refl _) h0 with h | ⟨sp, e1, hI⟩
  · exact Or.inl h
  · right
    refine ⟨sp, e1, ⟨fun v hv hl => hI.node v hv hl ?_, hI.above⟩⟩
    have := T.levelLe v hv
    omega

theorem downSweep_perm {S : In} (T : ClusterTree S.arr S.nPoint) (hd : 0 < S.dim) {r : Int} (hr : 0 ≤ r) {clu : Nat → List Pt} (hR : FarInRange S clu) {o o' : Nat → List Nat} (ho : ∀ l, LevelOrder S l (o l))
    (ho' : ∀ l, LevelOrder S l (o' l)) : downSweep S r clu o = downSweep S r clu o' :=
  foldl_bind_congr (fun l _ sp => sweep_perm (((ho l).trans (ho' l).symm).filter _) (down_indep T (ho l)) fun v _ => downNode_no_diverge hd hr hR v sp) _

end H2Pack.Sample
