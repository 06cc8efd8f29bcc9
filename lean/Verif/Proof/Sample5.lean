import Verif.Proof.Sample4
import Verif.Spec.ClusterTree
import Verif.Proof.Desc

/-! # The two sweeps -/

namespace H2Pack.Sample
open Finset
open H2Pack.Part (Arr kids ClusterTree)

theorem Spread.ne_nil {dim : Nat} {P : List Pt} (h : Spread dim P) : P ≠ [] := by
  obtain ⟨p, hp, _⟩ := h
  exact List.ne_nil_of_mem hp

theorem Spread.mono {dim : Nat} {P Q : List Pt} (h : Spread dim P) (hs : ∀ p ∈ P, p ∈ Q) : Spread dim Q := by
  obtain ⟨p, hp, q, hq, h⟩ := h
  exact ⟨p, hs p hp, q, hs q hq, h⟩

theorem farPoints_nil {dim : Nat} (hd : 0 < dim) (alg : Nat) {r : Int} (hr : 0 ≤ r) {far : List (List Pt)} (h : far.flatten = []) : farPoints dim alg r far = .ok [] := by
  have hside : ∀ i : Nat, farHi [] i - farLo [] i = -2 * 10 ^ 100 := by intro i; unfold farHi farLo; simp only [List.foldl_nil]; ring
  have hsum : ∑ i ∈ range dim, (farHi [] i - farLo [] i) ≠ 0 := by
    simp only [hside, Finset.sum_const, Finset.card_range, nsmul_eq_mul]
    have : (dim : ℝ) ≠ 0 := by positivity
    have : (-2 * 10 ^ 100 : ℝ) ≠ 0 := by norm_num
    positivity
  obtain ⟨d, e, hA⟩ := decompose_ok hd r (fun i => farHi [] i - farLo [] i) hsum
  have h0 := apportioned_nonneg hA (share_nonneg hr (Or.inr fun i _ => by rw [hside]; norm_num))
  unfold farPoints
  dsimp only
  rw [h, e, Res.bind_ok, if_pos]
  left
  have : 0 < ∏ i ∈ range dim, (d i + 1) := Finset.prod_pos fun i hi => by have := h0 i (Finset.mem_range.mp hi); omega
  simpa using this

theorem farPoints_ub {dim : Nat} (alg : Nat) (r : Int) {far : List (List Pt)} (hne : far.flatten ≠ []) (hR : InRange far.flatten)
    (hs : ¬ Spread dim far.flatten) : farPoints dim alg r far = .ub := by
  have := mt (spread_iff (dim := dim) hne).mp hs
  unfold farPoints
  dsimp only
  rw [far_side hne hR, decompose_ub _ _ _ (not_not.mp this), Res.bind_ub]

theorem farPoints_spread {dim : Nat} (hd : 0 < dim) (alg : Nat) {r : Int} (hr : 0 ≤ r) {far : List (List Pt)} (hR : InRange far.flatten)
    (hs : Spread dim far.flatten) :
    (∃ y, farPoints dim alg r far = .ok y ∧ (∀ p ∈ y, p ∈ far.flatten) ∧ y ≠ [] ∧ (alg = 0 → y = far.flatten) ∧ (∀ P ∈ far, P ≠ [] → ∃ p ∈ P, p ∈ y)) ∨
    (alg ≠ 0 ∧ (∃ P ∈ far, P = []) ∧ farPoints dim alg r far = .ub) := by
  have hne := hs.ne_nil
  obtain ⟨d, e, hA⟩ := decompose_ok hd r (side far.flatten) ((spread_iff hne).mpr hs)
  have e1 : farPoints dim alg r far = if (∏ i ∈ range dim, (d i + 1)) > (far.flatten.length : Int) ∨ alg = 0 then .ok far.flatten
      else pickFar dim far (farLo far.flatten) (farHi far.flatten) (fun i => (d i).toNat) := by
    unfold farPoints
    dsimp only
    rw [far_side hne hR, e, Res.bind_ok]
  by_cases hc : (∏ i ∈ range dim, (d i + 1)) > (far.flatten.length : Int) ∨ alg = 0
  · rw [if_pos hc] at e1
    exact Or.inl ⟨_, e1, fun p hp => hp, hne, fun _ => rfl, fun P hP hP' => by
      obtain ⟨p, hp⟩ := List.exists_mem_of_ne_nil P hP'
      exact ⟨p, hp, List.mem_flatten.mpr ⟨P, hP, hp⟩⟩⟩
  · rw [if_neg hc] at e1
    by_cases hem : ∃ P ∈ far, P = []
    · right
      refine ⟨fun h => hc (Or.inr h), hem, ?_⟩
      rw [e1]; unfold pickFar; rw [if_pos hem]
    · left
      push Not at hem
      have h0 : far ≠ [] := by rintro rfl; simp at hne
      obtain ⟨y, y1, _, y2, y3, _⟩ := pickFar_ok dim h0 hem (farLo far.flatten) (farHi far.flatten) fun i => (d i).toNat
      refine ⟨y, by rw [e1, y1], y2, ?_, fun h => absurd (Or.inr h) hc, fun P hP _ => y3 P hP⟩
      obtain ⟨P, hP⟩ := List.exists_mem_of_ne_nil far h0
      obtain ⟨p, _, hp⟩ := y3 P hP
      exact List.ne_nil_of_mem hp

/-- Every outcome of `farPoints`. -/
theorem farPoints_cases {dim : Nat} (hd : 0 < dim) (alg : Nat) {r : Int} (hr : 0 ≤ r) {far : List (List Pt)} (hR : InRange far.flatten) :
    farPoints dim alg r far = .ub ∨ ∃ y, farPoints dim alg r far = .ok y ∧ (∀ p ∈ y, p ∈ far.flatten) ∧ (far.flatten ≠ [] → y ≠ []) := by
  by_cases hne : far.flatten = []
  · exact Or.inr ⟨[], farPoints_nil hd alg hr hne, by simp, fun h => absurd hne h⟩
  · by_cases hs : Spread dim far.flatten
    · rcases farPoints_spread hd alg hr hR hs with ⟨y, h1, h2, h3, _⟩ | ⟨_, _, h⟩
      · exact Or.inr ⟨y, h1, h2, fun _ => h3⟩
      · exact Or.inl h
    · exact Or.inl (farPoints_ub alg r hne hR hs)

theorem refineUp_no_diverge {dim : Nat} (hd : 0 < dim) {r : Int} (hr : 0 ≤ r) (P : List Pt) : refineUp dim r P ≠ .diverge := by
  obtain ⟨h1, h2⟩ := refineUp_cases hd hr P
  by_cases h : P.length ≤ 5 ∨ Spread dim P
  · obtain ⟨R, e, _⟩ := h2 h
    rw [e]; simp
  · push Not at h
    rw [h1 ⟨h.1, h.2⟩]; simp

theorem refineDown_no_diverge {dim : Nat} (hd : 0 < dim) {r : Int} (hr : 0 ≤ r) (P : List Pt) : refineDown dim r P ≠ .diverge := by
  obtain ⟨h1, h2⟩ := refineDown_cases hd hr P
  by_cases h : Spread dim P
  · obtain ⟨R, e, _⟩ := h2 h
    rw [e]; simp
  · rw [h1 h]; simp

/-! ### Bottom-up -/


theorem LevelOrder.mem {S : In} {l : Nat} {o : List Nat} (h : LevelOrder S l o) {v : Nat} : v ∈ o ↔ v < S.arr.nNode ∧ S.arr.level v = l := by
  rw [h.mem_iff]; simp

theorem LevelOrder.nodup {S : In} {l : Nat} {o : List Nat} (h : LevelOrder S l o) : o.Nodup := h.nodup_iff.mpr (List.nodup_range.filter _)

theorem gatherUp_congr {S : In} {v : Nat} {s s' : Nat → List Pt} (h : ∀ c ∈ kids S.arr v, s c = s' c) : gatherUp S v s = gatherUp S v s' := by
  unfold gatherUp
  split_ifs
  · rfl
  · exact List.flatMap_congr h

theorem up1_indep {S : In} (T : ClusterTree S.arr S.nPoint) {l : Nat} {o : List Nat} (ho : LevelOrder S l o) :
    Indep (fun v => [v]) (fun v st => Res.ok (gatherUp S v st)) o where
  nodup := ho.nodup
  disj := fun v _ w _ hne u hu hu' => by simp at hu hu'; omega
  reads := fun v hv s s' hs => by
    congr 1
    refine gatherUp_congr fun c hc => hs c fun w hw _ hcw => ?_
    rw [List.mem_singleton] at hcw
    subst hcw
    obtain ⟨hv1, hv2⟩ := ho.mem.mp hv
    have := T.childLevel v hv1 c hc
    have := (ho.mem.mp hw).2
    omega

theorem up2_indep {S : In} {r : Int} {l : Nat} {o : List Nat} (ho : LevelOrder S l o) : Indep (fun v => [v]) (fun v st => refineUp S.dim r (st v)) o where
  nodup := ho.nodup
  disj := fun v _ w _ hne u hu hu' => by simp at hu hu'; omega
  reads := fun v hv s s' hs => by
    rw [hs v fun w _ hne hvw => hne (List.mem_singleton.mp hvw).symm]

/-- One level: undefined behaviour in a node, or every node of the level is refined and nothing else changes. -/
theorem upLevel_cases {S : In} (T : ClusterTree S.arr S.nPoint) (hd : 0 < S.dim) {r : Int} (hr : 0 ≤ r) {l : Nat} {o1 o2 : List Nat} (h1 : LevelOrder S l o1) (h2 : LevelOrder S l o2)
    (clu : Nat → List Pt) :
    ((∃ v < S.arr.nNode, S.arr.level v = l ∧ refineUp S.dim r (gatherUp S v clu) = .ub) ∧ upLevel S r o1 o2 clu = .ub) ∨
    ∃ clu', upLevel S r o1 o2 clu = .ok clu' ∧ (∀ v < S.arr.nNode, S.arr.level v = l → refineUp S.dim r (gatherUp S v clu) = .ok (clu' v)) ∧
      ∀ v, ¬ (v < S.arr.nNode ∧ S.arr.level v = l) → clu' v = clu v := by
  obtain ⟨s1, e1, e2, e3⟩ := sweep_ok o1 clu (fun v => gatherUp S v clu) (up1_indep T h1) fun v _ => rfl
  have hs1 : ∀ v ∈ o2, s1 v = gatherUp S v clu := fun v hv => e2 v (h1.mem.mpr (h2.mem.mp hv)) v (List.mem_singleton.mpr rfl)
  unfold upLevel
  rw [e1, Res.bind_ok]
  rcases sweep_cases (st := s1) (up2_indep (r := r) h2) (fun v _ => refineUp_no_diverge hd hr _) with ⟨⟨v, hv, hub⟩, h⟩ | ⟨Q, s2, q1, q2, q3, q4⟩
  · left
    refine ⟨⟨v, (h2.mem.mp hv).1, (h2.mem.mp hv).2, ?_⟩, h⟩
    rw [← hs1 v hv]; exact hub
  · right
    refine ⟨s2, q2, fun v hv hl => ?_, fun v hv => ?_⟩
    · have hv' := h2.mem.mpr ⟨hv, hl⟩
      rw [← hs1 v hv', q3 v hv' v (List.mem_singleton.mpr rfl)]
      exact q1 v hv'
    · rw [q4 v fun w hw hvw => ?_, e3 v fun w hw hvw => ?_]
      · rw [List.mem_singleton] at hvw; subst hvw; exact hv (h1.mem.mp hw)
      · rw [List.mem_singleton] at hvw; subst hvw; exact hv (h2.mem.mp hw)

theorem upLevel_perm {S : In} (T : ClusterTree S.arr S.nPoint) (hd : 0 < S.dim) {r : Int} (hr : 0 ≤ r) {l : Nat} {o1 o2 o1' o2' : List Nat} (h1 : LevelOrder S l o1) (h2 : LevelOrder S l o2)
    (h1' : LevelOrder S l o1') (h2' : LevelOrder S l o2') (clu : Nat → List Pt) : upLevel S r o1 o2 clu = upLevel S r o1' o2' clu := by
  unfold upLevel
  rw [sweep_perm (h1.trans h1'.symm) (up1_indep T h1) (fun v _ => by simp)]
  congr 1
  funext s
  exact sweep_perm (h2.trans h2'.symm) (up2_indep h2) fun v _ => refineUp_no_diverge hd hr _

theorem foldl_bind_congr {α β : Type} {f f' : β → α → Res α} {L : List β} (h : ∀ l ∈ L, ∀ a, f l a = f' l a) (r : Res α) :
    L.foldl (fun st l => st.bind fun a => f l a) r = L.foldl (fun st l => st.bind fun a => f' l a) r := by
  induction L generalizing r with
  | nil => rfl
  | cons l L ih =>
    rw [List.foldl_cons, List.foldl_cons, ih fun x hx => h x (List.mem_cons_of_mem _ hx)]
    congr 1
    cases r with
    | ok a => exact h l List.mem_cons_self a
    | ub => rfl
    | diverge => rfl

theorem upSweep_perm {S : In} (T : ClusterTree S.arr S.nPoint) (hd : 0 < S.dim) {r : Int} (hr : 0 ≤ r) {o1 o2 o1' o2' : Nat → List Nat} (h1 : ∀ l, LevelOrder S l (o1 l)) (h2 : ∀ l, LevelOrder S l (o2 l))
    (h1' : ∀ l, LevelOrder S l (o1' l)) (h2' : ∀ l, LevelOrder S l (o2' l)) : upSweep S r o1 o2 = upSweep S r o1' o2' :=
  foldl_bind_congr (fun l _ clu => upLevel_perm T hd hr (h1 l) (h2 l) (h1' l) (h2' l) clu) _

/-- The levels in the order of `L`. -/
def levelFold (f : Nat → (Nat → List Pt) → Res (Nat → List Pt)) (L : List Nat) (r : Res (Nat → List Pt)) : Res (Nat → List Pt) :=
  L.foldl (fun st l => st.bind fun clu => f l clu) r

theorem levelFold_cons (f : Nat → (Nat → List Pt) → Res (Nat → List Pt)) (l : Nat) (L : List Nat) (c : Nat → List Pt) :
    levelFold f (l :: L) (.ok c) = levelFold f L (f l c) := rfl

theorem levelFold_ub (f : Nat → (Nat → List Pt) → Res (Nat → List Pt)) (L : List Nat) : levelFold f L .ub = .ub := foldl_bind_ub (fun c l => f l c) L

/-- State of the bottom-up sweep when the levels in `D` are done. -/
structure UpInv (S : In) (r : Int) (D : Nat → Prop) (clu : Nat → List Pt) : Prop where
  node : ∀ v < S.arr.nNode, D (S.arr.level v) → refineUp S.dim r (gatherUp S v clu) = .ok (clu v)
  rest : ∀ v < S.arr.nNode, ¬ D (S.arr.level v) → clu v = []

theorem up_fold {S : In} (T : ClusterTree S.arr S.nPoint) (hd : 0 < S.dim) {r : Int} (hr : 0 ≤ r) {o1 o2 : Nat → List Nat} (h1 : ∀ l, LevelOrder S l (o1 l)) (h2 : ∀ l, LevelOrder S l (o2 l)) :
    ∀ (L : List Nat) (D : Nat → Prop) (clu : Nat → List Pt), L.Pairwise (· > ·) → (∀ l ∈ L, ∀ l', D l' → l < l') → UpInv S r D clu →
      (levelFold (fun l => upLevel S r (o1 l) (o2 l)) L (.ok clu) = .ub ∧
        ∃ (D' : Nat → Prop) (clu' : Nat → List Pt), UpInv S r D' clu' ∧ (∀ l, D' l → D l ∨ l ∈ L) ∧ ∃ v < S.arr.nNode, S.arr.level v ∈ L ∧ (∀ l ∈ L, S.arr.level v < l → D' l) ∧ (∀ l, D l → D' l) ∧
          refineUp S.dim r (gatherUp S v clu') = .ub) ∨
      ∃ clu', levelFold (fun l => upLevel S r (o1 l) (o2 l)) L (.ok clu) = .ok clu' ∧ UpInv S r (fun l => D l ∨ l ∈ L) clu' := by
  intro L
  induction L with
  | nil =>
    intro D clu _ _ hI
    exact Or.inr ⟨clu, rfl, ⟨fun v hv h => hI.node v hv (h.resolve_right (by simp)), fun v hv h => hI.rest v hv fun h' => h (Or.inl h')⟩⟩
  | cons l L ih =>
    intro D clu hp hD hI
    rw [levelFold_cons]
    rw [List.pairwise_cons] at hp
    rcases upLevel_cases T hd hr (h1 l) (h2 l) clu with ⟨⟨v, hv, hl, hub⟩, e⟩ | ⟨clu', e, c1, c2⟩
    · left
      rw [e]
      refine ⟨levelFold_ub _ L, D, clu, hI, fun l h => Or.inl h, v, hv, by rw [hl]; exact List.mem_cons_self, fun l' hl' h => ?_, fun _ h => h, hub⟩
      rcases List.mem_cons.mp hl' with rfl | h'
      · omega
      · have := hp.1 l' h'; omega
    · rw [e]
      have hlD : ¬ D l := fun h => by have := hD l List.mem_cons_self l h; omega
      have hI' : UpInv S r (fun l' => D l' ∨ l' = l) clu' := by
        refine ⟨fun v hv h => ?_, fun v hv h => ?_⟩
        · have hk : gatherUp S v clu' = gatherUp S v clu := gatherUp_congr fun c hc => c2 c fun h' => by
            have := T.childLevel v hv c hc
            rcases h with h | h
            · have := hD l List.mem_cons_self _ h; omega
            · omega
          rw [hk]
          rcases h with h | h
          · rw [c2 v fun h' => hlD (h'.2 ▸ h)]; exact hI.node v hv h
          · exact c1 v hv h
        · push Not at h
          rw [c2 v fun h' => h.2 h'.2]; exact hI.rest v hv h.1
      rcases ih (fun l' => D l' ∨ l' = l) clu' hp.2 (fun x hx l' h => by
        rcases h with h | rfl
        · exact hD x (List.mem_cons_of_mem _ hx) l' h
        · exact hp.1 x hx) hI' with ⟨f1, D', clu'', i1, i2, v, hv, hvL, i3, i4, i5⟩ | ⟨clu'', f1, f2⟩
      · left
        refine ⟨f1, D', clu'', i1, fun x hx => ?_, v, hv, List.mem_cons_of_mem _ hvL, fun x hx hlt => ?_, fun x hx => i4 x (Or.inl hx), i5⟩
        · rcases i2 x hx with (h | h) | h
          · exact Or.inl h
          · subst h; exact Or.inr List.mem_cons_self
          · exact Or.inr (List.mem_cons_of_mem _ h)
        · rcases List.mem_cons.mp hx with rfl | h'
          · exact i4 x (Or.inr rfl)
          · exact i3 x h' hlt
      · right
        refine ⟨clu'', f1, ⟨fun v hv h => f2.node v hv ?_, fun v hv h => f2.rest v hv fun h' => h ?_⟩⟩
        · rcases h with h | h
          · exact Or.inl (Or.inl h)
          · rcases List.mem_cons.mp h with h | h
            · exact Or.inl (Or.inr h)
            · exact Or.inr h
        · rcases h' with (h' | h') | h'
          · exact Or.inl h'
          · rw [h']; exact Or.inr List.mem_cons_self
          · exact Or.inr (List.mem_cons_of_mem _ h')

theorem levels_desc (M m : Nat) : ((List.range (M + 1)).reverse.filter (fun l => m ≤ l)).Pairwise (· > ·) := by
  apply List.Pairwise.filter
  rw [List.pairwise_reverse]
  exact List.pairwise_lt_range

theorem mem_levels {S : In} (T : ClusterTree S.arr S.nPoint) {v : Nat} (hv : v < S.arr.nNode) : S.arr.level v ∈ (List.range (S.arr.maxLevel + 1)).reverse.filter (fun l => S.minAdm ≤ l) ↔ S.minAdm ≤ S.arr.level v := by
  simp only [List.mem_filter, List.mem_reverse, List.mem_range, decide_eq_true_eq]
  have := T.levelLe v hv
  omega

/-- The bottom-up sweep gives the refined points, or is undefined in a node whose points cannot be refined. -/
theorem upSweep_cases {S : In} (T : ClusterTree S.arr S.nPoint) (hd : 0 < S.dim) {r : Int} (hr : 0 ≤ r) {o1 o2 : Nat → List Nat} (h1 : ∀ l, LevelOrder S l (o1 l)) (h2 : ∀ l, LevelOrder S l (o2 l)) :
    (upSweep S r o1 o2 = .ub ∧ ∃ clu, ∃ v < S.arr.nNode, S.minAdm ≤ S.arr.level v ∧ (∀ w < S.arr.nNode, S.arr.level v < S.arr.level w → refineUp S.dim r (gatherUp S w clu) = .ok (clu w)) ∧
      refineUp S.dim r (gatherUp S v clu) = .ub) ∨
    ∃ clu, upSweep S r o1 o2 = .ok clu ∧ Refined S r clu := by
  rcases up_fold T hd hr h1 h2 _ (fun _ => False) (fun _ => []) (levels_desc S.arr.maxLevel S.minAdm) (by simp) ⟨fun v _ h => h.elim, fun _ _ _ => rfl⟩ with
    ⟨e, D', clu, i1, i2, v, hv, hvL, i3, i4, i5⟩ | ⟨clu, e, hI⟩
  · left
    have hl := (mem_levels T hv).mp hvL
    refine ⟨e, clu, v, hv, hl, fun w hw hlt => i1.node w hw (i3 _ ((mem_levels T hw).mpr (by omega)) hlt), i5⟩
  · right
    refine ⟨clu, e, ⟨fun v hv h => hI.node v hv (Or.inr ((mem_levels T hv).mpr h)), fun v hv h => hI.rest v hv fun h' => ?_⟩⟩
    have := (mem_levels T hv).mp (h'.resolve_left id)
    omega

end H2Pack.Sample
