import Verif.Proof.Sample2

/-! # Refinement of one point set, parallel loops over the nodes -/

namespace H2Pack.Sample
open Finset
open H2Pack.Part (kids)

/-- The points handed from the parent to node `v`: none at `min_adm_level` and below a node without admissible pairs, otherwise the sample points of the parent. -/
def Inherits (S : In) (sp : Nat → List Pt) (v : Nat) (I : List Pt) : Prop :=
  (S.arr.level v = S.minAdm ∧ I = []) ∨ ∃ u < S.arr.nNode, S.minAdm ≤ S.arr.level u ∧ v ∈ kids S.arr u ∧ I = if S.admList u = [] then [] else sp u

/-- The refined points of the clusters: those of a leaf are chosen from its points, those of an inner node from the refined points of its children, in order. -/
structure Refined (S : In) (r : Int) (clu : Nat → List Pt) : Prop where
  node : ∀ v < S.arr.nNode, S.minAdm ≤ S.arr.level v → refineUp S.dim r (gatherUp S v clu) = .ok (clu v)
  above : ∀ v < S.arr.nNode, S.arr.level v < S.minAdm → clu v = []

/-- The sample points of the nodes: those with admissible pairs choose from what they inherit and the refined points of their partners, the others keep what
they inherit. -/
structure Sampled (S : In) (r : Int) (clu sp : Nat → List Pt) : Prop where
  node : ∀ v < S.arr.nNode, S.minAdm ≤ S.arr.level v → ∃ I, Inherits S sp v I ∧
    if S.admList v = [] then sp v = I else ∃ y, farPoints S.dim S.alg r ((S.admList v).map clu) = .ok y ∧ refineDown S.dim r (I ++ y) = .ok (sp v)
  above : ∀ v < S.arr.nNode, S.arr.level v < S.minAdm → sp v = []

theorem apportioned_nonneg {n : Nat} {s : Int} {prop : Nat → ℝ} {d : Nat → Int} (h : Apportioned n s prop d) (hs : ∀ i < n, 0 ≤ share n s prop i) : ∀ i < n, 0 ≤ d i := by
  intro i hi
  have : 0 ≤ ⌊share n s prop i⌋ := Int.floor_nonneg.mpr (hs i hi)
  rcases h.quota i hi with h' | ⟨h', _⟩ <;> omega

theorem apportioned_le {n : Nat} {s : Int} {prop : Nat → ℝ} {d : Nat → Int} (h : Apportioned n s prop d) (hs : ∀ i < n, 0 ≤ share n s prop i) : ∀ i < n, d i ≤ s := by
  intro i hi
  rw [← h.total]
  exact Finset.single_le_sum (f := d) (fun j hj => apportioned_nonneg h hs j (Finset.mem_range.mp hj)) (Finset.mem_range.mpr hi)

theorem share_nonneg {n : Nat} {s : Int} (h0 : 0 ≤ s) {prop : Nat → ℝ} (hp : (∀ i < n, 0 ≤ prop i) ∨ ∀ i < n, prop i ≤ 0) : ∀ i < n, 0 ≤ share n s prop i := by
  intro i hi
  unfold share
  have hs : (0 : ℝ) ≤ s := by exact_mod_cast h0
  rcases hp with hp | hp
  · exact div_nonneg (mul_nonneg hs (hp i hi)) (Finset.sum_nonneg fun j hj => hp j (Finset.mem_range.mp hj))
  · exact div_nonneg_of_nonpos (mul_nonpos_of_nonneg_of_nonpos hs (hp i hi)) (Finset.sum_nonpos fun j hj => hp j (Finset.mem_range.mp hj))

/-- The number of anchors of the grid is the return value of the decomposition. -/
theorem prod_toNat {n : Nat} {d : Nat → Int} (h : ∀ i < n, 0 ≤ d i) : ((∏ j ∈ range n, ((d j).toNat + 1) : Nat) : Int) = ∏ j ∈ range n, (d j + 1) := by
  push_cast
  refine Finset.prod_congr rfl fun i hi => ?_
  have := h i (Finset.mem_range.mp hi)
  omega

theorem prod_le {n : Nat} {d : Nat → Int} {s : Int} (h : ∀ i < n, 0 ≤ d i) (h' : ∀ i < n, d i ≤ s) : ∏ j ∈ range n, ((d j).toNat + 1) ≤ (s.toNat + 1) ^ n := by
  calc ∏ j ∈ range n, ((d j).toNat + 1) ≤ ∏ j ∈ range n, (s.toNat + 1) := Finset.prod_le_prod' fun i hi => by
        have := h i (Finset.mem_range.mp hi)
        have := h' i (Finset.mem_range.mp hi)
        omega
    _ = _ := by rw [Finset.prod_const, Finset.card_range]

theorem select_sublist (P : List Pt) {s : List Nat} (h : s.Pairwise (· < ·)) (hr : ∀ j ∈ s, j < P.length) : (select P s).Sublist P := by
  have h1 : s.Sublist (List.range P.length) := by
    have : (List.range P.length).filter (fun i => i ∈ s) = s := by
      refine List.Perm.eq_of_pairwise (fun a b _ _ h1 h2 => ?_) (List.Pairwise.filter _ List.pairwise_lt_range) h ?_
      · omega
      · refine (List.perm_ext_iff_of_nodup (List.nodup_range.filter _) (h.imp fun h => Nat.ne_of_lt h)).mpr fun a => ?_
        simp only [List.mem_filter, List.mem_range, decide_eq_true_eq]
        exact ⟨fun h => h.2, fun h => ⟨hr a h, h⟩⟩
    rw [← this]; exact List.filter_sublist
  have h2 := h1.map fun j => P.getD j fun _ => (0 : ℝ)
  have h3 : (List.range P.length).map (fun j => P.getD j fun _ => (0 : ℝ)) = P := by
    apply List.ext_getElem
    · simp
    · intro i h1 h2; simp [List.getElem?_eq_getElem h2]
  rw [h3] at h2
  exact h2

/-- The sides of the enclosing box. -/
noncomputable def side (P : List Pt) (i : Nat) : ℝ := maxC (crd P i) P.length - minC (crd P i) P.length

theorem side_nonneg {P : List Pt} (h : P ≠ []) (i : Nat) : 0 ≤ side P i := by
  have b := bounds_of h i
  obtain ⟨p, hp⟩ := List.exists_mem_of_ne_nil P h
  have := b.low p hp
  have := b.high p hp
  unfold side; linarith

theorem boxSize_ok (dim : Nat) {P : List Pt} (h : P ≠ []) : boxSize dim P = .ok (side P) := by
  unfold boxSize
  rw [if_neg (by have := List.length_pos_iff.mpr h; omega)]
  rfl

theorem boxSize_nil {dim : Nat} (h : 0 < dim) : boxSize dim [] = .ub := by simp [boxSize, h]

theorem spread_iff {dim : Nat} {P : List Pt} (h : P ≠ []) : ∑ i ∈ range dim, side P i ≠ 0 ↔ Spread dim P := by
  rw [Ne, Finset.sum_eq_zero_iff_of_nonneg fun i _ => side_nonneg h i]
  push Not
  constructor
  · rintro ⟨i, hi, hne⟩
    have b := bounds_of h i
    obtain ⟨p, hp, e1⟩ := b.lowAt
    obtain ⟨q, hq, e2⟩ := b.highAt
    exact ⟨p, hp, q, hq, i, Finset.mem_range.mp hi, fun he => hne (by unfold side; rw [← e1, ← e2, he]; ring)⟩
  · rintro ⟨p, hp, q, hq, i, hi, hne⟩
    refine ⟨i, Finset.mem_range.mpr hi, fun h0 => hne ?_⟩
    have b := bounds_of h i
    unfold side at h0
    have := b.low p hp; have := b.high p hp; have := b.low q hq; have := b.high q hq
    linarith

/-- One refinement: either it is undefined because all the points coincide, or the result is a non-empty part of the points of at most `(r+1)^dim`
elements unless nothing is removed. -/
theorem refine_core {dim : Nat} (hd : 0 < dim) {r : Int} (hr : 0 ≤ r) {P : List Pt} (h : P ≠ []) (algo : Nat) :
    (¬ Spread dim P → decompose dim r (side P) = .ub) ∧
    (Spread dim P → ∃ d, decompose dim r (side P) = .ok d ∧ ∃ s, clusterSample dim P (fun i => (d.1 i).toNat) algo id = .ok s ∧
      (select P s).Sublist P ∧ select P s ≠ [] ∧ ((select P s).length : Int) ≤ d.2 ∧ d.2 ≤ ((r.toNat + 1) ^ dim : Nat)) := by
  constructor
  · intro hs
    have := mt (spread_iff (dim := dim) h).mp hs
    exact decompose_ub _ _ _ (not_not.mp this)
  · intro hs
    obtain ⟨d, hd1, hA⟩ := decompose_ok hd r (side P) ((spread_iff h).mpr hs)
    have hsh := share_nonneg (n := dim) hr (Or.inl fun i _ => side_nonneg h i)
    have h0 := apportioned_nonneg hA hsh
    obtain ⟨s, hs1, hs2, hs3, hs4, hs5, hs6⟩ := clusterSample_ok dim h (fun i => (d i).toNat) algo id fun L => List.Perm.refl L
    have hlen : (select P s).length = s.length := by simp [select]
    refine ⟨_, hd1, s, hs1, select_sublist P hs2 fun j hj => ?_, ?_, ?_, ?_⟩
    · obtain ⟨a, _, hN⟩ := (hs3 j).mp hj
      exact hN.lt
    · unfold select; simpa using hs4
    · dsimp only
      rw [hlen, ← prod_toNat h0]; exact_mod_cast hs6
    · dsimp only
      rw [← prod_toNat h0]
      exact_mod_cast prod_le h0 (apportioned_le hA hsh)

theorem refineUp_cases {dim : Nat} (hd : 0 < dim) {r : Int} (hr : 0 ≤ r) (P : List Pt) :
    (5 < P.length ∧ ¬ Spread dim P → refineUp dim r P = .ub) ∧
    (P.length ≤ 5 ∨ Spread dim P → ∃ R, refineUp dim r P = .ok R ∧ R.Sublist P ∧ (P ≠ [] → R ≠ []) ∧ R.length ≤ max 5 ((r.toNat + 1) ^ dim)) := by
  by_cases h5 : P.length ≤ 5
  · refine ⟨fun h => by omega, fun _ => ⟨P, by unfold refineUp; rw [if_pos h5], List.Sublist.refl _, fun h => h, le_trans h5 (le_max_left _ _)⟩⟩
  have hne : P ≠ [] := by rintro rfl; simp at h5
  obtain ⟨c1, c2⟩ := refine_core hd hr hne 6
  constructor
  · rintro ⟨_, hs⟩
    unfold refineUp
    rw [if_neg h5, boxSize_ok dim hne, Res.bind_ok, c1 hs, Res.bind_ub]
  · intro hs
    obtain ⟨d, e1, s, e2, e3, e4, e5, e6⟩ := c2 (hs.resolve_left h5)
    by_cases hlt : d.2 < P.length
    · refine ⟨select P s, ?_, e3, fun _ => e4, le_trans ?_ (le_max_right _ _)⟩
      · unfold refineUp
        rw [if_neg h5, boxSize_ok dim hne, Res.bind_ok, e1, Res.bind_ok, if_pos hlt, e2, Res.bind_ok]
      · have := le_trans e5 e6
        exact_mod_cast this
    · refine ⟨P, ?_, List.Sublist.refl _, fun h => h, le_trans ?_ (le_max_right _ _)⟩
      · unfold refineUp
        rw [if_neg h5, boxSize_ok dim hne, Res.bind_ok, e1, Res.bind_ok, if_neg hlt]
      · have := le_trans (not_lt.mp hlt) e6
        exact_mod_cast this

theorem refineDown_cases {dim : Nat} (hd : 0 < dim) {r : Int} (hr : 0 ≤ r) (P : List Pt) :
    (¬ Spread dim P → refineDown dim r P = .ub) ∧
    (Spread dim P → ∃ R, refineDown dim r P = .ok R ∧ R.Sublist P ∧ R ≠ [] ∧ R.length ≤ (r.toNat + 1) ^ dim) := by
  by_cases hne : P = []
  · subst hne
    refine ⟨fun _ => ?_, fun ⟨p, hp, _⟩ => by simp at hp⟩
    unfold refineDown
    rw [boxSize_nil hd, Res.bind_ub]
  obtain ⟨c1, c2⟩ := refine_core hd hr hne 2
  constructor
  · intro hs
    unfold refineDown
    rw [boxSize_ok dim hne, Res.bind_ok, c1 hs, Res.bind_ub]
  · intro hs
    obtain ⟨d, e1, s, e2, e3, e4, e5, e6⟩ := c2 hs
    by_cases hlt : d.2 < P.length
    · refine ⟨select P s, ?_, e3, e4, ?_⟩
      · unfold refineDown
        rw [boxSize_ok dim hne, Res.bind_ok, e1, Res.bind_ok, if_pos hlt, e2, Res.bind_ok]
      · have := le_trans e5 e6
        exact_mod_cast this
    · refine ⟨P, ?_, List.Sublist.refl _, hne, ?_⟩
      · unfold refineDown
        rw [boxSize_ok dim hne, Res.bind_ok, e1, Res.bind_ok, if_neg hlt]
      · have := le_trans (not_lt.mp hlt) e6
        exact_mod_cast this

/-! ### Parallel loops -/

variable {W : Nat → List Nat} {g : Nat → (Nat → List Pt) → Res (List Pt)}

theorem sweep_nil (st : Nat → List Pt) : sweep W g [] st = .ok st := rfl

theorem foldl_bind_ub {α β : Type} (f : α → β → Res α) (L : List β) : L.foldl (fun r v => r.bind fun st => f st v) (.ub : Res α) = .ub := by
  induction L with
  | nil => rfl
  | cons a L ih => exact ih

theorem foldl_bind_diverge {α β : Type} (f : α → β → Res α) (L : List β) : L.foldl (fun r v => r.bind fun st => f st v) (.diverge : Res α) = .diverge := by
  induction L with
  | nil => rfl
  | cons a L ih => exact ih

theorem foldl_bind {α β : Type} (f : α → β → Res α) (L : List β) (r : Res α) :
    L.foldl (fun r v => r.bind fun st => f st v) r = r.bind fun st => L.foldl (fun r v => r.bind fun st => f st v) (.ok st) := by
  cases r with
  | ok a => rfl
  | ub => exact foldl_bind_ub f L
  | diverge => exact foldl_bind_diverge f L

theorem sweep_cons (v : Nat) (L : List Nat) (st : Nat → List Pt) :
    sweep W g (v :: L) st = (g v st).bind fun P => sweep W g L fun u => if u ∈ W v then P else st u := by
  unfold sweep
  rw [List.foldl_cons, foldl_bind (fun st v => (g v st).bind fun P => .ok fun u => if u ∈ W v then P else st u)]
  show (((g v st).bind fun P => Res.ok fun u => if u ∈ W v then P else st u).bind _) = _
  cases g v st <;> rfl

/-- The nodes of `order` write different slots, and each reads no slot written by another. -/
structure Indep (W : Nat → List Nat) (g : Nat → (Nat → List Pt) → Res (List Pt)) (order : List Nat) : Prop where
  nodup : order.Nodup
  disj : ∀ v ∈ order, ∀ w ∈ order, v ≠ w → ∀ u ∈ W v, u ∉ W w
  reads : ∀ v ∈ order, ∀ s s' : Nat → List Pt, (∀ u, (∀ w ∈ order, w ≠ v → u ∉ W w) → s u = s' u) → g v s = g v s'

theorem Indep.tail {v : Nat} {L : List Nat} (h : Indep W g (v :: L)) : Indep W g L where
  nodup := (List.nodup_cons.mp h.nodup).2
  disj := fun a ha b hb => h.disj a (List.mem_cons_of_mem _ ha) b (List.mem_cons_of_mem _ hb)
  reads := fun a ha s s' hs => h.reads a (List.mem_cons_of_mem _ ha) s s' fun u hu => hs u fun w hw hne => hu w (List.mem_cons_of_mem _ hw) hne

theorem Indep.after {v : Nat} {L : List Nat} (h : Indep W g (v :: L)) {w : Nat} (hw : w ∈ L) (st : Nat → List Pt) (P : List Pt) :
    g w (fun u => if u ∈ W v then P else st u) = g w st := by
  refine h.reads w (List.mem_cons_of_mem _ hw) _ _ fun u hu => ?_
  have hne : v ≠ w := by rintro rfl; exact (List.nodup_cons.mp h.nodup).1 hw
  simp only [if_neg (hu v List.mem_cons_self hne)]

theorem sweep_ok : ∀ (order : List Nat) (st : Nat → List Pt) (Q : Nat → List Pt), Indep W g order → (∀ v ∈ order, g v st = .ok (Q v)) →
    ∃ st', sweep W g order st = .ok st' ∧ (∀ v ∈ order, ∀ u ∈ W v, st' u = Q v) ∧ ∀ u, (∀ w ∈ order, u ∉ W w) → st' u = st u := by
  intro order
  induction order with
  | nil => intro st Q _ _; exact ⟨st, rfl, by simp, fun _ _ => rfl⟩
  | cons v L ih =>
    intro st Q hI hQ
    rw [sweep_cons, hQ v List.mem_cons_self]
    obtain ⟨st', e1, e2, e3⟩ := ih (fun u => if u ∈ W v then Q v else st u) Q hI.tail
      fun w hw => by rw [hI.after hw]; exact hQ w (List.mem_cons_of_mem _ hw)
    refine ⟨st', e1, fun w hw u hu => ?_, fun u hu => ?_⟩
    · rcases List.mem_cons.mp hw with rfl | hw
      · rw [e3 u fun w' hw' => ?_]
        · exact if_pos hu
        · exact hI.disj w List.mem_cons_self w' (List.mem_cons_of_mem _ hw') (by rintro rfl; exact (List.nodup_cons.mp hI.nodup).1 hw') u hu
      · exact e2 w hw u hu
    · rw [e3 u fun w hw => hu w (List.mem_cons_of_mem _ hw)]
      exact if_neg (hu v List.mem_cons_self)

theorem sweep_ub : ∀ (order : List Nat) (st : Nat → List Pt), Indep W g order → (∀ v ∈ order, g v st ≠ .diverge) → (∃ v ∈ order, g v st = .ub) →
    sweep W g order st = .ub := by
  intro order
  induction order with
  | nil => rintro st _ _ ⟨v, hv, _⟩; simp at hv
  | cons v L ih =>
    rintro st hI hD ⟨w, hw, hub⟩
    rw [sweep_cons]
    cases hg : g v st with
    | ub => rfl
    | diverge => exact absurd hg (hD v List.mem_cons_self)
    | ok P =>
      have hw' : w ∈ L := by
        rcases List.mem_cons.mp hw with rfl | h
        · rw [hg] at hub; simp at hub
        · exact h
      show sweep W g L _ = .ub
      refine ih _ hI.tail (fun x hx => ?_) ⟨w, hw', ?_⟩
      · rw [hI.after hx]; exact hD x (List.mem_cons_of_mem _ hx)
      · rw [hI.after hw']; exact hub

theorem Indep.perm {L L' : List Nat} (hp : L.Perm L') (h : Indep W g L) : Indep W g L' where
  nodup := hp.nodup_iff.mp h.nodup
  disj := fun a ha b hb => h.disj a (hp.mem_iff.mpr ha) b (hp.mem_iff.mpr hb)
  reads := fun a ha s s' hs => h.reads a (hp.mem_iff.mpr ha) s s' fun u hu => hs u fun w hw hne => hu w (hp.mem_iff.mpr hw) hne

/-- What `sweep` returns: never without end. -/
theorem sweep_cases {order : List Nat} {st : Nat → List Pt} (hI : Indep W g order) (hD : ∀ v ∈ order, g v st ≠ .diverge) :
    ((∃ v ∈ order, g v st = .ub) ∧ sweep W g order st = .ub) ∨
    ∃ (Q st' : Nat → List Pt), (∀ v ∈ order, g v st = .ok (Q v)) ∧ sweep W g order st = .ok st' ∧ (∀ v ∈ order, ∀ u ∈ W v, st' u = Q v) ∧ ∀ u, (∀ w ∈ order, u ∉ W w) → st' u = st u := by
  by_cases h : ∃ v ∈ order, g v st = .ub
  · exact Or.inl ⟨h, sweep_ub order st hI hD h⟩
  · right
    push Not at h
    have : ∀ v ∈ order, ∃ P, g v st = .ok P := by
      intro v hv
      cases hg : g v st with
      | ok P => exact ⟨P, rfl⟩
      | ub => exact absurd hg (h v hv)
      | diverge => exact absurd hg (hD v hv)
    choose! Q hQ using this
    obtain ⟨st', e1, e2, e3⟩ := sweep_ok order st Q hI hQ
    exact ⟨Q, st', hQ, e1, e2, e3⟩

/-- The order of the nodes does not matter. -/
theorem sweep_perm {L L' : List Nat} (hp : L.Perm L') {st : Nat → List Pt} (hI : Indep W g L) (hD : ∀ v ∈ L, g v st ≠ .diverge) :
    sweep W g L st = sweep W g L' st := by
  have hD' : ∀ v ∈ L', g v st ≠ .diverge := fun v hv => hD v (hp.mem_iff.mpr hv)
  rcases sweep_cases hI hD with ⟨⟨v, hv, h1⟩, h2⟩ | ⟨Q, s, h1, h2, h3, h4⟩
  · rw [h2, sweep_ub L' st (hI.perm hp) hD' ⟨v, hp.mem_iff.mp hv, h1⟩]
  · obtain ⟨s', e2, e3, e4⟩ := sweep_ok L' st Q (hI.perm hp) fun v hv => h1 v (hp.mem_iff.mpr hv)
    rw [h2, e2]
    congr 1
    funext u
    by_cases h : ∃ w ∈ L, u ∈ W w
    · obtain ⟨w, hw, hu⟩ := h
      rw [h3 w hw u hu, e3 w (hp.mem_iff.mp hw) u hu]
    · push Not at h
      rw [h4 u h, e4 u fun w hw => h w (hp.mem_iff.mpr hw)]

end H2Pack.Sample
