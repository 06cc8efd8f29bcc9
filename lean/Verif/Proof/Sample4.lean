import Verif.Proof.Sample3

/-! # Points of the far field -/

namespace H2Pack.Sample
open Finset

theorem farLo_aux (i : Nat) : ∀ (F : List Pt) (m : ℝ), let x := F.foldl (fun m p => if m < p i then m else p i) m
    x ≤ m ∧ (∀ p ∈ F, x ≤ p i) ∧ (x = m ∨ ∃ p ∈ F, p i = x) := by
  intro F
  induction F with
  | nil => intro m; simp
  | cons a F ih =>
    intro m
    obtain ⟨h1, h2, h3⟩ := ih (if m < a i then m else a i)
    simp only [List.foldl_cons]
    revert h1 h2 h3
    generalize F.foldl (fun m p => if m < p i then m else p i) (if m < a i then m else a i) = x
    intro h1 h2 h3
    have hm : (if m < a i then m else a i) ≤ m ∧ (if m < a i then m else a i) ≤ a i := by
      split_ifs with h
      · exact ⟨le_refl _, h.le⟩
      · exact ⟨not_lt.mp h, le_refl _⟩
    refine ⟨le_trans h1 hm.1, fun p hp => ?_, ?_⟩
    · rcases List.mem_cons.mp hp with rfl | hp
      · exact le_trans h1 hm.2
      · exact h2 p hp
    · rcases h3 with h3 | ⟨p, hp, h3⟩
      · by_cases h : m < a i
        · rw [if_pos h] at h3; exact Or.inl h3
        · rw [if_neg h] at h3; exact Or.inr ⟨a, List.mem_cons_self, h3.symm⟩
      · exact Or.inr ⟨p, List.mem_cons_of_mem _ hp, h3⟩

theorem farHi_aux (i : Nat) : ∀ (F : List Pt) (m : ℝ), let x := F.foldl (fun m p => if m > p i then m else p i) m
    m ≤ x ∧ (∀ p ∈ F, p i ≤ x) ∧ (x = m ∨ ∃ p ∈ F, p i = x) := by
  intro F
  induction F with
  | nil => intro m; simp
  | cons a F ih =>
    intro m
    obtain ⟨h1, h2, h3⟩ := ih (if m > a i then m else a i)
    simp only [List.foldl_cons]
    revert h1 h2 h3
    generalize F.foldl (fun m p => if m > p i then m else p i) (if m > a i then m else a i) = x
    intro h1 h2 h3
    have hm : m ≤ (if m > a i then m else a i) ∧ a i ≤ (if m > a i then m else a i) := by
      split_ifs with h
      · exact ⟨le_refl _, h.le⟩
      · exact ⟨not_lt.mp h, le_refl _⟩
    refine ⟨le_trans hm.1 h1, fun p hp => ?_, ?_⟩
    · rcases List.mem_cons.mp hp with rfl | hp
      · exact le_trans hm.2 h1
      · exact h2 p hp
    · rcases h3 with h3 | ⟨p, hp, h3⟩
      · by_cases h : m > a i
        · rw [if_pos h] at h3; exact Or.inl h3
        · rw [if_neg h] at h3; exact Or.inr ⟨a, List.mem_cons_self, h3.symm⟩
      · exact Or.inr ⟨p, List.mem_cons_of_mem _ hp, h3⟩

/-- Coordinates in the range the initial values of lines 550-551 allow for. -/
def InRange (F : List Pt) : Prop := ∀ p ∈ F, ∀ i, |p i| ≤ 10 ^ 100

theorem far_bounds {F : List Pt} (h : F ≠ []) (hr : InRange F) (i : Nat) : Bounds F i (farLo F i) (farHi F i) := by
  obtain ⟨a1, a2, a3⟩ := farLo_aux i F (10 ^ 100)
  obtain ⟨b1, b2, b3⟩ := farHi_aux i F (-(10 ^ 100))
  obtain ⟨p, hp⟩ := List.exists_mem_of_ne_nil F h
  refine ⟨a2, b2, ?_, ?_⟩
  · rcases a3 with h' | h'
    · refine ⟨p, hp, le_antisymm ?_ (a2 p hp)⟩
      have := (abs_le.mp (hr p hp i)).2
      unfold farLo; rw [h']; exact this
    · exact h'
  · rcases b3 with h' | h'
    · refine ⟨p, hp, le_antisymm (b2 p hp) ?_⟩
      have := (abs_le.mp (hr p hp i)).1
      unfold farHi; rw [h']; exact this
    · exact h'

theorem Bounds.unique {P : List Pt} {i : Nat} {lo hi lo' hi' : ℝ} (h : Bounds P i lo hi) (h' : Bounds P i lo' hi') : lo = lo' ∧ hi = hi' := by
  obtain ⟨p, hp, e1⟩ := h.lowAt
  obtain ⟨q, hq, e2⟩ := h.highAt
  obtain ⟨p', hp', e3⟩ := h'.lowAt
  obtain ⟨q', hq', e4⟩ := h'.highAt
  constructor
  · apply le_antisymm
    · rw [← e3]; exact h.low _ hp'
    · rw [← e1]; exact h'.low _ hp
  · apply le_antisymm
    · rw [← e2]; exact h'.high _ hq
    · rw [← e4]; exact h.high _ hq'

theorem far_side {F : List Pt} (h : F ≠ []) (hr : InRange F) : (fun i => farHi F i - farLo F i) = side F := by
  funext i
  obtain ⟨e1, e2⟩ := (far_bounds h hr i).unique (bounds_of h i)
  unfold side
  rw [e1, e2]

theorem centre_mean (P : List Pt) : centre P = mean P := by
  funext i
  unfold centre mean
  congr 1
  have : ∀ (L : List Pt) (s : ℝ), L.foldl (fun s p => s + p i) s = s + (L.map fun p => p i).sum := by
    intro L
    induction L with
    | nil => intro s; simp
    | cons a L ih => intro s; rw [List.foldl_cons, ih, List.map_cons, List.sum_cons]; ring
  rw [this, zero_add]

theorem groupPick_spec (dim : Nat) {P : List Pt} (h : P ≠ []) (grp : List Pt) :
    (∀ p, p ∈ groupPick dim P grp ↔ ∃ j, p = P.getD j (fun _ => 0) ∧ ((∃ a ∈ grp, Nearest dim P a j) ∨ (grp = [] ∧ Nearest dim P (mean P) j))) ∧
    (groupPick dim P grp).Sublist P ∧ groupPick dim P grp ≠ [] ∧ (groupPick dim P grp).length ≤ grp.length + 1 := by
  by_cases hg : grp = []
  · subst hg
    have e : groupPick dim P [] = [P.getD (nearest dim P (mean P)) fun _ => 0] := by unfold groupPick; rw [if_pos rfl, centre_mean]
    have hN := (nearest_spec dim h (mean P) _).mp rfl
    rw [e]
    refine ⟨fun p => ?_, ?_, by simp, by simp⟩
    · rw [List.mem_singleton]
      constructor
      · rintro rfl; exact ⟨_, rfl, Or.inr ⟨rfl, hN⟩⟩
      · rintro ⟨j, rfl, ⟨a, ha, _⟩ | ⟨_, hj⟩⟩
        · simp at ha
        · rw [(nearest_spec dim h (mean P) j).mpr hj]
    · rw [List.singleton_sublist]; exact getD_mem' hN.lt
  · obtain ⟨f1, f2, f3, f4, f5⟩ := flagged_spec dim h grp
    have e : groupPick dim P grp = select P (flagged dim P grp) := by unfold groupPick; rw [if_neg hg]
    rw [e]
    refine ⟨fun p => ?_, select_sublist P f1 fun j hj => ?_, ?_, ?_⟩
    · unfold select
      rw [List.mem_map]
      constructor
      · rintro ⟨j, hj, rfl⟩; exact ⟨j, rfl, Or.inl ((f2 j).mp hj)⟩
      · rintro ⟨j, rfl, h' | ⟨h', _⟩⟩
        · exact ⟨j, (f2 j).mpr h', rfl⟩
        · exact absurd h' hg
    · obtain ⟨a, _, hN⟩ := (f2 j).mp hj
      exact hN.lt
    · unfold select; simpa using f5 hg
    · unfold select; rw [List.length_map]; omega

theorem list_sum_range (f : Nat → Nat) (n : Nat) : ((List.range n).map f).sum = ∑ k ∈ range n, f k := by
  induction n with
  | zero => rfl
  | succ n ih => rw [List.range_succ, List.map_append, List.sum_append, ih, Finset.sum_range_succ]; simp

theorem filter_sum {α : Type} (f : α → Nat) (n : Nat) (L : List α) : ∑ k ∈ range n, (L.filter fun a => f a = k).length ≤ L.length := by
  induction L with
  | nil => simp
  | cons a L ih =>
    have : ∀ k, ((a :: L).filter fun a => f a = k).length = (L.filter fun a => f a = k).length + if f a = k then 1 else 0 := by
      intro k
      rw [List.filter_cons]
      by_cases h : f a = k <;> simp [h]
    simp only [this, Finset.sum_add_distrib, Finset.sum_ite_eq, List.length_cons]
    split_ifs <;> omega

theorem pickFar_ok (dim : Nat) {far : List (List Pt)} (h0 : far ≠ []) (h : ∀ P ∈ far, P ≠ []) (lo hi : Nat → ℝ) (g : Nat → Nat) :
    ∃ y, pickFar dim far lo hi g = .ok y ∧ (∀ p, p ∈ y ↔ Picked dim far (anchors 2 dim lo hi (fun i => hi i - lo i) g) p) ∧
      (∀ p ∈ y, p ∈ far.flatten) ∧ (∀ P ∈ far, ∃ p ∈ P, p ∈ y) ∧ y.length ≤ ∏ j ∈ range dim, (g j + 1) + far.length := by
  have hne : far.map mean ≠ [] := by simpa using h0
  have hiG : ∀ a k, k < far.length → (argMin (fun k => dist2 dim a (centre (far.getD k []))) far.length = k ↔ Nearest dim (far.map mean) a k) := by
    intro a k hk
    rw [← nearest_spec dim hne a k]
    have : argMin (fun k => dist2 dim a (centre (far.getD k []))) far.length = nearest dim (far.map mean) a := by
      unfold nearest argMin
      rw [List.length_map]
      have hx : ∀ j, j < far.length → dist2 dim a (centre (far.getD j [])) = dist2 dim a ((far.map mean).getD j fun _ => 0) := by
        intro j hj
        rw [centre_mean, List.getD_eq_getElem _ _ hj, List.getD_eq_getElem _ _ (by simpa using hj), List.getElem_map]
      beta_reduce
      rw [hx 0 (List.length_pos_iff.mpr h0)]
      congr 1
      refine List.foldl_ext _ _ _ fun m j hj => ?_
      rw [hx j (by have := List.mem_range'_1.mp hj; omega)]
    rw [this]
  have hmem : ∀ k < far.length, far.getD k [] ∈ far := fun k hk => by rw [List.getD_eq_getElem _ _ hk]; exact List.getElem_mem hk
  unfold pickFar
  rw [if_neg (by rintro ⟨P, hP, rfl⟩; exact h _ hP rfl)]
  dsimp only
  set anc := anchors 2 dim lo hi (fun i => hi i - lo i) g with hanc
  refine ⟨_, rfl, fun p => ?_, fun p hp => ?_, fun P hP => ?_, ?_⟩
  · rw [List.mem_flatMap]
    constructor
    · rintro ⟨k, hk, hp⟩
      have hk := List.mem_range.mp hk
      obtain ⟨j, hj, hc⟩ := ((groupPick_spec dim (h _ (hmem k hk)) _).1 p).mp hp
      refine ⟨k, hk, j, hj, ?_⟩
      rcases hc with ⟨a, ha, hN⟩ | ⟨he, hN⟩
      · left
        obtain ⟨ha1, ha2⟩ := List.mem_filter.mp ha
        exact ⟨a, ha1, (hiG a k hk).mp (of_decide_eq_true ha2), hN⟩
      · right
        refine ⟨fun a ha hN' => ?_, hN⟩
        have : a ∈ anc.filter fun a => argMin (fun k => dist2 dim a (centre (far.getD k []))) far.length = k :=
          List.mem_filter.mpr ⟨ha, decide_eq_true ((hiG a k hk).mpr hN')⟩
        rw [he] at this; simp at this
    · rintro ⟨k, hk, j, hj, hc⟩
      refine ⟨k, List.mem_range.mpr hk, ((groupPick_spec dim (h _ (hmem k hk)) _).1 p).mpr ⟨j, hj, ?_⟩⟩
      rcases hc with ⟨a, ha, h1, h2⟩ | ⟨h1, h2⟩
      · exact Or.inl ⟨a, List.mem_filter.mpr ⟨ha, decide_eq_true ((hiG a k hk).mpr h1)⟩, h2⟩
      · right
        refine ⟨List.filter_eq_nil_iff.mpr fun a ha hd => h1 a ha ((hiG a k hk).mp (of_decide_eq_true hd)), h2⟩
  · obtain ⟨k, hk, hp⟩ := List.mem_flatMap.mp hp
    have hk := List.mem_range.mp hk
    exact List.mem_flatten.mpr ⟨_, hmem k hk, (groupPick_spec dim (h _ (hmem k hk)) _).2.1.subset hp⟩
  · obtain ⟨k, hk, rfl⟩ := List.getElem_of_mem hP
    have e : far.getD k [] = far[k] := List.getD_eq_getElem _ _ hk
    obtain ⟨_, s1, s2, _⟩ := groupPick_spec dim (h _ (hmem k hk)) (anc.filter fun a => argMin (fun k => dist2 dim a (centre (far.getD k []))) far.length = k)
    obtain ⟨p, hp⟩ := List.exists_mem_of_ne_nil _ s2
    refine ⟨p, ?_, List.mem_flatMap.mpr ⟨k, List.mem_range.mpr hk, hp⟩⟩
    rw [← e]; exact s1.subset hp
  · rw [List.length_flatMap]
    have hle : ∀ k ∈ List.range far.length, (groupPick dim (far.getD k []) (anc.filter fun a => argMin (fun k => dist2 dim a (centre (far.getD k []))) far.length = k)).length ≤
        (anc.filter fun a => argMin (fun k => dist2 dim a (centre (far.getD k []))) far.length = k).length + 1 :=
      fun k hk => (groupPick_spec dim (h _ (hmem k (List.mem_range.mp hk))) _).2.2.2
    have h1 := List.sum_le_sum hle
    refine le_trans h1 ?_
    have h2 : ((List.range far.length).map fun k => (anc.filter fun a => argMin (fun k => dist2 dim a (centre (far.getD k []))) far.length = k).length + 1).sum =
        ∑ k ∈ range far.length, ((anc.filter fun a => argMin (fun k => dist2 dim a (centre (far.getD k []))) far.length = k).length + 1) := list_sum_range _ _
    rw [h2, Finset.sum_add_distrib, Finset.sum_const, Finset.card_range, smul_eq_mul, mul_one]
    have h3 := filter_sum (fun a => argMin (fun k => dist2 dim a (centre (far.getD k []))) far.length) far.length anc
    have h4 : anc.length = ∏ j ∈ range dim, (g j + 1) := anchors_length _ _ _ _ _ _
    omega

end H2Pack.Sample
