import Verif.Spec.SPDHSS
import Verif.Props.HSSBuild
import Mathlib.Logic.Relation

set_option linter.unusedSectionVars false

/-! # SPDHSS: the visited pairs -/

namespace H2Pack.SPD
open H2Pack.Part

section
variable {K : Type}

/-- The calls made by a call of the search. -/
def calls (A : Arr K) (adm : Nat → Nat → Bool) (x : Nat × Nat) : List (Nat × Nat) :=
  if x.1 = x.2 then (kids A x.1).map (fun c => (c, c)) ++ pairsOf (kids A x.1)
  else if adm x.1 x.2 = true then []
  else if A.nChild x.1 = 0 ∧ A.nChild x.2 = 0 then []
  else if A.nChild x.1 = 0 then (kids A x.2).map (fun d => (x.1, d))
  else if A.nChild x.2 = 0 then (kids A x.1).map (fun c => (c, x.2))
  else (kids A x.1).flatMap fun c => (kids A x.2).map fun d => (c, d)

/-- `f` adds the admissible and inadmissible pairs among those in `S`. -/
def Adds (A : Arr K) (adm : Nat → Nat → Bool) (f : Pairs → Res Pairs) (S : Nat × Nat → Prop) : Prop :=
  ∀ s s', f s = .ok s' → ∀ x : Nat × Nat,
    (x ∈ s'.adm ↔ x ∈ s.adm ∨ S x ∧ x.1 ≠ x.2 ∧ adm x.1 x.2 = true) ∧
    (x ∈ s'.inadm ↔ x ∈ s.inadm ∨ S x ∧ x.1 ≠ x.2 ∧ adm x.1 x.2 = false ∧ A.nChild x.1 = 0 ∧ A.nChild x.2 = 0)

theorem Adds.bind {A : Arr K} {adm : Nat → Nat → Bool} {f g : Pairs → Res Pairs} {S T : Nat × Nat → Prop} (hf : Adds A adm f S) (hg : Adds A adm g T) :
    Adds A adm (fun s => f s >>= g) (fun x => S x ∨ T x) := by
  intro s s' h x
  have h : f s >>= g = .ok s' := h
  cases hfs : f s with
  | ub => rw [hfs] at h; simp at h
  | diverge => rw [hfs] at h; simp at h
  | ok t =>
    rw [hfs, Res.bind_ok] at h
    have h1 := hf s t hfs x
    have h2 := hg t s' h x
    rw [h2.1, h1.1, h2.2, h1.2]
    exact ⟨by rw [or_and_right, or_assoc], by rw [or_and_right, or_assoc]⟩

theorem Adds.each {A : Arr K} {adm : Nat → Nat → Bool} {α : Type} {f : α → Pairs → Res Pairs} {S : α → Nat × Nat → Prop} (l : List α)
    (h : ∀ y ∈ l, Adds A adm (f y) (S y)) : Adds A adm (forEach f l) (fun x => ∃ y ∈ l, S y x) := by
  induction l with
  | nil =>
    intro s s' hs x
    rw [forEach] at hs
    obtain rfl : s = s' := by injection hs
    simp
  | cons y l ih =>
    intro s s' hs x
    have := Adds.bind (h y (by simp)) (ih (fun z hz => h z (by simp [hz])))
    have := this s s' (by rw [forEach] at hs; exact hs) x
    simpa [List.mem_cons, or_and_right, exists_or] using this

theorem Adds.pairs {A : Arr K} {adm : Nat → Nat → Bool} {f : Nat → Nat → Pairs → Res Pairs} {S : Nat → Nat → Nat × Nat → Prop} (l : List Nat)
    (h : ∀ y ∈ pairsOf l, Adds A adm (f y.1 y.2) (S y.1 y.2)) : Adds A adm (forPairs f l) (fun x => ∃ y ∈ pairsOf l, S y.1 y.2 x) := by
  induction l with
  | nil =>
    intro s s' hs x
    rw [forPairs] at hs
    obtain rfl : s = s' := by injection hs
    simp [pairsOf]
  | cons y l ih =>
    intro s s' hs x
    have h1 : Adds A adm (forEach (f y) l) _ := Adds.each (S := fun z => S y z) l (fun z hz => h (y, z) (by
      rw [pairsOf, List.mem_append, List.mem_map]; exact Or.inl ⟨z, hz, rfl⟩))
    have := Adds.bind h1 (ih (fun z hz => h z (by rw [pairsOf, List.mem_append]; exact Or.inr hz)))
    have := this s s' (by rw [forPairs] at hs; exact hs) x
    have e : (∃ z ∈ pairsOf (y :: l), S z.1 z.2 x) ↔ (∃ z ∈ l, S y z x) ∨ ∃ z ∈ pairsOf l, S z.1 z.2 x := by
      rw [pairsOf]
      constructor
      · rintro ⟨z, hz, hS⟩
        rcases List.mem_append.1 hz with hz | hz
        · obtain ⟨w, hw, rfl⟩ := List.mem_map.1 hz
          exact Or.inl ⟨w, hw, hS⟩
        · exact Or.inr ⟨z, hz, hS⟩
      · rintro (⟨z, hz, hS⟩ | ⟨z, hz, hS⟩)
        · exact ⟨(y, z), List.mem_append.2 (Or.inl (List.mem_map.2 ⟨z, hz, rfl⟩)), hS⟩
        · exact ⟨z, List.mem_append.2 (Or.inr hz), hS⟩
    beta_reduce at this ⊢
    rw [e]
    exact this

theorem Adds.congr {A : Arr K} {adm : Nat → Nat → Bool} {f : Pairs → Res Pairs} {S T : Nat × Nat → Prop} (h : Adds A adm f S)
    (e : ∀ x : Nat × Nat, x.1 ≠ x.2 → (S x ↔ T x)) : Adds A adm f T := by
  intro s s' hs x
  have := h s s' hs x
  by_cases hx : x.1 = x.2
  · simpa [hx] using this
  · rw [e x hx] at this; exact this

/-- What is reached from a call. -/
def Reach (A : Arr K) (adm : Nat → Nat → Bool) : Nat × Nat → Nat × Nat → Prop := Relation.ReflTransGen fun x y => y ∈ calls A adm x

theorem reach_iff {A : Arr K} {adm : Nat → Nat → Bool} {x y : Nat × Nat} : Reach A adm x y ↔ x = y ∨ ∃ z ∈ calls A adm x, Reach A adm z y := by
  unfold Reach
  constructor
  · intro h
    rcases Relation.ReflTransGen.cases_head h with h | ⟨z, h1, h2⟩
    · exact Or.inl h
    · exact Or.inr ⟨z, h1, h2⟩
  · rintro (rfl | ⟨z, h1, h2⟩)
    · exact Relation.ReflTransGen.refl
    · exact Relation.ReflTransGen.head h1 h2

theorem calc_adds (A : Arr K) (adm : Nat → Nat → Bool) : ∀ (fuel a b : Nat), Adds A adm (calcPairs A adm 0 fuel a b) (Reach A adm (a, b)) := by
  intro fuel
  induction fuel with
  | zero => intro a b s s' h; rw [calcPairs] at h; cases h
  | succ fuel ih =>
    intro a b
    by_cases hn : a < A.nNode ∧ b < A.nNode
    swap
    · intro s s' h
      rw [calcPairs, if_neg hn] at h; cases h
    have mid : ∀ {f : Pairs → Res Pairs} {S : Nat × Nat → Prop}, Adds A adm f S → (a = b ∨ adm a b = false ∧ ¬ (A.nChild a = 0 ∧ A.nChild b = 0)) →
        (∀ s, calcPairs A adm 0 (fuel+1) a b s = f s) → (∀ x, S x ↔ ∃ z ∈ calls A adm (a, b), Reach A adm z x) →
        Adds A adm (calcPairs A adm 0 (fuel+1) a b) (Reach A adm (a, b)) := by
      intro f S hf hab he hS s s' hs x
      rw [he] at hs
      have := hf s s' hs x
      rw [hS x] at this
      have e : ∀ P : Prop, ((a, b) = x → ¬ P) → (Reach A adm (a, b) x ∧ P ↔ (∃ z ∈ calls A adm (a, b), Reach A adm z x) ∧ P) := by
        intro P hP
        rw [reach_iff]
        constructor
        · rintro ⟨h | h, hp⟩
          · exact absurd hp (hP h)
          · exact ⟨h, hp⟩
        · rintro ⟨h, hp⟩
          exact ⟨Or.inr h, hp⟩
      rw [e, e]
      · exact this
      · rintro rfl ⟨h1, h2, h3⟩
        rcases hab with h | h
        · exact h1 h
        · exact h.2 h3
      · rintro rfl ⟨h1, h2⟩
        rcases hab with h | h
        · exact h1 h
        · have h2' : adm a b = true := h2
          rw [h.1] at h2'; cases h2'
    by_cases hab : a = b
    · subst hab
      by_cases h0 : A.nChild a = 0
      · have hk := kids_nil_iff.2 h0
        refine mid (f := fun s => .ok s) (S := fun _ => False) ?_ (Or.inl rfl) ?_ ?_
        · intro s s' h x
          obtain rfl : s = s' := by injection h
          simp
        · intro s; rw [calcPairs, if_pos hn, if_pos rfl, if_pos h0]
        · intro x; simp [calls, hk, pairsOf]
      · have h1 := Adds.each (A := A) (adm := adm) (f := fun c pv => calcPairs A adm 0 fuel c c pv) (S := fun c => Reach A adm (c, c)) (kids A a) (fun c _ => ih c c)
        have h2 := Adds.pairs (A := A) (adm := adm) (f := fun c d pv => calcPairs A adm 0 fuel c d pv) (S := fun c d => Reach A adm (c, d)) (kids A a) (fun y _ => ih y.1 y.2)
        refine mid (h1.bind h2) (Or.inl rfl) ?_ ?_
        · intro s; rw [calcPairs, if_pos hn, if_pos rfl, if_neg h0]
        · intro x
          simp only [calls, if_pos, List.mem_append, List.mem_map]
          constructor
          · rintro (⟨y, hy, h⟩ | ⟨y, hy, h⟩)
            · exact ⟨(y, y), Or.inl ⟨y, hy, rfl⟩, h⟩
            · exact ⟨y, Or.inr hy, h⟩
          · rintro ⟨z, ⟨y, hy, rfl⟩ | hz, h⟩
            · exact Or.inl ⟨y, hy, h⟩
            · exact Or.inr ⟨z, hz, h⟩
    · cases hadm : adm a b with
      | true =>
        intro s s' h x
        rw [calcPairs, if_pos hn, if_neg hab, if_pos ⟨hadm, Nat.zero_le _, Nat.zero_le _⟩] at h
        injection h with h
        subst h
        have hc : calls A adm (a, b) = [] := by rw [calls, if_neg hab, if_pos hadm]
        rw [reach_iff, hc]
        simp only [List.mem_append, List.mem_singleton, List.not_mem_nil, false_and, exists_false, or_false]
        constructor
        · constructor
          · rintro (h | rfl)
            · exact Or.inl h
            · exact Or.inr ⟨rfl, hab, hadm⟩
          · rintro (h | ⟨rfl, _⟩)
            · exact Or.inl h
            · exact Or.inr rfl
        · constructor
          · exact Or.inl
          · rintro (h | ⟨rfl, _, h, _⟩)
            · exact h
            · rw [hadm] at h; cases h
      | false =>
        have hna : ¬ (adm a b = true ∧ 0 ≤ A.level a ∧ 0 ≤ A.level b) := by rw [hadm]; simp
        by_cases h00 : A.nChild a = 0 ∧ A.nChild b = 0
        · intro s s' h x
          rw [calcPairs, if_pos hn, if_neg hab, if_neg hna, if_pos h00] at h
          injection h with h
          subst h
          have hc : calls A adm (a, b) = [] := by rw [calls, if_neg hab, if_neg (by rw [hadm]; simp), if_pos h00]
          rw [reach_iff, hc]
          simp only [List.mem_append, List.mem_singleton, List.not_mem_nil, false_and, exists_false, or_false]
          constructor
          · constructor
            · exact Or.inl
            · rintro (h | ⟨rfl, _, h⟩)
              · exact h
              · rw [hadm] at h; cases h
          · constructor
            · rintro (h | rfl)
              · exact Or.inl h
              · exact Or.inr ⟨rfl, hab, hadm, h00⟩
            · rintro (h | ⟨rfl, _⟩)
              · exact Or.inl h
              · exact Or.inr rfl
        · by_cases ha : A.nChild a = 0
          · refine mid (Adds.each (f := fun d pv => calcPairs A adm 0 fuel a d pv) (kids A b) (fun d _ => ih a d)) (Or.inr ⟨hadm, h00⟩) ?_ ?_
            · intro s; rw [calcPairs, if_pos hn, if_neg hab, if_neg hna, if_neg h00, if_pos ha]
            · intro x
              rw [calls, if_neg hab, if_neg (by rw [hadm]; simp), if_neg h00, if_pos ha]
              simp
          · by_cases hb : A.nChild b = 0
            · refine mid (Adds.each (f := fun c pv => calcPairs A adm 0 fuel c b pv) (kids A a) (fun c _ => ih c b)) (Or.inr ⟨hadm, h00⟩) ?_ ?_
              · intro s; rw [calcPairs, if_pos hn, if_neg hab, if_neg hna, if_neg h00, if_neg ha, if_pos hb]
              · intro x
                rw [calls, if_neg hab, if_neg (by rw [hadm]; simp), if_neg h00, if_neg ha, if_pos hb]
                simp
            · refine mid (Adds.each (f := fun c pv => forEach (fun d pv => calcPairs A adm 0 fuel c d pv) (kids A b) pv) (kids A a)
                (fun c _ => Adds.each (kids A b) (fun d _ => ih c d))) (Or.inr ⟨hadm, h00⟩) ?_ ?_
              · intro s; rw [calcPairs, if_pos hn, if_neg hab, if_neg hna, if_neg h00, if_neg ha, if_neg hb]
              · intro x
                rw [calls, if_neg hab, if_neg (by rw [hadm]; simp), if_neg h00, if_neg ha, if_neg hb]
                simp [List.mem_flatMap]

variable {A : Arr K} {n : Nat} {adm : Nat → Nat → Bool}

/-- Facts about visited pairs. -/
theorem vis_facts (T : ClusterTree A n) {a b : Nat} (h : Vis A adm a b) : a < A.nNode ∧ b < A.nNode ∧ A.ptE a < A.ptS b ∨
    a < A.nNode ∧ b < A.nNode ∧ A.ptE b < A.ptS a := by
  induction h with
  | @sib v k l hv hkl hl =>
    left
    have h0 : A.nChild v ≠ 0 := by omega
    have hlen : (kids A v).length = A.nChild v := by simp [kids]
    have hp := List.pairwise_iff_getElem.1 (T.kids_pairwise hv h0) k l (by omega) (by omega) hkl
    have e1 : (kids A v).getD k 0 = (kids A v)[k]'(by omega) := by simp [List.getD, show k < (kids A v).length by omega]
    have e2 : (kids A v).getD l 0 = (kids A v)[l]'(by omega) := by simp [List.getD, show l < (kids A v).length by omega]
    rw [e1, e2]
    exact ⟨T.kid_lt hv (List.getElem_mem _), T.kid_lt hv (List.getElem_mem _), hp⟩
  | @both a b c d hab _ hc hd ih =>
    rcases ih with ⟨h1, h2, h3⟩ | ⟨h1, h2, h3⟩
    · have := T.kid_cluster h1 hc
      have := T.kid_cluster h2 hd
      exact Or.inl ⟨T.kid_lt h1 hc, T.kid_lt h2 hd, by omega⟩
    · have := T.kid_cluster h1 hc
      have := T.kid_cluster h2 hd
      exact Or.inr ⟨T.kid_lt h1 hc, T.kid_lt h2 hd, by omega⟩
  | @left a b d hab _ _ hd ih =>
    rcases ih with ⟨h1, h2, h3⟩ | ⟨h1, h2, h3⟩
    · have := T.kid_cluster h2 hd
      exact Or.inl ⟨h1, T.kid_lt h2 hd, by omega⟩
    · have := T.kid_cluster h2 hd
      exact Or.inr ⟨h1, T.kid_lt h2 hd, by omega⟩
  | @right a b c hab _ _ hc ih =>
    rcases ih with ⟨h1, h2, h3⟩ | ⟨h1, h2, h3⟩
    · have := T.kid_cluster h1 hc
      exact Or.inl ⟨T.kid_lt h1 hc, h2, by omega⟩
    · have := T.kid_cluster h1 hc
      exact Or.inr ⟨T.kid_lt h1 hc, h2, by omega⟩

theorem vis_lt (T : ClusterTree A n) {a b : Nat} (h : Vis A adm a b) : a < A.nNode ∧ b < A.nNode := by
  rcases vis_facts T h with h | h <;> exact ⟨h.1, h.2.1⟩

theorem vis_ne (T : ClusterTree A n) {a b : Nat} (h : Vis A adm a b) : a ≠ b := by
  rintro rfl
  have := T.clusterLe a (vis_lt T h).1
  rcases vis_facts T h with h | h <;> omega

/-- The nodes are on the same level, or the one on the higher level is a leaf. -/
theorem vis_level (T : ClusterTree A n) {a b : Nat} (h : Vis A adm a b) : (A.level a < A.level b → A.nChild a = 0) ∧ (A.level b < A.level a → A.nChild b = 0) ∧
    1 ≤ A.level a ∧ 1 ≤ A.level b := by
  induction h with
  | @sib v k l hv hkl hl =>
    have hlen : (kids A v).length = A.nChild v := by simp [kids]
    have m1 : (kids A v).getD k 0 ∈ kids A v := by
      have : k < (kids A v).length := by omega
      simp [List.getD, this]
    have m2 : (kids A v).getD l 0 ∈ kids A v := by
      have : l < (kids A v).length := by omega
      simp [List.getD, this]
    rw [T.childLevel v hv _ m1, T.childLevel v hv _ m2]
    omega
  | @both a b c d hab _ hc hd ih =>
    have hl := vis_lt T hab
    rw [T.childLevel a hl.1 _ hc, T.childLevel b hl.2 _ hd]
    have e1 : A.nChild a ≠ 0 := fun h => by rw [kids_nil_iff.2 h] at hc; simp at hc
    have e2 : A.nChild b ≠ 0 := fun h => by rw [kids_nil_iff.2 h] at hd; simp at hd
    refine ⟨fun h => ?_, fun h => ?_, by omega, by omega⟩
    · exact absurd (ih.1 (by omega)) e1
    · exact absurd (ih.2.1 (by omega)) e2
  | @left a b d hab _ ha hd ih =>
    have hl := vis_lt T hab
    rw [T.childLevel b hl.2 _ hd]
    have e2 : A.nChild b ≠ 0 := fun h => by rw [kids_nil_iff.2 h] at hd; simp at hd
    refine ⟨fun _ => ha, fun h => ?_, ih.2.2.1, by omega⟩
    exact absurd (ih.2.1 (by omega)) e2
  | @right a b c hab _ hb hc ih =>
    have hl := vis_lt T hab
    rw [T.childLevel a hl.1 _ hc]
    have e1 : A.nChild a ≠ 0 := fun h => by rw [kids_nil_iff.2 h] at hc; simp at hc
    refine ⟨fun h => ?_, fun _ => hb, by omega, ih.2.2.2⟩
    exact absurd (ih.1 (by omega)) e1

/-- What is reached from the root. -/
theorem reach_vis (T : ClusterTree A n) (x : Nat × Nat) : Reach A adm (A.nNode - 1, A.nNode - 1) x ↔ (x.1 = x.2 ∧ x.1 < A.nNode) ∨ Vis A adm x.1 x.2 := by
  have hr : A.nNode - 1 < A.nNode := by have := T.nonempty; omega
  constructor
  · intro h
    induction h with
    | refl => exact Or.inl ⟨rfl, hr⟩
    | @tail y z _ hz ih =>
      obtain ⟨z1, z2⟩ := z
      obtain ⟨y1, y2⟩ := y
      dsimp only at ih ⊢
      unfold calls at hz
      dsimp only at hz
      rcases ih with ⟨h1, h2⟩ | hv
      · subst h1
        rw [if_pos rfl, List.mem_append] at hz
        rcases hz with hz | hz
        · obtain ⟨c, hc, he⟩ := List.mem_map.1 hz
          injection he with e1 e2
          subst e1; subst e2
          exact Or.inl ⟨rfl, T.kid_lt h2 hc⟩
        · obtain ⟨i, j, h3, h4, h5, h6⟩ := (mem_pairsOf _ _).1 hz
          dsimp only at h5 h6
          right
          rw [h5, h6]
          exact Vis.sib h2 h3 (by simpa [kids] using h4)
      · right
        rw [if_neg (vis_ne T hv)] at hz
        by_cases hadm : adm y1 y2 = true
        · rw [if_pos hadm] at hz; simp at hz
        · rw [if_neg hadm] at hz
          have hadm : adm y1 y2 = false := by simpa using hadm
          by_cases h0 : A.nChild y1 = 0 ∧ A.nChild y2 = 0
          · rw [if_pos h0] at hz; simp at hz
          · rw [if_neg h0] at hz
            by_cases h1 : A.nChild y1 = 0
            · rw [if_pos h1] at hz
              obtain ⟨d, hd, he⟩ := List.mem_map.1 hz
              injection he with e1 e2
              subst e1; subst e2
              exact Vis.left hv hadm h1 hd
            · rw [if_neg h1] at hz
              by_cases h2 : A.nChild y2 = 0
              · rw [if_pos h2] at hz
                obtain ⟨d, hd, he⟩ := List.mem_map.1 hz
                injection he with e1 e2
                subst e1; subst e2
                exact Vis.right hv hadm h2 hd
              · rw [if_neg h2] at hz
                obtain ⟨c, hc, hz⟩ := List.mem_flatMap.1 hz
                obtain ⟨d, hd, he⟩ := List.mem_map.1 hz
                injection he with e1 e2
                subst e1; subst e2
                exact Vis.both hv hadm hc hd
  · have hdiag : ∀ k v, v + k = A.nNode - 1 → Reach A adm (A.nNode - 1, A.nNode - 1) (v, v) := by
      intro k
      induction k using Nat.strong_induction_on with
      | _ k ih =>
        intro v hv
        rcases Nat.eq_zero_or_pos k with h0 | hk
        · obtain rfl : v = A.nNode - 1 := by omega
          exact Relation.ReflTransGen.refl
        · obtain ⟨w, hw, _, hm⟩ := T.childOfParent v (by omega)
          have hlt := T.childLt w hw v hm
          refine Relation.ReflTransGen.tail (ih (A.nNode - 1 - w) (by omega) w (by omega)) ?_
          simp only [calls, if_pos]
          exact List.mem_append.2 (Or.inl (List.mem_map.2 ⟨v, hm, rfl⟩))
    obtain ⟨x1, x2⟩ := x
    dsimp only
    rintro (⟨rfl, h⟩ | hv)
    · exact hdiag (A.nNode - 1 - x1) x1 (by omega)
    · induction hv with
      | @sib v k l hv hkl hl =>
        refine Relation.ReflTransGen.tail (hdiag (A.nNode - 1 - v) v (by omega)) ?_
        simp only [calls, if_pos]
        refine List.mem_append.2 (Or.inr ((mem_pairsOf _ _).2 ⟨k, l, hkl, by simpa [kids] using hl, rfl, rfl⟩))
      | @both a b c d hab ha hc hd ih =>
        refine Relation.ReflTransGen.tail ih ?_
        have e1 : A.nChild a ≠ 0 := fun h => by rw [kids_nil_iff.2 h] at hc; simp at hc
        have e2 : A.nChild b ≠ 0 := fun h => by rw [kids_nil_iff.2 h] at hd; simp at hd
        unfold calls
        dsimp only
        rw [if_neg (vis_ne T hab), if_neg (by rw [ha]; simp), if_neg (by tauto), if_neg e1, if_neg e2]
        exact List.mem_flatMap.2 ⟨c, hc, List.mem_map.2 ⟨d, hd, rfl⟩⟩
      | @left a b d hab ha h0 hd ih =>
        refine Relation.ReflTransGen.tail ih ?_
        have e2 : A.nChild b ≠ 0 := fun h => by rw [kids_nil_iff.2 h] at hd; simp at hd
        unfold calls
        dsimp only
        rw [if_neg (vis_ne T hab), if_neg (by rw [ha]; simp), if_neg (by tauto), if_pos h0]
        exact List.mem_map.2 ⟨d, hd, rfl⟩
      | @right a b c hab ha h0 hc ih =>
        refine Relation.ReflTransGen.tail ih ?_
        have e1 : A.nChild a ≠ 0 := fun h => by rw [kids_nil_iff.2 h] at hc; simp at hc
        unfold calls
        dsimp only
        rw [if_neg (vis_ne T hab), if_neg (by rw [ha]; simp), if_neg (by tauto), if_neg e1, if_pos h0]
        exact List.mem_map.2 ⟨c, hc, rfl⟩

/-- The result of the search. -/
theorem found_spec (T : ClusterTree A n) {pv : Pairs} {init : Nat}
    (h : Returns (fun fuel => calcPairs A adm 0 fuel (A.nNode - 1) (A.nNode - 1) ⟨[], [], init⟩) pv) :
    (∀ x : Nat × Nat, x ∈ pv.adm ↔ Vis A adm x.1 x.2 ∧ adm x.1 x.2 = true) ∧
    (∀ x : Nat × Nat, x ∈ pv.inadm ↔ Vis A adm x.1 x.2 ∧ adm x.1 x.2 = false ∧ A.nChild x.1 = 0 ∧ A.nChild x.2 = 0) ∧
    (∀ p < n, ∀ q < n, (blocks A pv).countP (fun x => Holds A p q x) = 1) ∧
    pv.minAdm = (pv.adm.map (fun x => max (A.level x.1) (A.level x.2))).foldl min init := by
  obtain ⟨F, hF⟩ := h
  obtain ⟨pv', h1, h2, h3, h4⟩ := search_spec T adm 0 init (max F (2 * A.nNode)) (le_max_right _ _)
  have hr := hF (max F (2 * A.nNode)) (le_max_left _ _)
  dsimp only at hr
  rw [h1] at hr
  obtain rfl : pv' = pv := by injection hr
  refine ⟨?_, ?_, h4, h3⟩
  · intro x
    have := (calc_adds A adm _ _ _ _ _ h1 x).1
    rw [this, reach_vis T]
    constructor
    · rintro (h | ⟨h | h, h5, h6⟩)
      · simp at h
      · exact absurd h.1 h5
      · exact ⟨h, h6⟩
    · rintro ⟨h, h6⟩
      exact Or.inr ⟨Or.inr h, vis_ne T h, h6⟩
  · intro x
    have := (calc_adds A adm _ _ _ _ _ h1 x).2
    rw [this, reach_vis T]
    constructor
    · rintro (h | ⟨h | h, h5, h6⟩)
      · simp at h
      · exact absurd h.1 h5
      · exact ⟨h, h6⟩
    · rintro ⟨h, h6⟩
      exact Or.inr ⟨Or.inr h, vis_ne T h, h6⟩

/-- No pair is recorded twice. -/
theorem found_nodup (T : ClusterTree A n) {pv : Pairs} {init : Nat}
    (h : Returns (fun fuel => calcPairs A adm 0 fuel (A.nNode - 1) (A.nNode - 1) ⟨[], [], init⟩) pv) : pv.adm.Nodup ∧ pv.inadm.Nodup := by
  obtain ⟨h1, h2, h3, _⟩ := found_spec T h
  have key : ∀ L : List (Nat × Nat), (∀ p q, L.countP (fun x => Holds A p q x) ≤ (blocks A pv).countP (fun x => Holds A p q x)) →
      (∀ x ∈ L, Vis A adm x.1 x.2) → L.Nodup := by
    intro L hL hv
    rw [List.nodup_iff_count_le_one]
    intro x
    by_cases hx : x ∈ L
    · have hn := vis_lt T (hv x hx)
      have := h3 (A.ptS x.1) (by have := T.clusterLe _ hn.1; have := T.clusterLt _ hn.1; omega) (A.ptS x.2) (by
        have := T.clusterLe _ hn.2; have := T.clusterLt _ hn.2; omega)
      have hle := hL (A.ptS x.1) (A.ptS x.2)
      have : L.count x ≤ L.countP (fun x' => Holds A (A.ptS x.1) (A.ptS x.2) x') := by
        unfold List.count
        apply List.countP_mono_left
        intro y _ hy
        have : y = x := by simpa using hy
        subst this
        simp only [decide_eq_true_eq]
        exact ⟨⟨le_refl _, T.clusterLe _ hn.1⟩, le_refl _, T.clusterLe _ hn.2⟩
      omega
    · rw [List.count_eq_zero_of_not_mem hx]; omega
  constructor
  · refine key _ (fun p q => ?_) (fun x hx => ((h1 x).1 hx).1)
    unfold blocks
    rw [List.countP_append, List.countP_append (l₁ := pv.adm)]
    omega
  · refine key _ (fun p q => ?_) (fun x hx => ((h2 x).1 hx).1)
    unfold blocks
    rw [List.countP_append, List.countP_append (l₁ := List.map _ _), List.countP_append (l₁ := pv.inadm)]
    omega

end

end H2Pack.SPD
