import Verif.Proof.AFN2
import Mathlib.Data.Finset.Card
import Mathlib.Data.List.Nodup
import Mathlib.Data.List.Perm.Subperm

/-! # Farthest point sampling: repeated points; the order of the points -/

namespace H2Pack.AFN
open Finset

variable {K : Type} [Field K] [LinearOrder K]

/-- the position as a function of the dimensions in use -/
def loc (F : FpsIn K) (j : Nat) : Fin F.dim → K := fun d => F.coord d j

theorem sqDist_loc (F : FpsIn K) {j j' : Nat} (h : loc F j = loc F j') (q : Nat → K) : sqDist F j q = sqDist F j' q := by
  unfold sqDist
  refine Finset.sum_congr rfl (fun d hd => ?_)
  have := congrFun h ⟨d, Finset.mem_range.1 hd⟩
  have : F.coord d j = F.coord d j' := this
  rw [this]

theorem gap_loc (F : FpsIn K) (idx : Nat → Nat) (i : Nat) {j j' : Nat} (h : loc F j = loc F j') : gap F idx i j = gap F idx i j' := by
  unfold gap
  congr 1
  funext s
  exact sqDist_loc F h _

theorem sqDist_self (F : FpsIn K) {j i : Nat} (h : loc F j = loc F i) : sqDist F j (pos F i) = 0 := by
  rw [sqDist_loc F h]
  unfold sqDist pos
  exact Finset.sum_eq_zero (fun d _ => by rw [sub_self]; exact zero_pow (by omega))

section
variable [IsStrictOrderedRing K]

theorem sqDist_nonneg (F : FpsIn K) (j : Nat) (q : Nat → K) : 0 ≤ sqDist F j q := Finset.sum_nonneg (fun _ _ => sq_nonneg _)

theorem sqDist_zero (F : FpsIn K) {j i : Nat} (h : sqDist F j (pos F i) ≤ 0) : loc F j = loc F i := by
  have h0 : sqDist F j (pos F i) = 0 := le_antisymm h (sqDist_nonneg F j _)
  unfold sqDist at h0
  rw [Finset.sum_eq_zero_iff_of_nonneg (fun _ _ => sq_nonneg _)] at h0
  funext d
  have := h0 d.1 (Finset.mem_range.2 d.2)
  have := pow_eq_zero_iff (two_ne_zero) |>.1 this
  exact sub_eq_zero.1 this

theorem gap_nonneg (F : FpsIn K) (idx : Nat → Nat) (i j : Nat) : 0 ≤ gap F idx i j := by
  unfold gap
  exact (Finset.le_inf'_iff _ _).2 (fun s _ => sqDist_nonneg F j _)

theorem gap_zero_of (F : FpsIn K) (idx : Nat → Nat) (i j s : Nat) (hs : s ≤ i) (h : loc F j = loc F (idx s)) : gap F idx i j = 0 := by
  refine le_antisymm ?_ (gap_nonneg F idx i j)
  rw [← sqDist_self F h]
  exact Finset.inf'_le _ (Finset.mem_range.2 (by omega))

theorem loc_of_gap (F : FpsIn K) (idx : Nat → Nat) (i j : Nat) (h : gap F idx i j ≤ 0) : ∃ s ≤ i, loc F j = loc F (idx s) := by
  unfold gap at h
  obtain ⟨s, hs, h⟩ := (Finset.inf'_le_iff _).1 h
  exact ⟨s, by have := Finset.mem_range.1 hs; omega, sqDist_zero F h⟩

/-- a selected point is the first one at its position -/
theorem sel_low (F : FpsIn K) (k : Nat) (idx : Nat → Nat) (hF : Farthest F k idx) (i : Nat) (hi : i < max 1 k) (j : Nat) (h : loc F j = loc F (idx i)) :
    idx i ≤ j := by
  by_contra hn
  rw [not_le] at hn
  cases i with
  | zero =>
    have := hF.firstLow j hn
    rw [sqDist_loc F h] at this
    exact lt_irrefl _ this
  | succ i =>
    have := hF.nextLow i (by omega) j hn
    rw [gap_loc F idx i h] at this
    exact lt_irrefl _ this

theorem sel_lt (F : FpsIn K) (k : Nat) (idx : Nat → Nat) (hF : Farthest F k idx) (i : Nat) (hi : i < max 1 k) : idx i < F.npt := by
  cases i with
  | zero => exact hF.firstLt
  | succ i => exact hF.nextLt i (by omega)

theorem nodup_of_distinct (F : FpsIn K) (k : Nat) (idx : Nat → Nat) (hF : Farthest F k idx) (hk : k ≤ nDistinct F) :
    ∀ i < k, ∀ s < i, idx i ≠ idx s := by
  intro i hi s hs he
  obtain ⟨i, rfl⟩ : ∃ m, i = m + 1 := ⟨i - 1, by omega⟩
  have h0 : gap F idx i (idx (i + 1)) = 0 := gap_zero_of F idx i _ s (by omega) (by rw [he])
  have : (range F.npt).image (loc F) ⊆ (range (i + 1)).image (fun s => loc F (idx s)) := by
    intro l hl
    rw [Finset.mem_image] at hl ⊢
    obtain ⟨j, hj, rfl⟩ := hl
    have := hF.next i (by omega) j (Finset.mem_range.1 hj)
    rw [h0] at this
    obtain ⟨s, hs, e⟩ := loc_of_gap F idx i j this
    exact ⟨s, Finset.mem_range.2 (by omega), e.symm⟩
  have c1 := Finset.card_le_card this
  have c2 := Finset.card_image_le (s := range (i + 1)) (f := fun s => loc F (idx s))
  rw [Finset.card_range] at c2
  have : nDistinct F ≤ i + 1 := c1.trans c2
  omega

theorem distinct_of_nodup (F : FpsIn K) (k : Nat) (idx : Nat → Nat) (hF : Farthest F k idx) (h : ∀ i < k, ∀ s < i, idx i ≠ idx s) : k ≤ nDistinct F := by
  have inj : Set.InjOn (fun s => loc F (idx s)) (range k : Set Nat) := by
    intro a ha b hb e
    have ha : a < k := by simpa using ha
    have hb : b < k := by simpa using hb
    have e : loc F (idx a) = loc F (idx b) := e
    have h1 := sel_low F k idx hF a (by omega) (idx b) e.symm
    have h2 := sel_low F k idx hF b (by omega) (idx a) e
    have h3 : idx a = idx b := by omega
    rcases Nat.lt_trichotomy a b with hab | hab | hab
    · exact absurd h3.symm (h b hb a hab)
    · exact hab
    · exact absurd h3 (h a ha b hab)
  have c := Finset.card_image_of_injOn inj
  rw [Finset.card_range] at c
  rw [← c]
  apply Finset.card_le_card
  intro l hl
  rw [Finset.mem_image] at hl
  obtain ⟨s, hs, rfl⟩ := hl
  exact Finset.mem_image.2 ⟨idx s, Finset.mem_range.2 (sel_lt F k idx hF s (by have := Finset.mem_range.1 hs; omega)), rfl⟩

end

/-! ## The loop appending the other points -/

theorem appendRest_spec (n : Nat) (flag : Nat → Bool) : ∀ (L : List Nat) (p : Nat → Nat) (q : Nat), q ≤ n →
    (n < q + (L.filter (fun i => !flag i)).length → L.foldl (appendRest n flag) (.ok (p, q)) = .ub) ∧
    (q + (L.filter (fun i => !flag i)).length ≤ n → ∃ p', L.foldl (appendRest n flag) (.ok (p, q)) = .ok (p', q + (L.filter (fun i => !flag i)).length) ∧
      (∀ i < q, p' i = p i) ∧ (List.range' q (L.filter (fun i => !flag i)).length).map p' = L.filter (fun i => !flag i)) := by
  intro L
  have ubs : ∀ (L : List Nat), L.foldl (appendRest n flag) .ub = .ub := by
    intro L
    induction L with
    | nil => rfl
    | cons a L ih => rw [List.foldl_cons]; exact ih
  induction L with
  | nil =>
    intro p q hq
    refine ⟨fun h => by simp at h; omega, fun _ => ⟨p, by simp, fun i _ => rfl, by simp⟩⟩
  | cons a L ih =>
    intro p q hq
    rw [List.foldl_cons]
    by_cases hf : flag a = true
    · have e : appendRest n flag (.ok (p, q)) a = .ok (p, q) := by simp [appendRest, hf]
      rw [e]
      have e2 : (a :: L).filter (fun i => !flag i) = L.filter (fun i => !flag i) := by simp [hf]
      rw [e2]
      exact ih p q hq
    · have hf' : flag a = false := by simpa using hf
      have e2 : (a :: L).filter (fun i => !flag i) = a :: L.filter (fun i => !flag i) := by simp [hf']
      rw [e2, List.length_cons]
      by_cases hq' : n ≤ q
      · have e : appendRest n flag (.ok (p, q)) a = .ub := by
          simp [appendRest, hf']; omega
        rw [e, ubs]
        exact ⟨fun _ => rfl, fun h => by omega⟩
      · have e : appendRest n flag (.ok (p, q)) a = .ok (Function.update p q a, q + 1) := by
          simp [appendRest, hf']; omega
        rw [e]
        obtain ⟨i1, i2⟩ := ih (Function.update p q a) (q + 1) (by omega)
        refine ⟨fun h => i1 (by omega), fun h => ?_⟩
        obtain ⟨p', e1, a1, a2⟩ := i2 (by omega)
        refine ⟨p', by rw [e1]; congr 2; omega, fun i hi => ?_, ?_⟩
        · rw [a1 i (by omega), Function.update_of_ne (by omega)]
        · rw [List.range'_succ, List.map_cons, a2, a1 q (by omega), Function.update_self]

theorem flag_spec (perm : Nat → Nat) (n1 j : Nat) :
    (List.range n1).foldl (fun (f : Nat → Bool) i => Function.update f (perm i) true) (fun _ => false) j = true ↔ ∃ i < n1, perm i = j := by
  induction n1 with
  | zero => simp
  | succ n1 ih =>
    rw [List.range_succ, List.foldl_append, List.foldl_cons, List.foldl_nil]
    by_cases h : j = perm n1
    · subst h
      rw [Function.update_self]
      exact ⟨fun _ => ⟨n1, by omega, rfl⟩, fun _ => rfl⟩
    · rw [Function.update_of_ne h, ih]
      constructor
      · rintro ⟨i, hi, e⟩; exact ⟨i, by omega, e⟩
      · rintro ⟨i, hi, e⟩
        refine ⟨i, ?_, e⟩
        by_contra hn
        have : i = n1 := by omega
        subst this; exact h e.symm

theorem unflagged (n n1 : Nat) (perm : Nat → Nat) (hlt : ∀ i < n1, perm i < n) (flag : Nat → Bool) (hf : ∀ j, flag j = true ↔ ∃ i < n1, perm i = j) :
    ((List.range n).filter (fun i => !flag i)).length + ((range n1).image perm).card = n := by
  have e : ((List.range n).filter (fun i => !flag i)).length = ((range n).filter (fun i => flag i = false)).card := by
    have nd : ((List.range n).filter (fun i => !flag i)).Nodup := List.nodup_range.filter _
    rw [← List.toFinset_card_of_nodup nd]
    congr 1
    ext x
    simp
  have e2 : (range n1).image perm = (range n).filter (fun i => ¬ flag i = false) := by
    ext x
    simp only [Finset.mem_image, Finset.mem_filter, Finset.mem_range, Bool.not_eq_false]
    rw [hf]
    constructor
    · rintro ⟨i, hi, rfl⟩; exact ⟨hlt i hi, i, hi, rfl⟩
    · rintro ⟨_, h⟩; exact h
  rw [e, e2, Finset.card_filter_add_card_filter_not, Finset.card_range]

theorem Farthest.congr {F : FpsIn K} {k : Nat} {idx idx' : Nat → Nat} (hF : Farthest F k idx) (h1 : 1 ≤ k) (h : ∀ i < k, idx' i = idx i) : Farthest F k idx' := by
  have hg : ∀ i, i + 1 < k → ∀ j, gap F idx' i j = gap F idx i j := by
    intro i hi j
    unfold gap
    refine Finset.inf'_congr _ rfl (fun s hs => ?_)
    rw [h s (by have := Finset.mem_range.1 hs; omega)]
  have h0 := h 0 (by omega)
  refine ⟨by rw [h0]; exact hF.firstLt, by rw [h0]; exact hF.first, by rw [h0]; exact hF.firstLow, fun i hi => ?_, fun i hi j hj => ?_, fun i hi j hj => ?_⟩
  · rw [h _ hi]; exact hF.nextLt i hi
  · rw [h _ hi, hg i hi, hg i hi]; exact hF.next i hi j hj
  · rw [h _ hi] at hj ⊢
    rw [hg i hi, hg i hi]; exact hF.nextLow i hi j hj

end H2Pack.AFN
