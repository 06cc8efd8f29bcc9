import Verif.Props.AdmPairs
import Verif.Props.Utils

/-! # Periodic pairs: the root starts or ends no admissible pair -/

set_option linter.unusedSectionVars false

namespace H2Pack.Part
open H2Pack.Utils

section
variable {K : Type} [Field K] [LinearOrder K] [IsStrictOrderedRing K]
variable {A : Arr K} {n : Nat}

theorem forEach_inv {α σ : Type} (I : σ → Prop) (f : α → σ → Res σ) (L : List α) (hf : ∀ a ∈ L, ∀ s t, I s → f a s = .ok t → I t) :
    ∀ s t, I s → forEach f L s = .ok t → I t := by
  induction L with
  | nil => intro s t hs h; cases h; exact hs
  | cons x L ih =>
    intro s t hs h
    rw [forEach_cons] at h
    obtain ⟨u, hu, h'⟩ : ∃ u, f x s = .ok u ∧ forEach f L u = .ok t := by
      beta_reduce at h
      cases hx : f x s with
      | ok u => rw [hx] at h; exact ⟨u, rfl, h⟩
      | ub => rw [hx] at h; cases h
      | diverge => rw [hx] at h; cases h
    exact ih (fun a ha => hf a (List.mem_cons_of_mem _ ha)) u t (hf x (List.mem_cons_self ..) s u hs hu) h'

theorem forPairs_inv {α σ : Type} (I : σ → Prop) (f : α → α → σ → Res σ) (L : List α) (hf : ∀ a ∈ L, ∀ b ∈ L, ∀ s t, I s → f a b s = .ok t → I t) :
    ∀ s t, I s → forPairs f L s = .ok t → I t := by
  induction L with
  | nil => intro s t hs h; cases h; exact hs
  | cons x L ih =>
    intro s t hs h
    rw [forPairs_cons] at h
    beta_reduce at h
    obtain ⟨u, hu, h'⟩ : ∃ u, forEach (f x) L s = .ok u ∧ forPairs f L u = .ok t := by
      cases hx : forEach (f x) L s with
      | ok u => rw [hx] at h; exact ⟨u, rfl, h⟩
      | ub => rw [hx] at h; cases h
      | diverge => rw [hx] at h; cases h
    exact ih (fun a ha b hb => hf a (List.mem_cons_of_mem _ ha) b (List.mem_cons_of_mem _ hb)) u t
      (forEach_inv I (f x) L (fun a ha => hf x (List.mem_cons_self ..) a (List.mem_cons_of_mem _ ha)) s u hs hu) h'

/-- No admissible triple contains the root. -/
def NoRoot (A : Arr K) (pv : PerPairs) : Prop := ∀ x ∈ pv.adm, x.1 < A.nNode - 1 ∧ x.2.1 < A.nNode - 1

theorem noRoot_push {hs : Bool} {a b l : Nat} {pv : PerPairs} (ha : a < A.nNode - 1) (hb : b < A.nNode - 1) (h : NoRoot A pv) :
    NoRoot A ⟨pv.adm ++ perPush hs a b l, pv.inadm⟩ := by
  intro x hx
  rcases List.mem_append.1 hx with h' | h'
  · exact h x h'
  · unfold perPush at h'
    split at h'
    · rw [List.mem_singleton] at h'; subst h'; exact ⟨ha, hb⟩
    · rcases List.mem_cons.1 h' with h' | h'
      · subst h'; exact ⟨ha, hb⟩
      · rw [List.mem_singleton] at h'; subst h'; exact ⟨hb, ha⟩

theorem calcPairsPer_noRoot (T : ClusterTree A n) (adm : Nat → Nat → Bool) (hs : Bool) (l : Nat) : ∀ (fuel a b : Nat),
    a < A.nNode - 1 → b < A.nNode - 1 → ∀ s t, NoRoot A s → calcPairsPer A adm hs l fuel a b s = .ok t → NoRoot A t := by
  intro fuel
  induction fuel with
  | zero => intro a b _ _ s t _ h; cases h
  | succ fuel ih =>
    intro a b ha hb s t hs' h
    have ka : ∀ c ∈ kids A a, c < A.nNode - 1 := fun c hc => by have := T.childLt a (by omega) c hc; omega
    have kb : ∀ c ∈ kids A b, c < A.nNode - 1 := fun c hc => by have := T.childLt b (by omega) c hc; omega
    rw [calcPairsPer, if_pos ⟨by omega, by omega⟩] at h
    by_cases h1 : a = b ∧ hs = false
    · rw [if_pos h1] at h
      by_cases h2 : A.nChild a = 0
      · rw [if_pos h2] at h; cases h; exact hs'
      · rw [if_neg h2] at h
        obtain ⟨u, hu, h'⟩ : ∃ u, forEach (fun c pv => calcPairsPer A adm hs l fuel c c pv) (kids A a) s = .ok u ∧
            forPairs (fun c d pv => calcPairsPer A adm hs l fuel c d pv) (kids A a) u = .ok t := by
          cases hx : forEach (fun c pv => calcPairsPer A adm hs l fuel c c pv) (kids A a) s with
          | ok u => rw [hx] at h; exact ⟨u, rfl, h⟩
          | ub => rw [hx] at h; cases h
          | diverge => rw [hx] at h; cases h
        exact forPairs_inv (NoRoot A) _ _ (fun c hc d hd s t => ih c d (ka c hc) (ka d hd) s t) u t
          (forEach_inv (NoRoot A) _ _ (fun c hc s t => ih c c (ka c hc) (ka c hc) s t) s u hs' hu) h'
    · rw [if_neg h1] at h
      by_cases h2 : adm a b = true
      · rw [if_pos h2] at h; cases h; exact noRoot_push ha hb hs'
      · rw [if_neg h2] at h
        by_cases h3 : A.nChild a = 0 ∧ A.nChild b = 0
        · rw [if_pos h3] at h; cases h; exact hs'
        · rw [if_neg h3] at h
          by_cases h4 : A.nChild a = 0
          · rw [if_pos h4] at h
            exact forEach_inv (NoRoot A) _ _ (fun d hd s t => ih a d ha (kb d hd) s t) s t hs' h
          · rw [if_neg h4] at h
            by_cases h5 : A.nChild b = 0
            · rw [if_pos h5] at h
              exact forEach_inv (NoRoot A) _ _ (fun c hc s t => ih c b (ka c hc) hb s t) s t hs' h
            · rw [if_neg h5] at h
              exact forEach_inv (NoRoot A) _ _ (fun c hc s t => forEach_inv (NoRoot A) _ _ (fun d hd s t => ih c d (ka c hc) (kb d hd) s t) s t) s t hs' h

theorem calcPairsPer_root (T : ClusterTree A n) (adm : Nat → Nat → Bool) (hs : Bool) (l fuel : Nat) (hadm : adm (A.nNode - 1) (A.nNode - 1) = false) (s t : PerPairs)
    (hs' : NoRoot A s) (h : calcPairsPer A adm hs l fuel (A.nNode - 1) (A.nNode - 1) s = .ok t) : NoRoot A t := by
  cases fuel with
  | zero => cases h
  | succ fuel =>
    have hn := T.nonempty
    have ka : ∀ c ∈ kids A (A.nNode - 1), c < A.nNode - 1 := fun c hc => T.childLt _ (by omega) c hc
    have ih := calcPairsPer_noRoot T adm hs l fuel
    rw [calcPairsPer, if_pos ⟨by omega, by omega⟩] at h
    by_cases h1 : A.nNode - 1 = A.nNode - 1 ∧ hs = false
    · rw [if_pos h1] at h
      by_cases h2 : A.nChild (A.nNode - 1) = 0
      · rw [if_pos h2] at h; cases h; exact hs'
      · rw [if_neg h2] at h
        obtain ⟨u, hu, h'⟩ : ∃ u, forEach (fun c pv => calcPairsPer A adm hs l fuel c c pv) (kids A (A.nNode - 1)) s = .ok u ∧
            forPairs (fun c d pv => calcPairsPer A adm hs l fuel c d pv) (kids A (A.nNode - 1)) u = .ok t := by
          cases hx : forEach (fun c pv => calcPairsPer A adm hs l fuel c c pv) (kids A (A.nNode - 1)) s with
          | ok u => rw [hx] at h; exact ⟨u, rfl, h⟩
          | ub => rw [hx] at h; cases h
          | diverge => rw [hx] at h; cases h
        exact forPairs_inv (NoRoot A) _ _ (fun c hc d hd s t => ih c d (ka c hc) (ka d hd) s t) u t
          (forEach_inv (NoRoot A) _ _ (fun c hc s t => ih c c (ka c hc) (ka c hc) s t) s u hs' hu) h'
    · rw [if_neg h1, if_neg (by rw [hadm]; exact Bool.false_ne_true)] at h
      by_cases h4 : A.nChild (A.nNode - 1) = 0
      · rw [if_pos ⟨h4, h4⟩] at h; cases h; exact hs'
      · rw [if_neg (fun h => h4 h.1), if_neg h4, if_neg h4] at h
        exact forEach_inv (NoRoot A) _ _ (fun c hc s t => forEach_inv (NoRoot A) _ _ (fun d hd s t => ih c d (ka c hc) (ka d hd) s t) s t) s t hs' h

/-- The unit cell is not admissible with itself moved by a neighbouring lattice vector. -/
theorem root_not_adm {ptDim : Nat} {b : Box K} (hpos : ∀ j < ptDim, 0 < b.ext j) {v : Nat → K} (hv : ∀ j < ptDim, |v j| ≤ 1) :
    checkBoxAdmissible b (shiftBox b (fun j => b.ext j * v j)) ptDim alphaH2 = false := by
  rw [← Bool.not_eq_true]
  intro h
  unfold checkBoxAdmissible at h
  rw [admLoop_iff] at h
  obtain ⟨d, _, hd, hh⟩ := h
  rw [Nat.zero_add] at hd
  have he := hpos d hd
  have hvd := hv d hd
  unfold dimAdmissible shiftBox alphaH2 at hh
  simp only [decide_eq_true_eq, lt_irrefl, if_false, ge_iff_le] at hh
  have e1 : b.lo d + 1 / 2 * b.ext d - (b.lo d + b.ext d * v d + 1 / 2 * b.ext d) = -(b.ext d * v d) := by ring
  rw [e1, abs_neg, abs_mul, abs_of_pos he] at hh
  have e2 : b.ext d * |v d| ≤ b.ext d := by nlinarith
  have e3 : (999999 : K) / 10 ^ 6 * b.ext d + 1 / 2 * (b.ext d + b.ext d) = b.ext d + 999999 / 10 ^ 6 * b.ext d := by ring
  rw [e3] at hh
  have e4 : (0 : K) < 999999 / 10 ^ 6 * b.ext d := by positivity
  linarith

theorem perPairs_noRoot (ptDim : Nat) (T : ClusterTree A n) (nLattice : Nat) (lattice : Nat → Nat → K) (fuel : Nat)
    (hpos : ∀ j < ptDim, 0 < (A.enbox (A.nNode - 1)).ext j) (hlat : ∀ l < nLattice, ∀ j < ptDim, |lattice l j| ≤ 1) (pv : PerPairs)
    (h : perPairs ptDim A nLattice lattice fuel = .ok pv) : NoRoot A pv := by
  unfold perPairs at h
  by_cases hd : ptDim ≤ 4
  · rw [if_pos hd] at h
    refine forEach_inv (NoRoot A) _ _ (fun l hl s t hs' hh => ?_) ⟨[], []⟩ pv (by intro x hx; cases hx) h
    exact calcPairsPer_root T _ _ l fuel (root_not_adm hpos (hlat l (List.mem_range.1 hl))) s t hs' hh
  · rw [if_neg hd] at h; cases h

end
end H2Pack.Part
