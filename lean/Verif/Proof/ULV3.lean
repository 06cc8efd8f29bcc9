import Verif.Proof.ULV2
import Verif.Props.Entries

/-! # The represented matrix on the rows of a node of an HSS representation -/

set_option linter.unusedSectionVars false

namespace H2Pack.ULV
open H2Pack.MV
open H2Pack.Part (Arr kids ClusterTree Desc)
open Finset

section
variable {K : Type} [Field K]

/-- Row `r` belongs to node `v`. -/
def InRow (R : Rep K) (v r : Nat) : Prop := R.rowS v ≤ r ∧ r < R.rowE v

instance (R : Rep K) (v r : Nat) : Decidable (InRow R v r) := inferInstanceAs (Decidable (_ ∧ _))

theorem inRow_iff {R : Rep K} (hk : 0 < R.kdim) {v r : Nat} : InRow R v r ↔ R.arr.ptS v ≤ r / R.kdim ∧ r / R.kdim ≤ R.arr.ptE v := by
  have h := row_in (R := R) (v := v) (p := r / R.kdim) (a := r % R.kdim) (Nat.mod_lt _ hk)
  rw [show r / R.kdim * R.kdim + r % R.kdim = r from Nat.div_add_mod' r R.kdim] at h
  exact h

theorem leaf_desc {A : Arr K} {w u : Nat} (h : Desc A w u) (h0 : A.nChild u = 0) : w = u := by
  cases h with
  | refl => rfl
  | step hc _ => rw [H2Pack.Part.kids_nil_iff.2 h0] at hc; simp at hc

/-- Two nodes that share a row are comparable. -/
theorem comparable {R : Rep K} (h : WF R) {u v r : Nat} (hu : u < R.arr.nNode) (hv : v < R.arr.nNode) (h1 : InRow R u r) (h2 : InRow R v r) :
    Desc R.arr u v ∨ Desc R.arr v u := by
  have T := h.tree
  have key : ∀ w < R.arr.nNode, Desc R.arr u w → Desc R.arr v w → Desc R.arr u v ∨ Desc R.arr v u := by
    intro w
    induction w using Nat.strong_induction_on with
    | _ w ih =>
      intro hw d1 d2
      cases d1 with
      | refl => exact Or.inr d2
      | @step c1 _ hc1 e1 =>
        cases d2 with
        | refl => exact Or.inl (.step hc1 e1)
        | @step c2 _ hc2 e2 =>
          have k1 := T.desc_cluster e1 (T.kid_lt hw hc1)
          have k2 := T.desc_cluster e2 (T.kid_lt hw hc2)
          rw [inRow_iff h.kdim] at h1 h2
          have : c1 = c2 := T.kid_unique hw hc1 hc2 (p := r / R.kdim) (by omega) (by omega) (by omega) (by omega)
          subst this
          exact ih c1 (T.childLt w hw _ hc1) (T.kid_lt hw hc1) e1 e2
  exact key _ (by have := T.nonempty; omega) (T.desc_root hu) (T.desc_root hv)

theorem row_desc {R : Rep K} (h : WF R) {u v r : Nat} (hv : v < R.arr.nNode) (d : Desc R.arr u v) (h1 : InRow R u r) : InRow R v r := by
  rw [inRow_iff h.kdim] at *
  have := h.tree.desc_cluster d hv
  omega

theorem kid_index {R : Rep K} {v c : Nat} (hc : c ∈ kids R.arr v) : ∃ k < R.arr.nChild v, kid R v k = c := by
  obtain ⟨k, hk, e⟩ := List.getElem_of_mem hc
  rw [length_kids] at hk
  exact ⟨k, hk, by unfold kid; simp [List.getD, length_kids, hk, e]⟩

theorem kid_row {R : Rep K} (h : WF R) {v r : Nat} (hv : v < R.arr.nNode) (h0 : R.arr.nChild v ≠ 0) (hr : InRow R v r) :
    ∃ k < R.arr.nChild v, InRow R (kid R v k) r := by
  rw [inRow_iff h.kdim] at hr
  obtain ⟨c, hc, hh⟩ := h.tree.kid_at hv h0 hr.1 hr.2
  obtain ⟨k, hk, rfl⟩ := kid_index hc
  exact ⟨k, hk, (inRow_iff h.kdim).2 hh⟩

theorem kid_inj {R : Rep K} (h : WF R) {v k l : Nat} (hv : v < R.arr.nNode) (hk : k < R.arr.nChild v) (hl : l < R.arr.nChild v)
    (e : kid R v k = kid R v l) : k = l := by
  have nd := h.tree.kidsNodup v hv
  unfold kid at e
  have h1 : k < (kids R.arr v).length := by rw [length_kids]; exact hk
  have h2 : l < (kids R.arr v).length := by rw [length_kids]; exact hl
  rw [show (kids R.arr v).getD k 0 = (kids R.arr v)[k] by simp [List.getD, h1],
    show (kids R.arr v).getD l 0 = (kids R.arr v)[l] by simp [List.getD, h2]] at e
  exact (List.Nodup.getElem_inj_iff nd).1 e

theorem kid_row_unique {R : Rep K} (h : WF R) {v r k l : Nat} (hv : v < R.arr.nNode) (hk : k < R.arr.nChild v) (hl : l < R.arr.nChild v)
    (h1 : InRow R (kid R v k) r) (h2 : InRow R (kid R v l) r) : k = l := by
  rw [inRow_iff h.kdim] at *
  exact kid_inj h hv hk hl (h.tree.kid_unique hv (kid_mem hk) (kid_mem hl) h1.1 h1.2 h2.1 h2.2)

theorem kid_sub {R : Rep K} (h : WF R) {v r k : Nat} (hv : v < R.arr.nNode) (hk : k < R.arr.nChild v) (h1 : InRow R (kid R v k) r) : InRow R v r :=
  row_desc h hv (.step (kid_mem hk) (.refl _)) h1

/-- Two rows in different children of a node determine the node and the children. -/
theorem split_unique {R : Rep K} (h : WF R) {v v' k l k' l' r q : Nat} (hv : v < R.arr.nNode) (hv' : v' < R.arr.nNode)
    (hk : k < R.arr.nChild v) (hl : l < R.arr.nChild v) (hkl : k ≠ l) (hk' : k' < R.arr.nChild v') (hl' : l' < R.arr.nChild v') (hkl' : k' ≠ l')
    (h1 : InRow R (kid R v k) r) (h2 : InRow R (kid R v l) q) (h1' : InRow R (kid R v' k') r) (h2' : InRow R (kid R v' l') q) :
    v = v' ∧ k = k' ∧ l = l' := by
  have key : ∀ {v v' k l k' l'}, v < R.arr.nNode → v' < R.arr.nNode → k < R.arr.nChild v → l < R.arr.nChild v → k ≠ l →
      k' < R.arr.nChild v' → l' < R.arr.nChild v' → InRow R (kid R v k) r → InRow R (kid R v l) q → InRow R (kid R v' k') r →
      InRow R (kid R v' l') q → Desc R.arr v' v → v = v' := by
    intro v v' k l k' l' hv hv' hk hl hkl hk' hl' h1 h2 h1' h2' d
    cases d with
    | refl => rfl
    | @step _ c hc e =>
      obtain ⟨j, hj, rfl⟩ := kid_index hc
      have hkid := h.tree.kid_lt hv hc
      have e1 := kid_row_unique h hv hk hj h1 (row_desc h hkid e (kid_sub h hv' hk' h1'))
      have e2 := kid_row_unique h hv hl hj h2 (row_desc h hkid e (kid_sub h hv' hl' h2'))
      omega
  have hvv : v = v' := by
    rcases comparable h hv hv' (kid_sub h hv hk h1) (kid_sub h hv' hk' h1') with d | d
    · exact (key hv' hv hk' hl' hkl' hk hl h1' h2' h1 h2 d).symm
    · exact key hv hv' hk hl hkl hk' hl' h1 h2 h1' h2' d
  subst hvv
  exact ⟨rfl, kid_row_unique h hv hk hk' h1 h1', kid_row_unique h hv hl hl' h2 h2'⟩

/-- What an admissible pair of an HSS representation contributes to an entry. -/
theorem hss_admEntry {R : Rep K} (H : HSS R) {W : Nat → Nat → Nat → K} (hW : Nested R W) {i : Nat} (hi : i < R.adm.length) (r q : Nat) :
    ∃ v < R.arr.nNode, ∃ k l, k < l ∧ l < R.arr.nChild v ∧ R.adm[i] = (kid R v k, kid R v l) ∧
      admEntry R W i r q = (∑ a ∈ range (R.U (kid R v k)).ncol, ∑ c ∈ range (R.U (kid R v l)).ncol,
        W (kid R v k) r a * (R.B i).e a c * W (kid R v l) q c) ∧
      ((¬ InRow R (kid R v k) r ∨ ¬ InRow R (kid R v l) q) → admEntry R W i r q = 0) := by
  obtain ⟨v, hv, k, l, hkl, hl, e1, e2⟩ := (H.pairs R.adm[i].1 R.adm[i].2).1 (List.getElem_mem hi)
  have h := H.wf
  have hk : k < R.arr.nChild v := by omega
  have lk := h.tree.childLevel v hv _ (kid_mem hk)
  have ll := h.tree.childLevel v hv _ (kid_mem hl)
  have nk := h.tree.kid_lt hv (kid_mem hk)
  have nl := h.tree.kid_lt hv (kid_mem hl)
  have hform : admEntry R W i r q = (∑ a ∈ range (R.U (kid R v k)).ncol, ∑ c ∈ range (R.U (kid R v l)).ncol,
        W (kid R v k) r a * (R.B i).e a c * W (kid R v l) q c) := by
    unfold admEntry side
    rw [h.bRow i hi, h.bCol i hi, getD_adm hi, e1, e2, lk, ll]
    simp only [le_refl, if_true]
  refine ⟨v, hv, k, l, hkl, hl, Prod.ext e1 e2, hform, ?_⟩
  rw [hform]
  rintro (hn | hn)
  · apply sum_eq_zero; intro a ha
    apply sum_eq_zero; intro c _
    rw [nested_zero h hW _ nk (by rw [H.min]; omega) r hn a (mem_range.1 ha)]
    ring
  · apply sum_eq_zero; intro a _
    apply sum_eq_zero; intro c hc
    rw [nested_zero h hW _ nl (by rw [H.min]; omega) q hn c (mem_range.1 hc)]
    ring

theorem entry_hss {R : Rep K} (H : HSS R) (W : Nat → Nat → Nat → K) (r q : Nat) :
    entry R W r q = (∑ i ∈ range R.adm.length, (admEntry R W i r q + admEntry R W i q r)) +
      ∑ i ∈ range R.arr.nLeaf, blockEntry R (R.leaf i) (R.leaf i) (R.D i) r q := by
  unfold entry
  rw [H.inadm]
  simp

/-- The index of the block of two children of a node. -/
theorem pair_index {R : Rep K} (H : HSS R) {v k l : Nat} (hv : v < R.arr.nNode) (hkl : k < l) (hl : l < R.arr.nChild v) :
    ∃ i, ∃ h : i < R.adm.length, R.adm[i] = (kid R v k, kid R v l) := by
  obtain ⟨i, h, e⟩ := List.getElem_of_mem ((H.pairs _ _).2 ⟨v, hv, k, l, hkl, hl, rfl, rfl⟩)
  exact ⟨i, h, e⟩

/-- The represented matrix between two children of a node. -/
theorem entry_kids {R : Rep K} (H : HSS R) {W : Nat → Nat → Nat → K} (hW : Nested R W) {v k l : Nat} (hv : v < R.arr.nNode) (hkl : k < l)
    (hl : l < R.arr.nChild v) {i : Nat} (hi : i < R.adm.length) (hp : R.adm[i] = (kid R v k, kid R v l)) {r q : Nat}
    (hr : InRow R (kid R v k) r) (hq : InRow R (kid R v l) q) :
    entry R W r q = (∑ a ∈ range (R.U (kid R v k)).ncol, ∑ c ∈ range (R.U (kid R v l)).ncol, W (kid R v k) r a * (R.B i).e a c * W (kid R v l) q c) ∧
    entry R W q r = (∑ a ∈ range (R.U (kid R v k)).ncol, ∑ c ∈ range (R.U (kid R v l)).ncol, W (kid R v k) r a * (R.B i).e a c * W (kid R v l) q c) := by
  have h := H.wf
  have hk : k < R.arr.nChild v := by omega
  -- the two contributions of pair j
  have A1 : ∀ j (hj : j < R.adm.length), j ≠ i → admEntry R W j r q = 0 := by
    intro j hj hji
    obtain ⟨v', hv', k', l', hkl', hl', e, _, hz⟩ := hss_admEntry H hW hj r q
    apply hz
    by_contra hno
    push Not at hno
    obtain ⟨rfl, rfl, rfl⟩ := split_unique h hv hv' hk hl (by omega) (by omega) hl' (by omega) hr hq hno.1 hno.2
    exact hji ((List.Nodup.getElem_inj_iff H.nodup).1 (e.trans hp.symm))
  have A2 : ∀ j (hj : j < R.adm.length), admEntry R W j q r = 0 := by
    intro j hj
    obtain ⟨v', hv', k', l', hkl', hl', e, _, hz⟩ := hss_admEntry H hW hj q r
    apply hz
    by_contra hno
    push Not at hno
    obtain ⟨_, rfl, rfl⟩ := split_unique h hv hv' hl hk (by omega) (by omega) hl' (by omega) hq hr hno.1 hno.2
    omega
  have L : ∀ j < R.arr.nLeaf, ∀ s t, ((s = r ∧ t = q) ∨ (s = q ∧ t = r)) → blockEntry R (R.leaf j) (R.leaf j) (R.D j) s t = 0 := by
    intro j hj s t hst
    obtain ⟨hu, hu0⟩ := mem_leaf h hj
    unfold blockEntry
    rw [if_neg]
    rintro ⟨h1, h2⟩
    have hr' : InRow R (R.leaf j) r := by rcases hst with ⟨rfl, rfl⟩ | ⟨rfl, rfl⟩ <;> assumption
    have hq' : InRow R (R.leaf j) q := by rcases hst with ⟨rfl, rfl⟩ | ⟨rfl, rfl⟩ <;> assumption
    have hkid := h.tree.kid_lt hv (kid_mem hk)
    have d : Desc R.arr (R.leaf j) (kid R v k) := by
      rcases comparable h hu hkid hr' hr with d | d
      · exact d
      · rw [leaf_desc d hu0]; exact .refl _
    have := kid_row_unique h hv hk hl (row_desc h hkid d hq') hq
    omega
  obtain ⟨v', hv', k', l', hkl', hl', e, hf, _⟩ := hss_admEntry H hW hi r q
  have hval : admEntry R W i r q = (∑ a ∈ range (R.U (kid R v k)).ncol, ∑ c ∈ range (R.U (kid R v l)).ncol, W (kid R v k) r a * (R.B i).e a c * W (kid R v l) q c) := by
    rw [hp] at e
    obtain ⟨e1, e2⟩ := Prod.mk.inj e
    rw [hf, ← e1, ← e2]
  rw [entry_hss H, entry_hss H, ← hval]
  constructor
  · rw [sum_eq_single i, A2 i hi, add_zero, sum_eq_zero (s := range R.arr.nLeaf), add_zero]
    · intro j hj; exact L j (mem_range.1 hj) _ _ (Or.inl ⟨rfl, rfl⟩)
    · intro j hj hji; rw [A1 j (mem_range.1 hj) hji, A2 j (mem_range.1 hj), add_zero]
    · intro hn; exact absurd (mem_range.2 hi) hn
  · rw [sum_eq_single i, A2 i hi, zero_add, sum_eq_zero (s := range R.arr.nLeaf), add_zero]
    · intro j hj; exact L j (mem_range.1 hj) _ _ (Or.inr ⟨rfl, rfl⟩)
    · intro j hj hji; rw [A1 j (mem_range.1 hj) hji, A2 j (mem_range.1 hj), add_zero]
    · intro hn; exact absurd (mem_range.2 hi) hn

theorem leaf_surj {R : Rep K} (h : WF R) {u : Nat} (hu : u < R.arr.nNode) (h0 : R.arr.nChild u = 0) : ∃ i < R.arr.nLeaf, R.leaf i = u := by
  have hm : u ∈ (List.range R.arr.nLeaf).map R.arr.heightNodes := by
    rw [leaf_list h.tree]
    unfold H2Pack.Part.leaves
    rw [List.mem_filter, List.mem_range]
    exact ⟨hu, by simpa using h0⟩
  obtain ⟨i, hi, e⟩ := List.mem_map.1 hm
  exact ⟨i, List.mem_range.1 hi, e⟩

/-- The represented matrix inside a leaf. -/
theorem entry_leaf {R : Rep K} (H : HSS R) {W : Nat → Nat → Nat → K} (hW : Nested R W) {i : Nat} (hi : i < R.arr.nLeaf) {r q : Nat}
    (hr : InRow R (R.leaf i) r) (hq : InRow R (R.leaf i) q) :
    entry R W r q = (R.D i).e (r - R.rowS (R.leaf i)) (q - R.rowS (R.leaf i)) := by
  have h := H.wf
  obtain ⟨hu, hu0⟩ := mem_leaf h hi
  have A : ∀ j (hj : j < R.adm.length), ∀ s t, InRow R (R.leaf i) s → InRow R (R.leaf i) t → admEntry R W j s t = 0 := by
    intro j hj s t hs ht
    obtain ⟨v', hv', k', l', hkl', hl', e, _, hz⟩ := hss_admEntry H hW hj s t
    apply hz
    by_contra hno
    push Not at hno
    have hk' : k' < R.arr.nChild v' := by omega
    have hkid := h.tree.kid_lt hv' (kid_mem hk')
    have d : Desc R.arr (R.leaf i) (kid R v' k') := by
      rcases comparable h hu hkid hs hno.1 with d | d
      · exact d
      · rw [leaf_desc d hu0]; exact .refl _
    have := kid_row_unique h hv' hk' hl' (row_desc h hkid d ht) hno.2
    omega
  rw [entry_hss H, sum_eq_zero (s := range R.adm.length), zero_add, sum_eq_single i]
  · unfold blockEntry
    rw [if_pos ⟨hr, hq⟩]
  · intro j hj hji
    rw [mem_range] at hj
    obtain ⟨hw, hw0⟩ := mem_leaf h hj
    unfold blockEntry
    rw [if_neg]
    rintro ⟨h1, h2⟩
    have e : R.leaf j = R.leaf i := by
      rcases comparable h hw hu h1 hr with d | d
      · exact leaf_desc d hu0
      · exact (leaf_desc d hw0).symm
    exact hji ((H2Pack.Part.leaf_inj h.tree).2.2 j hj i hi e)
  · intro hn; exact absurd (mem_range.2 hi) hn
  · intro j hj
    rw [A j (mem_range.1 hj) r q hr hq, A j (mem_range.1 hj) q r hq hr, add_zero]

end

end H2Pack.ULV
