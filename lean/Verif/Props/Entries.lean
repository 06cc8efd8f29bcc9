import Verif.Props.Build
import Verif.Props.MatvecJIT

set_option linter.unusedSectionVars false

/-!
# C45 (H2 mode) and C46: from the partitioning to the entries of the represented matrix
-/

namespace H2Pack.MV
open H2Pack.Part (Arr kids ClusterTree Pairs blocks Holds h2Pairs)
open Finset

section
variable {K : Type} [CommRing K]

/-- The row `p*kd+a` is a row of node `v` iff point `p` is in its cluster. -/
theorem row_in {R : Rep K} {v p a : Nat} (ha : a < R.kdim) :
    (R.rowS v ≤ p * R.kdim + a ∧ p * R.kdim + a < R.rowE v) ↔ R.arr.ptS v ≤ p ∧ p ≤ R.arr.ptE v := by
  unfold Rep.rowS Rep.rowE
  rw [Nat.mul_comm R.kdim, Nat.mul_comm R.kdim]
  constructor
  · rintro ⟨h1, h2⟩
    refine ⟨?_, ?_⟩
    · by_contra h
      have := Nat.mul_le_mul_right R.kdim (show p + 1 ≤ R.arr.ptS v by omega)
      rw [Nat.add_mul] at this; omega
    · by_contra h
      have := Nat.mul_le_mul_right R.kdim (show R.arr.ptE v + 1 ≤ p by omega)
      omega
  · rintro ⟨h1, h2⟩
    have e1 := Nat.mul_le_mul_right R.kdim h1
    have e2 := Nat.mul_le_mul_right R.kdim (show p + 1 ≤ R.arr.ptE v + 1 by omega)
    rw [Nat.add_mul] at e2
    omega

/-- A basis vanishes outside the rows of its node. -/
theorem nested_zero {R : Rep K} (h : WF R) {W : Nat → Nat → Nat → K} (hW : Nested R W) : ∀ v < R.arr.nNode, R.minAdm ≤ R.arr.level v →
    ∀ r, ¬ (R.rowS v ≤ r ∧ r < R.rowE v) → ∀ c < (R.U v).ncol, W v r c = 0 := by
  intro v
  induction v using Nat.strong_induction_on with
  | _ v ih =>
    intro hv hl r hr c hc
    by_cases h0 : R.arr.nChild v = 0
    · rw [hW.leaf v hv hl h0 r c hc, if_neg hr]
    · rw [hW.inner v hv hl h0 r c hc]
      apply sum_eq_zero; intro k hk
      apply sum_eq_zero; intro d hd
      have hm := kid_mem (R := R) (mem_range.1 hk)
      have hc := h.tree.kid_cluster hv hm
      rw [ih _ (h.tree.childLt v hv _ hm) (h.tree.kid_lt hv hm) (kid_level h hv hl hm).2.1 r ?_ d (mem_range.1 hd), zero_mul]
      rintro ⟨h1, h2⟩
      apply hr
      unfold Rep.rowS Rep.rowE at *
      have e1 := Nat.mul_le_mul_left R.kdim hc.1
      have e2 := Nat.mul_le_mul_left R.kdim (Nat.succ_le_succ hc.2)
      simp only [Nat.succ_eq_add_one] at e2
      omega

/-- The block of an admissible pair is zero outside its rows and columns. -/
theorem admEntry_zero {R : Rep K} (h : WF R) {W : Nat → Nat → Nat → K} (hW : Nested R W) {k p q a b : Nat} (hk : k < R.adm.length)
    (ha : a < R.kdim) (hb : b < R.kdim) (hno : ¬ Holds R.arr p q R.adm[k]) : admEntry R W k (p * R.kdim + a) (q * R.kdim + b) = 0 := by
  have hn := h.admNode _ (List.getElem_mem hk)
  have hl := h.admLevel _ (List.getElem_mem hk)
  have key : ∀ v w, v < R.arr.nNode → R.minAdm ≤ max (R.arr.level v) (R.arr.level w) → ∀ p a, a < R.kdim → ¬ (R.arr.ptS v ≤ p ∧ p ≤ R.arr.ptE v) →
      ∀ c, c < (if R.arr.level w ≤ R.arr.level v then (R.U v).ncol else R.rowE v - R.rowS v) → side R W v w (p * R.kdim + a) c = 0 := by
    intro v w hv hl p a ha hp c hc
    rw [← row_in ha] at hp
    unfold side
    split
    · rename_i hlv
      rw [if_pos hlv] at hc
      exact nested_zero h hW v hv (by omega) _ hp c hc
    · rename_i hlv
      rw [if_neg hlv] at hc
      rw [if_neg (by omega)]
  unfold admEntry
  rw [getD_adm hk]
  apply sum_eq_zero; intro c hc
  apply sum_eq_zero; intro d hd
  rw [mem_range] at hc hd
  rw [h.bRow k hk] at hc
  rw [h.bCol k hk] at hd
  by_cases hp : R.arr.ptS R.adm[k].1 ≤ p ∧ p ≤ R.arr.ptE R.adm[k].1
  · rw [key _ _ hn.2 (by rw [max_comm]; exact hl) q b hb (fun hq => hno ⟨hp, hq⟩) d hd, mul_zero]
  · rw [key _ _ hn.1 hl p a ha hp c hc, zero_mul, zero_mul]

theorem sum_countP {α : Type} (L : List α) (d : α) (P : α → Bool) (κ : K) :
    ∑ i ∈ range L.length, (if P (L.getD i d) then κ else 0) = (L.countP P : K) * κ := by
  induction L with
  | nil => simp
  | cons x L ih =>
    rw [List.length_cons, sum_range_succ']
    simp only [List.getD_cons_succ, List.getD_cons_zero]
    rw [ih, List.countP_cons]
    split <;> push_cast <;> ring

/-- The hypotheses shared by the two theorems on entries: a valid representation whose blocks cover every matrix entry
once, and a symmetric kernel. -/
structure Covered (J : JIT K) (pv : Pairs) : Prop where
  wf : WF J.aot
  adm : J.R.adm = pv.adm
  inadm : J.R.inadm = pv.inadm
  cover : ∀ p < J.R.nPoint, ∀ q < J.R.nPoint, (blocks J.R.arr pv).countP (fun x => Holds J.R.arr p q x) = 1
  sym : ∀ s t a b, J.kern s t a b = J.kern t s b a

/-- The dense block of two nodes, placed in the matrix. -/
theorem dense_entry (J : JIT K) {v w p q a b : Nat} (ha : a < J.R.kdim) (hb : b < J.R.kdim) :
    blockEntry J.aot v w (J.block (J.cPts v) (J.cPts w)) (p * J.R.kdim + a) (q * J.R.kdim + b) =
    if Holds J.R.arr p q (v, w) then J.kern (point J.xdim J.coord J.R.nPoint p) (point J.xdim J.coord J.R.nPoint q) a b else 0 := by
  unfold blockEntry
  have hS : ∀ v, J.aot.rowS v = J.R.arr.ptS v * J.R.kdim := fun v => Nat.mul_comm _ _
  have iff1 := row_in (R := J.aot) (v := v) (p := p) (a := a) ha
  have iff2 := row_in (R := J.aot) (v := w) (p := q) (a := b) hb
  have hk : J.aot.kdim = J.R.kdim := rfl
  rw [hk] at iff1 iff2
  have harr : J.aot.arr = J.R.arr := rfl
  rw [harr] at iff1 iff2
  by_cases hh : Holds J.R.arr p q (v, w)
  · rw [if_pos hh, if_pos ⟨iff1.2 hh.1, iff2.2 hh.2⟩]
    have hdiv : ∀ (s p a : Nat), a < J.R.kdim → s ≤ p → (p * J.R.kdim + a - s * J.R.kdim) / J.R.kdim = p - s ∧ (p * J.R.kdim + a - s * J.R.kdim) % J.R.kdim = a := by
      intro s p a ha hs
      have : p * J.R.kdim + a - s * J.R.kdim = (p - s) * J.R.kdim + a := by
        have := Nat.mul_le_mul_right J.R.kdim hs
        rw [Nat.sub_mul]; omega
      rw [this]
      exact div_mod_row ha
    show J.kern _ _ _ _ = _
    rw [hS, hS, (hdiv _ _ a ha hh.1.1).1, (hdiv _ _ a ha hh.1.1).2, (hdiv _ _ b hb hh.2.1).1, (hdiv _ _ b hb hh.2.1).2]
    have hp : ∀ v p, J.R.arr.ptS v ≤ p → point J.xdim (J.cPts v).1 (J.cPts v).2.1 (p - J.R.arr.ptS v) = point J.xdim J.coord J.R.nPoint p := by
      intro v p hv
      funext d
      unfold point JIT.cPts
      dsimp only
      congr 2
      omega
    rw [hp v p hh.1.1, hp w q hh.2.1]
  · rw [if_neg hh, if_neg]
    rintro ⟨h1, h2⟩
    exact hh ⟨iff1.1 h1, iff2.1 h2⟩

theorem leaf_list {A : Arr K} {n : Nat} (T : ClusterTree A n) : (List.range A.nLeaf).map A.heightNodes = H2Pack.Part.leaves A := by
  have hh := T.heightList 0
  have hz : ∀ v < A.nNode, A.height v = 0 ↔ A.nChild v = 0 := by
    intro v hv
    refine ⟨fun h => ?_, T.leafHeight v hv⟩
    by_contra h0
    obtain ⟨c, _, hc⟩ := (T.nodeHeight v hv h0).2
    omega
  have hfil : (List.range A.nNode).filter (fun v => A.height v = 0) = (List.range A.nNode).filter (fun v => A.nChild v = 0) := by
    apply List.filter_congr
    intro v hv
    rw [decide_eq_decide]
    exact hz v (List.mem_range.1 hv)
  have hn : A.heightN 0 = A.nLeaf := by
    have := congrArg List.length hh
    rw [List.length_map, List.length_range, hfil, ← T.nLeaf] at this
    exact this
  rw [hn, hfil] at hh
  simp only [Nat.zero_mul, Nat.zero_add] at hh
  exact hh

/-- The contribution of the dense blocks to an entry. -/
theorem dense_total {J : JIT K} {pv : Pairs} (h : Covered J pv) {p q a b : Nat} (ha : a < J.R.kdim) (hb : b < J.R.kdim) :
    (∑ i ∈ range J.R.arr.nLeaf, blockEntry J.aot (J.R.leaf i) (J.R.leaf i) (J.aot.D i) (p * J.R.kdim + a) (q * J.R.kdim + b)) +
    ∑ i ∈ range J.R.inadm.length, (inadmEntry J.aot i (p * J.R.kdim + a) (q * J.R.kdim + b) + inadmEntry J.aot i (q * J.R.kdim + b) (p * J.R.kdim + a)) =
    (((H2Pack.Part.leaves J.R.arr).map (fun v => (v, v)) ++ (pv.inadm ++ pv.inadm.map Prod.swap)).countP (fun x => Holds J.R.arr p q x) : K) *
      J.kern (point J.xdim J.coord J.R.nPoint p) (point J.xdim J.coord J.R.nPoint q) a b := by
  generalize hκ : J.kern (point J.xdim J.coord J.R.nPoint p) (point J.xdim J.coord J.R.nPoint q) a b = κ
  have hleaf : (∑ i ∈ range J.R.arr.nLeaf, blockEntry J.aot (J.R.leaf i) (J.R.leaf i) (J.aot.D i) (p * J.R.kdim + a) (q * J.R.kdim + b)) =
      (((H2Pack.Part.leaves J.R.arr).map (fun v => (v, v))).countP (fun x => Holds J.R.arr p q x) : K) * κ := by
    have hll : (List.range J.R.arr.nLeaf).map J.R.arr.heightNodes = H2Pack.Part.leaves J.R.arr := leaf_list h.wf.tree
    rw [← sum_countP _ (0, 0), List.length_map, ← hll, List.length_map, List.length_range]
    apply sum_congr rfl
    intro i hi
    rw [mem_range] at hi
    have hD : J.aot.D i = J.block (J.cPts (J.R.leaf i)) (J.cPts (J.R.leaf i)) := by
      show (if i < J.R.arr.nLeaf then _ else _) = _
      rw [if_pos hi]
    rw [hD, dense_entry J ha hb, hκ]
    have : ((List.map (fun v => (v, v)) (List.map J.R.arr.heightNodes (List.range J.R.arr.nLeaf))).getD i (0, 0)) = (J.R.leaf i, J.R.leaf i) := by
      simp [List.getD, hi, Rep.leaf]
    rw [this]
    simp only [decide_eq_true_eq]
  have hin : ∀ (p q a b : Nat), a < J.R.kdim → b < J.R.kdim → ∀ κ, J.kern (point J.xdim J.coord J.R.nPoint p) (point J.xdim J.coord J.R.nPoint q) a b = κ →
      (∑ i ∈ range J.R.inadm.length, inadmEntry J.aot i (p * J.R.kdim + a) (q * J.R.kdim + b)) = (pv.inadm.countP (fun x => Holds J.R.arr p q x) : K) * κ := by
    intro p q a b ha hb κ hκ
    rw [← sum_countP _ (0, 0), ← h.inadm]
    apply sum_congr rfl
    intro i hi
    rw [mem_range] at hi
    unfold inadmEntry
    have hD : J.aot.D (J.R.arr.nLeaf + i) = J.block (J.cPts (J.R.inadm.getD i (0, 0)).1) (J.cPts (J.R.inadm.getD i (0, 0)).2) := by
      show (if J.R.arr.nLeaf + i < J.R.arr.nLeaf then _ else _) = _
      rw [if_neg (by omega), Nat.add_sub_cancel_left]
    have e1 : J.aot.arr.nLeaf = J.R.arr.nLeaf := rfl
    have e2 : J.aot.inadm = J.R.inadm := rfl
    rw [e1, e2, hD, dense_entry J ha hb, hκ]
    simp only [decide_eq_true_eq]
  rw [sum_add_distrib, hleaf, hin p q a b ha hb κ hκ, hin q p b a hb ha κ (by rw [← hκ]; exact h.sym _ _ _ _)]
  rw [List.countP_append, List.countP_append, H2Pack.Part.countP_swap]
  push_cast
  ring

/-- **C46** (near field).  Two points that are in no admissible pair of clusters: the entry of the represented matrix is the
kernel value, whatever the bases are. -/
theorem C46_near_entry {J : JIT K} {pv : Pairs} (h : Covered J pv) {W : Nat → Nat → Nat → K} (hW : Nested J.aot W) {p q a b : Nat}
    (hp : p < J.R.nPoint) (hq : q < J.R.nPoint) (ha : a < J.R.kdim) (hb : b < J.R.kdim)
    (hnear : ∀ x ∈ J.R.adm, ¬ Holds J.R.arr p q x ∧ ¬ Holds J.R.arr q p x) :
    entry J.aot W (p * J.R.kdim + a) (q * J.R.kdim + b) = J.kern (point J.xdim J.coord J.R.nPoint p) (point J.xdim J.coord J.R.nPoint q) a b := by
  have hc := h.cover p hp q hq
  unfold blocks at hc
  rw [List.countP_append] at hc
  have hz : (pv.adm ++ pv.adm.map Prod.swap).countP (fun x => Holds J.R.arr p q x) = 0 := by
    rw [List.countP_append, H2Pack.Part.countP_swap, ← h.adm]
    have e1 : J.R.adm.countP (fun x => Holds J.R.arr p q x) = 0 := by
      rw [List.countP_eq_zero]; intro x hx; simpa using (hnear x hx).1
    have e2 : J.R.adm.countP (fun x => Holds J.R.arr q p x) = 0 := by
      rw [List.countP_eq_zero]; intro x hx; simpa using (hnear x hx).2
    omega
  have hd := dense_total h (p := p) (q := q) ha hb
  rw [show ((H2Pack.Part.leaves J.R.arr).map (fun v => (v, v)) ++ (pv.inadm ++ pv.inadm.map Prod.swap)).countP (fun x => Holds J.R.arr p q x) = 1 by omega,
    Nat.cast_one, one_mul] at hd
  unfold entry
  have hadm : ∑ i ∈ range J.aot.adm.length, (admEntry J.aot W i (p * J.R.kdim + a) (q * J.R.kdim + b) + admEntry J.aot W i (q * J.R.kdim + b) (p * J.R.kdim + a)) = 0 := by
    apply sum_eq_zero
    intro i hi
    rw [mem_range] at hi
    have hx := hnear _ (List.getElem_mem hi)
    have e1 := admEntry_zero h.wf hW hi (p := p) (q := q) (a := a) (b := b) ha hb hx.1
    have e2 := admEntry_zero h.wf hW hi (p := q) (q := p) (a := b) (b := a) hb ha hx.2
    have hk : J.aot.kdim = J.R.kdim := rfl
    rw [hk] at e1 e2
    rw [e1, e2, add_zero]
  rw [hadm, zero_add]
  exact hd

/-- **C46** (far field).  Two points in an admissible pair of clusters: the entry of the represented matrix is the
entry of the low rank block of that pair alone. -/
theorem C46_far_entry {J : JIT K} {pv : Pairs} (h : Covered J pv) {W : Nat → Nat → Nat → K} (hW : Nested J.aot W) {p q a b k : Nat}
    (hp : p < J.R.nPoint) (hq : q < J.R.nPoint) (ha : a < J.R.kdim) (hb : b < J.R.kdim) (hk : k < J.R.adm.length)
    (hfar : Holds J.R.arr p q J.R.adm[k]) :
    entry J.aot W (p * J.R.kdim + a) (q * J.R.kdim + b) = admEntry J.aot W k (p * J.R.kdim + a) (q * J.R.kdim + b) ∧
    entry J.aot W (q * J.R.kdim + b) (p * J.R.kdim + a) = admEntry J.aot W k (p * J.R.kdim + a) (q * J.R.kdim + b) := by
  have hc := h.cover p hp q hq
  unfold blocks at hc
  rw [List.countP_append] at hc
  have hpos : 0 < J.R.adm.countP (fun x => Holds J.R.arr p q x) := List.countP_pos_iff.2 ⟨_, List.getElem_mem hk, by simpa using hfar⟩
  have hc2 : (pv.adm ++ pv.adm.map Prod.swap).countP (fun x => Holds J.R.arr p q x) =
      J.R.adm.countP (fun x => Holds J.R.arr p q x) + J.R.adm.countP (fun x => Holds J.R.arr q p x) := by
    rw [List.countP_append, H2Pack.Part.countP_swap, ← h.adm]
  have hd := dense_total h (p := p) (q := q) ha hb
  rw [show ((H2Pack.Part.leaves J.R.arr).map (fun v => (v, v)) ++ (pv.inadm ++ pv.inadm.map Prod.swap)).countP (fun x => Holds J.R.arr p q x) = 0 by omega,
    Nat.cast_zero, zero_mul] at hd
  have hc' := h.cover q hq p hp
  unfold blocks at hc'
  rw [List.countP_append] at hc'
  have hc2' : (pv.adm ++ pv.adm.map Prod.swap).countP (fun x => Holds J.R.arr q p x) =
      J.R.adm.countP (fun x => Holds J.R.arr q p x) + J.R.adm.countP (fun x => Holds J.R.arr p q x) := by
    rw [List.countP_append, H2Pack.Part.countP_swap, ← h.adm]
  have hd' := dense_total h (p := q) (q := p) hb ha
  rw [show ((H2Pack.Part.leaves J.R.arr).map (fun v => (v, v)) ++ (pv.inadm ++ pv.inadm.map Prod.swap)).countP (fun x => Holds J.R.arr q p x) = 0 by omega,
    Nat.cast_zero, zero_mul] at hd'
  have hkd : J.aot.kdim = J.R.kdim := rfl
  have one : ∀ i, i < J.R.adm.length → i ≠ k → admEntry J.aot W i (p * J.R.kdim + a) (q * J.R.kdim + b) = 0 := by
    intro i hi hne
    have hi' : i < J.aot.adm.length := hi
    refine admEntry_zero h.wf hW hi' (p := p) (q := q) (a := a) (b := b) ha hb ?_
    intro hcon
    rcases Nat.lt_or_gt_of_ne hne with hlt | hgt
    · have := H2Pack.Part.two_le_countP J.R.adm (fun x => decide (Holds J.R.arr p q x)) hlt hk (decide_eq_true hcon) (decide_eq_true hfar)
      omega
    · have := H2Pack.Part.two_le_countP J.R.adm (fun x => decide (Holds J.R.arr p q x)) hgt hi (decide_eq_true hfar) (decide_eq_true hcon)
      omega
  have two : ∀ i, i < J.R.adm.length → admEntry J.aot W i (q * J.R.kdim + b) (p * J.R.kdim + a) = 0 := by
    intro i hi
    have hi' : i < J.aot.adm.length := hi
    refine admEntry_zero h.wf hW hi' (p := q) (q := p) (a := b) (b := a) hb ha ?_
    intro hcon
    have : 0 < J.R.adm.countP (fun x => Holds J.R.arr q p x) := List.countP_pos_iff.2 ⟨_, List.getElem_mem hi, decide_eq_true hcon⟩
    omega
  constructor
  · unfold entry
    rw [add_assoc]
    refine Eq.trans (congrArg₂ (· + ·) ?_ hd) (add_zero _)
    rw [sum_eq_single k]
    · rw [two k hk, add_zero]
    · intro i hi hne
      have hi' : i < J.R.adm.length := mem_range.1 hi
      rw [one i hi' hne, two i hi', add_zero]
    · intro hn; exact absurd (mem_range.2 hk) hn
  · unfold entry
    rw [add_assoc]
    refine Eq.trans (congrArg₂ (· + ·) ?_ hd') (add_zero _)
    rw [sum_eq_single k]
    · rw [two k hk, zero_add]
    · intro i hi hne
      have hi' : i < J.R.adm.length := mem_range.1 hi
      rw [one i hi' hne, two i hi', add_zero]
    · intro hn; exact absurd (mem_range.2 hk) hn

/-- **C46** (observable form).  The product with a unit vector: component `a` of point `coordIdx p` of the result of
`H2P_matvec` applied to the unit vector for component `b` of point `coordIdx q` is the kernel value of the two points when they
are in no admissible pair. -/
theorem C46_near_matvec {J : JIT K} {pv : Pairs} (h : Covered J pv) (E : Env K) (hE : E.Valid J.aot) (g : (Nat → Nat) × (Nat → Nat))
    (dx dy : Nat → K) {p q a b : Nat} (hp : p < J.R.nPoint) (hq : q < J.R.nPoint) (ha : a < J.R.kdim) (hb : b < J.R.kdim)
    (hnear : ∀ x ∈ J.R.adm, ¬ Holds J.R.arr p q x ∧ ¬ Holds J.R.arr q p x) :
    matvec J.aot E g dx dy (fun k => if k = J.R.coordIdx q * J.R.kdim + b then 1 else 0) (J.R.coordIdx p * J.R.kdim + a) =
      J.kern (point J.xdim J.coord J.R.nPoint p) (point J.xdim J.coord J.R.nPoint q) a b := by
  have hW := basis_nested h.wf
  have e := (C20_matvec h.wf hW E hE g dx dy (fun k => if k = J.R.coordIdx q * J.R.kdim + b then 1 else 0)).1 p hp a ha
  refine e.trans ?_
  rw [sum_eq_single q]
  · rw [sum_eq_single b]
    · show _ * (if J.R.coordIdx q * J.R.kdim + b = _ then (1 : K) else 0) = _
      rw [if_pos rfl, mul_one]
      exact C46_near_entry h hW hp hq ha hb hnear
    · intro b' hb' hne
      show _ * (if J.R.coordIdx q * J.R.kdim + b' = _ then (1 : K) else 0) = _
      rw [if_neg (by omega), mul_zero]
    · intro hn; exact absurd (mem_range.2 hb) hn
  · intro j hj hne
    apply sum_eq_zero
    intro b' hb'
    show _ * (if J.R.coordIdx j * J.R.kdim + b' = _ then (1 : K) else 0) = _
    rw [if_neg, mul_zero]
    intro hcon
    exact hne (perm_inj h.wf.perm (mem_range.1 hj) hq (mul_add_inj (mem_range.1 hb') hb hcon).1)
  · intro hn; exact absurd (mem_range.2 hq) hn

end

section
variable {K : Type} [Field K] [LinearOrder K] [IsStrictOrderedRing K]

/-- The record after `H2P_generate_B_metadata` stored `node_n_r_adm`. -/
def JIT.withMark (J : JIT K) (f : Nat → Nat) : JIT K := { J with R := { J.R with mark := f } }

/-- **C45** (H2 mode).  For every cluster tree, the pair search of `H2P_partition_points` followed by
the metadata functions: they run without undefined behaviour, and what `H2P_matvec` relies on holds - block sizes match the
basis sizes, every node of an admissible pair is marked, every admissible pair is on or below `min_adm_level`, all pairs are nodes of
the tree; the blocks cover every matrix entry exactly once.  The hypotheses are about what the basis construction supplies: at
least one skeleton point per node and matching basis sizes. -/
theorem C45_h2_build (J : JIT K) (ptDim : Nat) (T : ClusterTree J.R.arr J.R.nPoint) (fuel : Nat) (hf : 2 * J.R.arr.nNode ≤ fuel)
    (pv : Pairs) (hpv : h2Pairs ptDim J.R.arr fuel = .ok pv) (hadm : J.R.adm = pv.adm) (hinadm : J.R.inadm = pv.inadm) (hmin : J.R.minAdm = pv.minAdm)
    (hne : pv.adm ≠ [])
    (kdim : 0 < J.R.kdim) (perm : ((List.range J.R.nPoint).map J.R.coordIdx).Perm (List.range J.R.nPoint)) (simd : 0 < J.simd)
    (jpos : ∀ v < J.R.arr.nNode, J.R.minAdm ≤ J.R.arr.level v → 0 < J.jn v)
    (rankJ : ∀ v < J.R.arr.nNode, (J.R.U v).ncol = J.jn v * J.R.kdim)
    (uLeaf : ∀ v < J.R.arr.nNode, J.R.minAdm ≤ J.R.arr.level v → J.R.arr.nChild v = 0 → (J.R.U v).nrow = J.npt v * J.R.kdim)
    (uInner : ∀ v < J.R.arr.nNode, J.R.minAdm ≤ J.R.arr.level v → J.R.arr.nChild v ≠ 0 → (J.R.U v).nrow = off J.R v (J.R.arr.nChild v))
    (bimv : ∀ f, J.bimv = some f → BimvSpec J.simd J.xdim J.R.kdim J.kern f)
    (small : J.bimv = none → ∀ v < J.R.arr.nNode, J.npt v * J.R.kdim * J.R.kdim ≤ 16384 ∧ J.jn v * J.R.kdim * J.R.kdim ≤ 16384)
    (sym : ∀ s t a b, J.kern s t a b = J.kern t s b a)
    (E : MetaEnv) (hE : E.Valid J.R.arr.nNode) :
    ∃ MB MD, Returns (generateB J false E) MB ∧ Returns (generateD J false E) MD ∧ (J.withMark MB.nAdm).Ok ∧ Covered (J.withMark MB.nAdm) pv := by
  obtain ⟨pv', h1, h2, h3, h4⟩ := H2Pack.Part.search_spec T (fun a b => H2Pack.Utils.checkBoxAdmissible (J.R.arr.enbox a) (J.R.arr.enbox b) ptDim H2Pack.Part.alphaH2) 0 J.R.arr.maxLevel fuel hf
  have : pv' = pv := by
    have : h2Pairs ptDim J.R.arr fuel = .ok pv' := h1
    rw [hpv] at this
    exact (Res.ok.inj this).symm
  subst this
  have g1 : ∀ x ∈ pv'.adm, x.1 < J.R.arr.nNode ∧ x.2 < J.R.arr.nNode ∧ x.1 ≠ x.2 := by
    intro x hx
    obtain ⟨a1, a2, a3, _⟩ := h2.1 x hx
    refine ⟨a1, a2, fun he => ?_⟩
    rw [he] at a3
    have := T.clusterLe _ a2
    omega
  have g2 : ∀ x ∈ pv'.inadm, x.1 < J.R.arr.nNode ∧ x.2 < J.R.arr.nNode ∧ x.1 ≠ x.2 := by
    intro x hx
    obtain ⟨a1, a2, a3, _⟩ := h2.2 x hx
    exact ⟨a1, a2, a3⟩
  obtain ⟨d1, d2⟩ := H2Pack.Part.distinct_of_blocks T pv' g1 g2 h4
  obtain ⟨l1, l2, l3⟩ := H2Pack.Part.leaf_inj T
  obtain ⟨MB, hMB, _, _, _, _, hcnt, _⟩ := C27_B_metadata J E hE (by rw [hadm]; exact d1) (by rw [hadm]; exact hne)
  obtain ⟨MD, hMD, _⟩ := C27_D_metadata J E hE (fun i hi => (l2 i (by exact hi)).1) l3 l1 (by rw [hinadm]; exact d2)
  have hlv : ∀ x ∈ pv'.adm, pv'.minAdm ≤ max (J.R.arr.level x.1) (J.R.arr.level x.2) := by
    intro x hx
    rw [h3]
    exact (H2Pack.Part.foldl_min_le _ _).2 _ (List.mem_map.2 ⟨x, hx, rfl⟩)
  have ok : (J.withMark MB.nAdm).Ok := by
    refine jit_ok (J.withMark MB.nAdm) T kdim perm simd jpos rankJ uLeaf uInner ?_ ?_ bimv small
    · intro x hx
      have hx' : x ∈ J.R.adm := hx
      have hx'' := hx'
      rw [hadm] at hx''
      have hm : ∀ v, (x.1 = v ∨ x.2 = v) → MB.nAdm v ≠ 0 := by
        intro v hv
        rw [hcnt v]
        rcases hv with h | h
        · have : 0 < J.R.adm.countP (fun x => x.1 = v) := List.countP_pos_iff.2 ⟨x, hx', by simpa using h⟩
          omega
        · have : 0 < J.R.adm.countP (fun x => x.2 = v) := List.countP_pos_iff.2 ⟨x, hx', by simpa using h⟩
          omega
      refine ⟨(g1 x hx'').1, (g1 x hx'').2.1, ?_, hm _ (Or.inl rfl), hm _ (Or.inr rfl)⟩
      have := hlv x hx''
      rw [← hmin] at this
      exact this
    · intro x hx
      have hx' : x ∈ J.R.inadm := hx
      rw [hinadm] at hx'
      exact ⟨(g2 x hx').1, (g2 x hx').2.1⟩
  exact ⟨MB, MD, hMB, hMD, ok, ok.wf, hadm, hinadm, h4, sym⟩

end

/-- The pairs found for six points on a line. -/
def linePairs : Option (Nat × Nat × List (Nat × Nat) × List (Nat × Nat)) :=
  match H2Pack.Part.partitionPoints 1 1 6 H2Pack.Part.lineCoord 1 (1/100) (some H2Pack.Part.lineBox) (fun _ => 0) H2Pack.Part.exJunk (fun _ _ => 0) 10 with
  | .ok R => match h2Pairs 1 R.arr 30 with
    | .ok pv => some (R.arr.nNode, pv.minAdm, pv.adm, pv.inadm)
    | _ => none
  | _ => none

set_option maxRecDepth 100000 in
theorem linePairs_eq : linePairs = some (12, 2, [(0, 2), (6, 9), (0, 8), (0, 9), (3, 6), (3, 7), (4, 9)], [(1, 2), (0, 1), (6, 7), (7, 9)]) := by
  decide +kernel

theorem line_build : ∃ R pv, H2Pack.Part.Outcome 1 1 6 H2Pack.Part.lineCoord 1 (1/100) H2Pack.Part.lineBox R ∧ R.arr.nNode = 12 ∧
    h2Pairs 1 R.arr 30 = .ok pv ∧ pv.adm = [(0, 2), (6, 9), (0, 8), (0, 9), (3, 6), (3, 7), (4, 9)] ∧ pv.inadm = [(1, 2), (0, 1), (6, 7), (7, 9)] ∧ pv.minAdm = 2 := by
  have h := linePairs_eq
  unfold linePairs at h
  have O := H2Pack.Part.partitionPoints_spec 1 1 6 (by norm_num) (le_refl _) H2Pack.Part.lineCoord 1 (1/100) (some H2Pack.Part.lineBox) (fun _ => 0) H2Pack.Part.exJunk (fun _ _ => 0) 10
  cases h1 : H2Pack.Part.partitionPoints 1 1 6 H2Pack.Part.lineCoord 1 (1/100) (some H2Pack.Part.lineBox) (fun _ => 0) H2Pack.Part.exJunk (fun _ _ => 0) 10 with
  | ok R =>
    rw [h1] at h O
    dsimp only at h O
    cases h2 : h2Pairs 1 R.arr 30 with
    | ok pv =>
      rw [h2] at h
      simp only [Option.some.injEq, Prod.mk.injEq] at h
      exact ⟨R, pv, O, h.1, h2, h.2.2.1, h.2.2.2, h.2.1⟩
    | ub => rw [h2] at h; simp at h
    | diverge => rw [h2] at h; simp at h
  | ub => rw [h1] at h; simp at h
  | diverge => rw [h1] at h; simp at h

/-- A concrete case of C27, C45 and C46: six points on a line, seven admissible pairs, two of them between different levels. -/
theorem demo_build' : ∃ J : JIT ℚ, ∃ pv MB MD, J.R.arr.nNode = 12 ∧ J.R.nPoint = 6 ∧
    pv.adm = [(0, 2), (6, 9), (0, 8), (0, 9), (3, 6), (3, 7), (4, 9)] ∧ pv.inadm = [(1, 2), (0, 1), (6, 7), (7, 9)] ∧
    Returns (generateB J false ⟨3, 2, 2, fun _ => 0, fun _ => 0, List.range 12⟩) MB ∧
    Returns (generateD J false ⟨3, 2, 2, fun _ => 0, fun _ => 0, List.range 12⟩) MD ∧
    (J.withMark MB.nAdm).Ok ∧ Covered (J.withMark MB.nAdm) pv ∧ (demoEnv (J.withMark MB.nAdm).aot).Valid (J.withMark MB.nAdm).aot := by
  obtain ⟨R, pv, O, hn, hp, ha, hi, hm⟩ := line_build
  let J : JIT ℚ := { demoJIT R.arr 6 (fun i => R.coord i 0) pv.adm pv.inadm pv.minAdm 1 none with kern := fun p q a b => (p 0 - q 0) * (p 0 - q 0) + a + b }
  obtain ⟨MB, MD, h1, h2, h3, h4⟩ := C45_h2_build J 1 O.tree 30 (by show 2 * R.arr.nNode ≤ 30; omega) pv hp rfl rfl rfl (by rw [ha]; simp)
    (show 0 < 2 by omega) (demo_perm 6) (show 0 < 4 by omega) (fun v _ _ => Nat.one_pos) (fun v _ => rfl)
    (by
      intro v _ _ h0
      show (if R.arr.nChild v = 0 then _ else _) = _
      rw [if_pos (show R.arr.nChild v = 0 from h0)]; rfl)
    (by
      intro v _ _ h0
      show (if R.arr.nChild v = 0 then _ else _) = _
      rw [if_neg (show ¬ R.arr.nChild v = 0 from h0)]
      unfold off
      show R.arr.nChild v * (1 * 2) = ∑ _ ∈ range (R.arr.nChild v), 1 * 2
      simp)
    (by intro f hf; cases hf)
    (by
      intro _ v hv
      have h1 := O.tree.clusterLt v hv
      have h2 := O.tree.clusterLe v hv
      show ((R.arr.ptE v - R.arr.ptS v + 1) * 2 * 2 ≤ 16384) ∧ 1 * 2 * 2 ≤ 16384
      omega)
    (by intro s t a b; show (s 0 - t 0) * (s 0 - t 0) + (a : ℚ) + b = (t 0 - s 0) * (t 0 - s 0) + b + a; ring)
    ⟨3, 2, 2, fun _ => 0, fun _ => 0, List.range 12⟩ ⟨by show 1 ≤ 3; omega, by show (List.range 12).Perm (List.range R.arr.nNode); rw [hn]⟩
  exact ⟨J, pv, MB, MD, hn, rfl, ha, hi, h1, h2, h3, h4, demo_valid _⟩

theorem demo_build : ∃ J : JIT ℚ, ∃ pv MB MD, J.R.arr.nNode = 12 ∧ J.R.nPoint = 6 ∧ pv.adm.length = 7 ∧
    Returns (generateB J false ⟨3, 2, 2, fun _ => 0, fun _ => 0, List.range 12⟩) MB ∧
    Returns (generateD J false ⟨3, 2, 2, fun _ => 0, fun _ => 0, List.range 12⟩) MD ∧
    (J.withMark MB.nAdm).Ok ∧ Covered (J.withMark MB.nAdm) pv ∧ (demoEnv (J.withMark MB.nAdm).aot).Valid (J.withMark MB.nAdm).aot := by
  obtain ⟨J, pv, MB, MD, hn, h6, ha, _, h1, h2, h3, h4, h5⟩ := demo_build'
  exact ⟨J, pv, MB, MD, hn, h6, by rw [ha]; rfl, h1, h2, h3, h4, h5⟩

/-- The hypotheses of C27 are met (seven distinct admissible pairs), and lookups in any interleaving of three threads exist. -/
example : ∃ J : JIT ℚ, DistinctPairs J.R.arr.nNode J.R.adm ∧ J.R.adm ≠ [] ∧ DistinctPairs J.R.arr.nNode J.R.inadm ∧ J.R.inadm.length = 4 := by
  obtain ⟨R, pv, O, hn, hp, ha, hi, hm⟩ := line_build
  refine ⟨demoJIT R.arr 6 (fun i => R.coord i 0) pv.adm pv.inadm pv.minAdm 1 none, ?_, by show pv.adm ≠ []; rw [ha]; simp, ?_, by show pv.inadm.length = 4; rw [hi]; rfl⟩
  · show DistinctPairs R.arr.nNode pv.adm
    rw [ha, hn]; unfold DistinctPairs; decide
  · show DistinctPairs R.arr.nNode pv.inadm
    rw [hi, hn]; unfold DistinctPairs; decide

/-- The hypotheses of C46 are met, with points in no admissible pair and points in one. -/
example : ∃ J : JIT ℚ, ∃ pv, Covered J pv ∧ J.R.adm.length = 7 ∧ ∃ p q, p < J.R.nPoint ∧ q < J.R.nPoint ∧ ∃ k, ∃ h : k < J.R.adm.length, Holds J.R.arr p q J.R.adm[k] := by
  obtain ⟨J, pv, MB, MD, hn, h6, h7, _, _, _, h, _⟩ := demo_build
  have hl : (J.withMark MB.nAdm).R.adm.length = 7 := by rw [h.adm]; exact h7
  have hmem := h.wf.admNode _ (List.getElem_mem (show 0 < (J.withMark MB.nAdm).R.adm.length by omega))
  have T := h.wf.tree
  refine ⟨_, pv, h, hl, J.R.arr.ptS (J.withMark MB.nAdm).R.adm[0].1, J.R.arr.ptS (J.withMark MB.nAdm).R.adm[0].2, ?_, ?_, 0, by omega, ?_⟩
  · have := T.clusterLe _ hmem.1; have := T.clusterLt _ hmem.1; exact lt_of_le_of_lt (T.clusterLe _ hmem.1) this
  · have := T.clusterLt _ hmem.2; exact lt_of_le_of_lt (T.clusterLe _ hmem.2) this
  · exact ⟨⟨le_refl _, T.clusterLe _ hmem.1⟩, ⟨le_refl _, T.clusterLe _ hmem.2⟩⟩

/-- Every point is in no admissible pair with itself: the near field is not empty. -/
example : ∃ J : JIT ℚ, ∃ pv, Covered J pv ∧ ∀ p < J.R.nPoint, ∀ x ∈ J.R.adm, ¬ Holds J.R.arr p p x ∧ ¬ Holds J.R.arr p p x := by
  obtain ⟨R, pv0, O, hn, hp, ha, _⟩ := line_build
  obtain ⟨J, pv, MB, MD, hn, h6, h7, _, _, _, h, _⟩ := demo_build
  refine ⟨_, pv, h, fun p hp x hx => ?_⟩
  have : ¬ Holds (J.withMark MB.nAdm).R.arr p p x := by
    intro hh
    have hc := h.cover p hp p hp
    have T : ClusterTree (J.withMark MB.nAdm).R.arr (J.withMark MB.nAdm).R.nPoint := h.wf.tree
    unfold blocks at hc
    rw [List.countP_append, List.countP_append (l₁ := pv.adm), H2Pack.Part.countP_swap] at hc
    rw [h.adm] at hx
    have : 0 < pv.adm.countP (fun x => Holds (J.withMark MB.nAdm).R.arr p p x) := List.countP_pos_iff.2 ⟨x, hx, decide_eq_true hh⟩
    omega
  exact ⟨this, this⟩

def lineLists : Option (Nat × List (List Nat)) :=
  match H2Pack.Part.partitionPoints 1 1 6 H2Pack.Part.lineCoord 1 (1/100) (some H2Pack.Part.lineBox) (fun _ => 0) H2Pack.Part.exJunk (fun _ _ => 0) 10 with
  | .ok R => match H2Pack.Part.inadmLists 1 3 1 R.arr with
    | .ok f => some (R.arr.nChild (R.arr.nNode - 1), (List.range 12).map f)
    | _ => none
  | _ => none

set_option maxRecDepth 100000 in
theorem lineLists_eq : lineLists = some (2, [[4], [2, 0], [1], [0], [0, 8], [10], [7], [6, 9], [4, 9], [8], [5], []]) := by
  decide +kernel

/-- The neighbour lists of the HSS mode exist for six points on a line. -/
theorem line_lists : ∃ R : H2Pack.Part.Partitioned ℚ, ∃ f, H2Pack.Part.Outcome 1 1 6 H2Pack.Part.lineCoord 1 (1/100) H2Pack.Part.lineBox R ∧
    2 ≤ R.arr.nChild (R.arr.nNode - 1) ∧ H2Pack.Part.inadmLists 1 3 1 R.arr = .ok f := by
  have h := lineLists_eq
  unfold lineLists at h
  have O := H2Pack.Part.partitionPoints_spec 1 1 6 (by norm_num) (le_refl _) H2Pack.Part.lineCoord 1 (1/100) (some H2Pack.Part.lineBox) (fun _ => 0) H2Pack.Part.exJunk (fun _ _ => 0) 10
  cases h1 : H2Pack.Part.partitionPoints 1 1 6 H2Pack.Part.lineCoord 1 (1/100) (some H2Pack.Part.lineBox) (fun _ => 0) H2Pack.Part.exJunk (fun _ _ => 0) 10 with
  | ok R =>
    rw [h1] at h O
    dsimp only at h O
    cases h2 : H2Pack.Part.inadmLists 1 3 1 R.arr with
    | ok f =>
      rw [h2] at h
      simp only [Option.some.injEq, Prod.mk.injEq] at h
      exact ⟨R, f, O, by omega, h2⟩
    | ub => rw [h2] at h; simp at h
    | diverge => rw [h2] at h; simp at h
  | ub => rw [h1] at h; simp at h
  | diverge => rw [h1] at h; simp at h

end H2Pack.MV
