import Verif.Model.Metadata
import Verif.Props.CSR
import Verif.Props.Workload
import Verif.Props.Utils
import Verif.Spec.H2Matrix
import Mathlib.Algebra.BigOperators.Intervals

set_option linter.unusedSectionVars false

/-! # Helper lemmas for the block storage -/

namespace H2Pack.MV
open H2Pack.Part (Arr kids)
open Finset

/-! ## The index triples -/

/-- The index triples stored so far. -/
def MetaSt.trip (s : MetaSt) : List (Nat × Int × Int) := (List.range s.cnt).map fun k => (s.pi k, s.pj k, s.pv k)

theorem trip_push (s : MetaSt) (a b : Nat) (v : Int) : (s.push a b v).trip = s.trip ++ [(a, (b : Int), v)] := by
  unfold MetaSt.trip MetaSt.push
  dsimp only
  rw [List.range_succ, List.map_append]
  congr 1
  · apply List.map_congr_left
    intro k hk
    have := List.mem_range.1 hk
    rw [Function.update_of_ne (by omega), Function.update_of_ne (by omega), Function.update_of_ne (by omega)]
  · simp

theorem trip_size (s : MetaSt) (i r c : Nat) : (s.size i r c).trip = s.trip := rfl
theorem trip_count (s : MetaSt) (v : Nat) : (s.count v).trip = s.trip := rfl

/-- The sizes of the first `n` blocks are stored. -/
structure Sized (rows cols : Nat → Nat) (n : Nat) (s : MetaSt) : Prop where
  nrow : ∀ i < n, s.nrow i = rows i
  ncol : ∀ i < n, s.ncol i = cols i
  sz : ∀ i < n, s.sz i = rows i * cols i

theorem Sized.step {rows cols : Nat → Nat} {n : Nat} {s : MetaSt} (h : Sized rows cols n s) :
    Sized rows cols (n + 1) (s.size n (rows n) (cols n)) := by
  refine ⟨?_, ?_, ?_⟩ <;> intro i hi <;> unfold MetaSt.size <;> dsimp only <;> (by_cases e : i = n)
  · rw [e, Function.update_self]
  · rw [Function.update_of_ne e]; exact h.nrow i (by omega)
  · rw [e, Function.update_self]
  · rw [Function.update_of_ne e]; exact h.ncol i (by omega)
  · rw [e, Function.update_self]
  · rw [Function.update_of_ne e]; exact h.sz i (by omega)

theorem Sized.congr {rows cols : Nat → Nat} {n : Nat} {s t : MetaSt} (h : Sized rows cols n s)
    (h1 : t.nrow = s.nrow) (h2 : t.ncol = s.ncol) (h3 : t.sz = s.sz) : Sized rows cols n t := by
  refine ⟨?_, ?_, ?_⟩ <;> intro i hi
  · rw [h1]; exact h.nrow i hi
  · rw [h2]; exact h.ncol i hi
  · rw [h3]; exact h.sz i hi

/-- The triples of a pair `(a, b)` stored as block `i`. -/
def pairTrip (ew : Bool) (i a b : Nat) : List (Nat × Int × Int) :=
  (a, (b : Int), (i : Int) + 1) :: (if ew then [] else [(b, (a : Int), -((i : Int) + 1))])

section
variable {K : Type} [CommRing K]

theorem pair_npt (J : JIT K) (n0 n1 : Nat) :
    (let l0 := J.R.arr.level n0
     let l1 := J.R.arr.level n1
     let p : Nat × Nat := (0, 0)
     let p := if l0 = l1 then (J.jn n0, J.jn n1) else p
     let p := if l0 > l1 then (J.jn n0, J.npt n1) else p
     let p := if l0 < l1 then (J.npt n0, J.jn n1) else p
     p) = ((J.sidePts n0 n1).2.2, (J.sidePts n1 n0).2.2) := by
  dsimp only
  unfold JIT.sidePts
  rcases Nat.lt_trichotomy (J.R.arr.level n0) (J.R.arr.level n1) with h | h | h
  · rw [if_pos h, if_neg (by omega), if_pos (by omega)]; rfl
  · rw [if_neg (by omega), if_neg (by omega), if_pos h, if_pos (by omega), if_pos (by omega)]; rfl
  · rw [if_neg (by omega), if_pos h, if_pos (by omega), if_neg (by omega)]; rfl

/-- What the B loop has done after `n` pairs. -/
structure BInv (J : JIT K) (ew : Bool) (n : Nat) (s : MetaSt) : Prop where
  sized : Sized (fun i => (J.aot.B i).nrow) (fun i => (J.aot.B i).ncol) n s
  total : s.total = ∑ i ∈ range n, (J.aot.B i).nrow * (J.aot.B i).ncol
  trip : s.trip = (List.range n).flatMap fun i => pairTrip ew i (J.R.adm.getD i (0, 0)).1 (J.R.adm.getD i (0, 0)).2
  nAdm : ∀ v, s.nAdm v = ∑ i ∈ range n, ((if (J.R.adm.getD i (0, 0)).1 = v then 1 else 0) +
    if ew then 0 else if (J.R.adm.getD i (0, 0)).2 = v then 1 else 0)

theorem count_nAdm (s : MetaSt) (w v : Nat) : (s.count w).nAdm v = s.nAdm v + if w = v then 1 else 0 := by
  unfold MetaSt.count
  dsimp only
  by_cases e : v = w
  · subst e; simp
  · rw [Function.update_of_ne e, if_neg (fun h => e h.symm)]; rfl

theorem bInv_step (J : JIT K) (ew : Bool) (n : Nat) (s : MetaSt) (h : BInv J ew n s) : BInv J ew (n + 1) (bMetaStep J ew s n) := by
  have hp := pair_npt J (J.R.adm.getD n (0, 0)).1 (J.R.adm.getD n (0, 0)).2
  unfold bMetaStep
  dsimp only at hp ⊢
  rw [hp]
  dsimp only
  have e1 : (J.sidePts (J.R.adm.getD n (0, 0)).1 (J.R.adm.getD n (0, 0)).2).2.2 * J.R.kdim = (J.aot.B n).nrow := rfl
  have e2 : (J.sidePts (J.R.adm.getD n (0, 0)).2 (J.R.adm.getD n (0, 0)).1).2.2 * J.R.kdim = (J.aot.B n).ncol := rfl
  rw [e1, e2]
  have hc : ∀ t : MetaSt, t.nrow = s.nrow → t.ncol = s.ncol → t.sz = s.sz →
      Sized (fun i => (J.aot.B i).nrow) (fun i => (J.aot.B i).ncol) (n + 1) (t.size n (J.aot.B n).nrow (J.aot.B n).ncol) :=
    fun t h1 h2 h3 => (h.sized.congr h1 h2 h3).step
  cases ew
  · simp only [Bool.false_eq_true, if_false]
    refine ⟨?_, ?_, ?_, ?_⟩
    · exact (hc ((s.count _).count _) rfl rfl rfl).congr rfl rfl rfl
    · show s.total + _ = _
      rw [h.total, sum_range_succ]
    · rw [trip_push, trip_push, trip_size, trip_count, trip_count, h.trip, List.range_succ, List.flatMap_append]
      simp [pairTrip]
    · intro v
      show ((s.count _).count _).nAdm v = _
      rw [count_nAdm, count_nAdm, h.nAdm, sum_range_succ]
      simp only [Bool.false_eq_true, if_false]
      omega
  · simp only [if_true]
    refine ⟨?_, ?_, ?_, ?_⟩
    · exact (hc (s.count _) rfl rfl rfl).congr rfl rfl rfl
    · show s.total + _ = _
      rw [h.total, sum_range_succ]
    · rw [trip_push, trip_size, trip_count, h.trip, List.range_succ, List.flatMap_append]
      simp [pairTrip]
    · intro v
      show (s.count _).nAdm v = _
      rw [count_nAdm, h.nAdm, sum_range_succ]
      simp only [if_true]
      omega

theorem bInv (J : JIT K) (ew : Bool) (n : Nat) : BInv J ew n ((List.range n).foldl (bMetaStep J ew) MetaSt.init) := by
  induction n with
  | zero =>
    refine ⟨⟨?_, ?_, ?_⟩, rfl, rfl, fun v => rfl⟩ <;> intro i hi <;> omega
  | succ n ih =>
    rw [List.range_succ, List.foldl_append]
    exact bInv_step J ew n _ ih

/-- What the leaf loop has done after `n` leaves. -/
structure DInv0 (J : JIT K) (n : Nat) (s : MetaSt) : Prop where
  sized : Sized (fun i => (J.aot.D i).nrow) (fun i => (J.aot.D i).ncol) n s
  total : s.total = ∑ i ∈ range n, (J.aot.D i).nrow * (J.aot.D i).ncol
  trip : s.trip = (List.range n).flatMap fun i => pairTrip true i (J.R.leaf i) (J.R.leaf i)

theorem dInv0 (J : JIT K) (n : Nat) (hn : n ≤ J.R.arr.nLeaf) : DInv0 J n ((List.range n).foldl (dMetaLeaf J) MetaSt.init) := by
  induction n with
  | zero =>
    refine ⟨⟨?_, ?_, ?_⟩, rfl, rfl⟩ <;> intro i hi <;> omega
  | succ n ih =>
    rw [List.range_succ, List.foldl_append]
    have h := ih (by omega)
    simp only [List.foldl_cons, List.foldl_nil]
    generalize List.foldl (dMetaLeaf J) MetaSt.init (List.range n) = s at h
    have eD : J.aot.D n = J.block (J.cPts (J.R.leaf n)) (J.cPts (J.R.leaf n)) := if_pos (by omega)
    have e1 : J.npt (J.R.leaf n) * J.R.kdim = (J.aot.D n).nrow := by rw [eD]; rfl
    have e2 : (J.aot.D n).ncol = (J.aot.D n).nrow := by rw [eD]; rfl
    unfold dMetaLeaf
    dsimp only
    refine ⟨?_, ?_, ?_⟩
    · have h1 := h.sized.step
      rw [e2] at h1
      rw [e1]
      exact h1.congr rfl rfl rfl
    · show s.total + _ = _
      rw [h.total, sum_range_succ, e1, e2]
    · rw [trip_push, trip_size, h.trip, List.range_succ, List.flatMap_append]
      simp [pairTrip]

/-- What the loop over the inadmissible pairs has done after `n` pairs. -/
structure DInv1 (J : JIT K) (ew : Bool) (n : Nat) (s : MetaSt) : Prop where
  sized : Sized (fun i => (J.aot.D i).nrow) (fun i => (J.aot.D i).ncol) (J.R.arr.nLeaf + n) s
  total : s.total = ∑ i ∈ range n, (J.aot.D (J.R.arr.nLeaf + i)).nrow * (J.aot.D (J.R.arr.nLeaf + i)).ncol
  trip : s.trip = ((List.range J.R.arr.nLeaf).flatMap fun i => pairTrip true i (J.R.leaf i) (J.R.leaf i)) ++
    (List.range n).flatMap fun i => pairTrip ew (J.R.arr.nLeaf + i) (J.R.inadm.getD i (0, 0)).1 (J.R.inadm.getD i (0, 0)).2

theorem dInv1 (J : JIT K) (ew : Bool) (n : Nat) :
    DInv1 J ew n ((List.range n).foldl (dMetaPair J ew)
      { (List.range J.R.arr.nLeaf).foldl (dMetaLeaf J) MetaSt.init with total := 0 }) := by
  induction n with
  | zero =>
    have h := dInv0 J J.R.arr.nLeaf (le_refl _)
    refine ⟨?_, rfl, ?_⟩
    · exact h.sized.congr rfl rfl rfl
    · show MetaSt.trip _ = _
      simp only [List.range_zero, List.flatMap_nil, List.append_nil]
      rw [← h.trip]
      rfl
  | succ n ih =>
    rw [List.range_succ, List.foldl_append]
    simp only [List.foldl_cons, List.foldl_nil]
    generalize List.foldl (dMetaPair J ew) _ (List.range n) = s at ih
    have eD : J.aot.D (J.R.arr.nLeaf + n) = J.block (J.cPts (J.R.inadm.getD n (0, 0)).1) (J.cPts (J.R.inadm.getD n (0, 0)).2) := by
      show (if _ then _ else _) = _
      rw [if_neg (by omega)]
      simp only [Nat.add_sub_cancel_left]
    have e1 : J.npt (J.R.inadm.getD n (0, 0)).1 * J.R.kdim = (J.aot.D (J.R.arr.nLeaf + n)).nrow := by rw [eD]; rfl
    have e2 : J.npt (J.R.inadm.getD n (0, 0)).2 * J.R.kdim = (J.aot.D (J.R.arr.nLeaf + n)).ncol := by rw [eD]; rfl
    unfold dMetaPair
    dsimp only
    rw [e1, e2, Nat.add_comm n J.R.arr.nLeaf]
    have h1 := ih.sized.step
    have e3 : s.total + (J.aot.D (J.R.arr.nLeaf + n)).nrow * (J.aot.D (J.R.arr.nLeaf + n)).ncol =
        ∑ i ∈ range (n + 1), (J.aot.D (J.R.arr.nLeaf + i)).nrow * (J.aot.D (J.R.arr.nLeaf + i)).ncol := by
      rw [ih.total, sum_range_succ]
    have e4 : (s.size (J.R.arr.nLeaf + n) (J.aot.D (J.R.arr.nLeaf + n)).nrow (J.aot.D (J.R.arr.nLeaf + n)).ncol).trip = s.trip := rfl
    cases ew
    · simp only [Bool.false_eq_true, if_false]
      refine ⟨h1.congr rfl rfl rfl, e3, ?_⟩
      rw [trip_push, trip_push, e4, ih.trip, List.range_succ, List.flatMap_append]
      simp [pairTrip]
    · simp only [if_true]
      refine ⟨h1.congr rfl rfl rfl, e3, ?_⟩
      rw [trip_push, e4, ih.trip, List.range_succ, List.flatMap_append]
      simp [pairTrip]

end

/-! ## Prefix sums -/

theorem prefixPtr_eq (n : Nat) (sz : Nat → Nat) : ∀ i ≤ n, prefixPtr n sz i = ∑ j ∈ range i, sz j := by
  have key : ∀ m, (∀ i ≤ m, (List.range' 1 m).foldl (fun p i => Function.update p i (p i + p (i - 1)))
      (fun i => if i = 0 then 0 else sz (i - 1)) i = ∑ j ∈ range i, sz j) ∧
      (∀ i > m, (List.range' 1 m).foldl (fun p i => Function.update p i (p i + p (i - 1)))
      (fun i => if i = 0 then 0 else sz (i - 1)) i = sz (i - 1)) := by
    intro m
    induction m with
    | zero =>
      refine ⟨fun i hi => ?_, fun i hi => ?_⟩
      · rw [show i = 0 by omega]; simp
      · simp; omega
    | succ m ih =>
      rw [List.range'_concat, List.foldl_append]
      simp only [List.foldl_cons, List.foldl_nil, Nat.one_mul]
      refine ⟨fun i hi => ?_, fun i hi => ?_⟩
      · by_cases e : i = 1 + m
        · subst e
          rw [Function.update_self, ih.2 (1 + m) (by omega), ih.1 (1 + m - 1) (by omega)]
          rw [show 1 + m - 1 = m by omega, Nat.add_comm 1 m, sum_range_succ, Nat.add_comm]
        · rw [Function.update_of_ne e]
          exact ih.1 i (by omega)
      · rw [Function.update_of_ne (by omega)]
        exact ih.2 i (by omega)
  exact (key n).1

/-! ## The index matrix -/

/-- The rows of the index matrix are the triples with that row number. -/
theorem csr_rows (nNode : Nat) (s : MetaSt) (L : List (Nat × Int × Int)) (hL : s.trip = L) (hne : L ≠ [])
    (hrow : ∀ x ∈ L, x.1 < nNode) (col0 val0 : Nat → Int) (order : List Nat) (hord : order.Perm (List.range nNode)) :
    ∃ M, Returns (H2Pack.CSR.cooToCSR ⟨nNode, s.cnt, s.pi, s.pj, s.pv⟩ col0 val0 order) M ∧
      M.rp 0 = 0 ∧ (∀ i j, i ≤ j → j ≤ nNode → M.rp i ≤ M.rp j) ∧ M.rp nNode = L.length ∧
      ∀ r < nNode, (M.rowEntries r).Perm ((L.filter (fun x => x.1 = r)).map Prod.snd) := by
  have hc : 1 ≤ s.cnt := by
    by_contra h
    apply hne
    rw [← hL]
    unfold MetaSt.trip
    rw [show s.cnt = 0 by omega]; rfl
  obtain ⟨M, h1, h2, h3, h4, h5⟩ := H2Pack.CSR.C04_coo_to_csr ⟨nNode, s.cnt, s.pi, s.pj, s.pv⟩ (by
    intro k hk
    apply hrow (s.pi k, s.pj k, s.pv k)
    rw [← hL]
    exact List.mem_map.2 ⟨k, List.mem_range.2 hk, rfl⟩) hc col0 val0 order hord
  refine ⟨M, h1, h2, h4, ?_, ?_⟩
  · rw [h3, ← hL]; simp [MetaSt.trip]
  · intro r hr
    refine (h5 r hr).1.trans ?_
    rw [← hL]
    unfold H2Pack.CSR.COO.rowEntries MetaSt.trip
    rw [List.filter_map, List.map_map]
    exact List.Perm.refl _

/-- Lookup in the index matrix. -/
theorem csr_get {nNode : Nat} {M : H2Pack.CSR.Mat} {L : List (Nat × Int × Int)}
    (h : ∀ r < nNode, (M.rowEntries r).Perm ((L.filter (fun x => x.1 = r)).map Prod.snd))
    (huniq : ∀ a b v w, (a, b, v) ∈ L → (a, b, w) ∈ L → v = w) {r : Nat} (hr : r < nNode) (c : Int) :
    (∀ v, (r, c, v) ∈ L → H2Pack.CSR.getElem M r c = v) ∧
    ((∀ v, (r, c, v) ∉ L) → H2Pack.CSR.getElem M r c = 0) := by
  have mem : ∀ v, (c, v) ∈ M.rowEntries r ↔ (r, c, v) ∈ L := by
    intro v
    rw [(h r hr).mem_iff, List.mem_map]
    constructor
    · rintro ⟨⟨a, b, w⟩, h1, h2⟩
      rw [List.mem_filter] at h1
      simp only [decide_eq_true_eq] at h1
      simp only [Prod.mk.injEq] at h2
      obtain ⟨h1, rfl⟩ := h1
      obtain ⟨rfl, rfl⟩ := h2
      exact h1
    · intro h1
      exact ⟨(r, c, v), List.mem_filter.2 ⟨h1, by simp⟩, rfl⟩
  refine ⟨fun v hv => ?_, fun hv => ?_⟩
  · exact H2Pack.CSR.C05_get_found M r c v ((mem v).2 hv) (fun w hw => huniq r c w v ((mem w).1 hw) hv)
  · exact H2Pack.CSR.C05_get_missing M r c (fun v h' => hv v ((mem v).1 h'))

/-- Distinct unordered pairs of different nodes of a tree with `nNode` nodes. -/
def DistinctPairs (nNode : Nat) (L : List (Nat × Nat)) : Prop :=
  (∀ x ∈ L, x.1 < nNode ∧ x.2 < nNode ∧ x.1 ≠ x.2) ∧
  ∀ i (hi : i < L.length) j (hj : j < L.length), (L[i] = L[j] ∨ L[i] = L[j].swap) → i = j

theorem mem_pairTrip {ew : Bool} {i a b c : Nat} {d v : Int} :
    (c, d, v) ∈ pairTrip ew i a b ↔ (c = a ∧ d = b ∧ v = (i : Int) + 1) ∨ (ew = false ∧ c = b ∧ d = a ∧ v = -((i : Int) + 1)) := by
  unfold pairTrip
  cases ew <;> simp

/-- Membership in the triples of a list of pairs. -/
theorem mem_trips {ew : Bool} {L : List (Nat × Nat)} {o c : Nat} {d v : Int} :
    (c, d, v) ∈ (List.range L.length).flatMap (fun i => pairTrip ew (o + i) (L.getD i (0, 0)).1 (L.getD i (0, 0)).2) ↔
    ∃ i, ∃ h : i < L.length, (c = L[i].1 ∧ d = (L[i].2 : Int) ∧ v = ((o + i : Nat) : Int) + 1) ∨
      (ew = false ∧ c = L[i].2 ∧ d = (L[i].1 : Int) ∧ v = -(((o + i : Nat) : Int) + 1)) := by
  rw [List.mem_flatMap]
  constructor
  · rintro ⟨i, hi, h⟩
    have hi := List.mem_range.1 hi
    rw [mem_pairTrip, show L.getD i (0, 0) = L[i] by simp [List.getD, hi]] at h
    exact ⟨i, hi, h⟩
  · rintro ⟨i, hi, h⟩
    refine ⟨i, List.mem_range.2 hi, ?_⟩
    rw [mem_pairTrip, show L.getD i (0, 0) = L[i] by simp [List.getD, hi]]
    exact h

/-- Distinct pairs have distinct positions in the index matrix. -/
theorem pair_trip_unique {ew : Bool} {nNode : Nat} {L : List (Nat × Nat)} (hd : DistinctPairs nNode L) (o : Nat) {c : Nat} {d v w : Int}
    (h1 : (c, d, v) ∈ (List.range L.length).flatMap (fun i => pairTrip ew (o + i) (L.getD i (0, 0)).1 (L.getD i (0, 0)).2))
    (h2 : (c, d, w) ∈ (List.range L.length).flatMap (fun i => pairTrip ew (o + i) (L.getD i (0, 0)).1 (L.getD i (0, 0)).2)) : v = w := by
  rw [mem_trips] at h1 h2
  obtain ⟨i, hi, h1⟩ := h1
  obtain ⟨j, hj, h2⟩ := h2
  have n1 := (hd.1 L[i] (List.getElem_mem hi)).2.2
  rcases h1 with ⟨a1, a2, a3⟩ | ⟨_, a1, a2, a3⟩ <;> rcases h2 with ⟨b1, b2, b3⟩ | ⟨_, b1, b2, b3⟩
  · have e := hd.2 i hi j hj (Or.inl (Prod.ext (by omega) (by omega)))
    subst e; omega
  · have e := hd.2 i hi j hj (Or.inr (Prod.ext (by simp only [Prod.fst_swap]; omega) (by simp only [Prod.snd_swap]; omega)))
    subst e; omega
  · have e := hd.2 i hi j hj (Or.inr (Prod.ext (by simp only [Prod.fst_swap]; omega) (by simp only [Prod.snd_swap]; omega)))
    subst e; omega
  · have e := hd.2 i hi j hj (Or.inl (Prod.ext (by omega) (by omega)))
    subst e; omega

end H2Pack.MV
