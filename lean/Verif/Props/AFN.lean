import Verif.Proof.AFN3
import Mathlib.Algebra.Order.Ring.Rat
import Mathlib.Tactic.IntervalCases

/-!
# Farthest point sampling (C64) and the order of the points in the AFN preconditioner (C65)

Specification: `Verif/Spec/AFN.lean`.
-/

namespace H2Pack.AFN
open Finset

variable {K : Type} [Field K] [LinearOrder K]

/-- **C64**.  For all points (whose distances are at most `DBL_MAX`), every number `k` of points to select that fits into the output array, every
number of threads between 1 and the number of points and every order in which the threads do their parts: the function returns, and the selected
points are those of farthest point sampling with ties broken by the lowest index; the entries of the output array after the first `max 1 k` are not touched. -/
theorem C64_fps (F : FpsIn K) (h1 : 1 ≤ F.nThread) (h2 : F.nThread ≤ F.npt) (hbig : ∀ i < F.npt, ∀ j < F.npt, sqDist F j (pos F i) ≤ F.big)
    (k cap : Nat) (hk : k ≤ cap) (hcap : 1 ≤ cap) (orders : Nat → List Nat) (ho : ∀ i, (orders i).Perm (List.range F.nThread)) (st : FpsSt K) :
    ∃ st', fps F k cap orders st = .ok st' ∧ Farthest F k st'.idx ∧ ∀ i, max 1 k ≤ i → st'.idx i = st.idx i :=
  fps_ok F h1 h2 hbig k cap hk hcap orders ho st

/-- The sequence is determined: two selections of the same points agree. -/
theorem C64_unique (F : FpsIn K) (k : Nat) (a b : Nat → Nat) (ha : Farthest F k a) (hb : Farthest F k b) : ∀ i < max 1 k, a i = b i := by
  intro i
  induction i using Nat.strong_induction_on with
  | _ i ih =>
    intro hi
    cases i with
    | zero =>
      rcases Nat.lt_trichotomy (a 0) (b 0) with h | h | h
      · exact absurd (ha.first (b 0) hb.firstLt) (not_le.2 (hb.firstLow (a 0) h))
      · exact h
      · exact absurd (hb.first (a 0) ha.firstLt) (not_le.2 (ha.firstLow (b 0) h))
    | succ i =>
      have hg : ∀ j, gap F a i j = gap F b i j := by
        intro j
        unfold gap
        refine Finset.inf'_congr _ rfl (fun s hs => ?_)
        have := Finset.mem_range.1 hs
        rw [ih s (by omega) (by omega)]
      have hi' : i + 1 < k := by omega
      rcases Nat.lt_trichotomy (a (i + 1)) (b (i + 1)) with h | h | h
      · have x := hb.nextLow i hi' _ h
        have y := ha.next i hi' _ (hb.nextLt i hi')
        rw [hg, hg] at y
        exact absurd y (not_le.2 x)
      · exact h
      · have x := ha.nextLow i hi' _ h
        have y := hb.next i hi' _ (ha.nextLt i hi')
        rw [hg, hg] at x
        exact absurd y (not_le.2 x)

/-- **C64** (schedule independence).  The result does not depend on the number of threads or on their order. -/
theorem C64_fps_deterministic (F : FpsIn K) (hbig : ∀ i < F.npt, ∀ j < F.npt, sqDist F j (pos F i) ≤ F.big)
    (n1 n2 : Nat) (h1 : 1 ≤ n1) (h1' : n1 ≤ F.npt) (h2 : 1 ≤ n2) (h2' : n2 ≤ F.npt) (k cap : Nat) (hk : k ≤ cap) (hcap : 1 ≤ cap)
    (o1 o2 : Nat → List Nat) (ho1 : ∀ i, (o1 i).Perm (List.range n1)) (ho2 : ∀ i, (o2 i).Perm (List.range n2)) (st : FpsSt K) :
    ∃ s1 s2, fps { F with nThread := n1 } k cap o1 st = .ok s1 ∧ fps { F with nThread := n2 } k cap o2 st = .ok s2 ∧ s1.idx = s2.idx := by
  obtain ⟨s1, e1, f1, r1⟩ := C64_fps { F with nThread := n1 } h1 h1' hbig k cap hk hcap o1 ho1 st
  obtain ⟨s2, e2, f2, r2⟩ := C64_fps { F with nThread := n2 } h2 h2' hbig k cap hk hcap o2 ho2 st
  refine ⟨s1, s2, e1, e2, ?_⟩
  have f1' : Farthest F k s1.idx := ⟨f1.firstLt, f1.first, f1.firstLow, f1.nextLt, f1.next, f1.nextLow⟩
  have f2' : Farthest F k s2.idx := ⟨f2.firstLt, f2.first, f2.firstLow, f2.nextLt, f2.next, f2.nextLow⟩
  funext i
  by_cases hi : i < max 1 k
  · exact C64_unique F k _ _ f1' f2' i hi
  · rw [r1 i (by omega), r2 i (by omega)]

/-- **C64** (more threads than points).  With fewer points than threads a thread without points reads `tmp_d[npt]` (an entry of `min_d[]` that another
thread is writing): undefined behaviour for every input and schedule. -/
theorem C64_more_threads_than_points (F : FpsIn K) (h : F.npt < F.nThread) (k cap : Nat) (orders : Nat → List Nat)
    (ho : (orders 0).Perm (List.range F.nThread)) (st : FpsSt K) : fps F k cap orders st = .ub :=
  fps_ub F h k cap orders ho st

variable [IsStrictOrderedRing K]

/-- **C64** (distinct points).  The selected indices are pairwise different exactly if there are at least `k` different positions. -/
theorem C64_distinct (F : FpsIn K) (k : Nat) (idx : Nat → Nat) (hF : Farthest F k idx) :
    (∀ i < k, ∀ s < k, idx i = idx s → i = s) ↔ k ≤ nDistinct F := by
  constructor
  · intro h
    exact distinct_of_nodup F k idx hF (fun i hi s hs e => by have := h i hi s (by omega) e; omega)
  · intro h i hi s hs e
    rcases Nat.lt_trichotomy i s with x | x | x
    · exact absurd e.symm (nodup_of_distinct F k idx hF h s hs i x)
    · exact x
    · exact absurd e (nodup_of_distinct F k idx hF h i hi s x)

/-- The list of the points in the new order. -/
theorem order_cases (F : FpsIn K) (h1 : 1 ≤ F.nThread) (h2 : F.nThread ≤ F.npt) (hbig : ∀ i < F.npt, ∀ j < F.npt, sqDist F j (pos F i) ≤ F.big)
    (n1 : Nat) (hn1 : n1 ≤ F.npt) (orders : Nat → List Nat) (ho : ∀ i, (orders i).Perm (List.range F.nThread)) (st : FpsSt K) :
    (n1 ≤ nDistinct F → ∃ perm, orderPoints F n1 orders st = .ok perm ∧ ((List.range F.npt).map perm).Perm (List.range F.npt) ∧
      (1 ≤ n1 → Farthest F n1 perm) ∧ ∀ i j, n1 ≤ i → i < j → j < F.npt → perm i < perm j) ∧
    (nDistinct F < n1 → orderPoints F n1 orders st = .ub) := by
  obtain ⟨s1, e1, f1, r1⟩ := C64_fps F h1 h2 hbig n1 F.npt hn1 (by omega) orders ho st
  have hlt : ∀ i < n1, s1.idx i < F.npt := fun i hi => sel_lt F n1 s1.idx f1 i (by omega)
  generalize hfl : (List.range n1).foldl (fun (f : Nat → Bool) i => Function.update f (s1.idx i) true) (fun _ => false) = flag
  have hf : ∀ j, flag j = true ↔ ∃ i < n1, s1.idx i = j := by intro j; rw [← hfl]; exact flag_spec s1.idx n1 j
  have hcard := unflagged F.npt n1 s1.idx hlt flag hf
  obtain ⟨u1, u2⟩ := appendRest_spec F.npt flag (List.range F.npt) s1.idx n1 hn1
  have hop : ∀ r, (List.range F.npt).foldl (appendRest F.npt flag) (.ok (s1.idx, n1)) = r → orderPoints F n1 orders st = r.bind (fun p => .ok p.1) := by
    intro r hr
    unfold orderPoints
    rw [e1]
    simp only [Res.bind_ok]
    rw [hfl, hr]
    rfl
  have hdist := C64_distinct F n1 s1.idx f1
  constructor
  · intro hd
    have inj := hdist.2 hd
    have hc : ((range n1).image s1.idx).card = n1 := by
      rw [Finset.card_image_of_injOn, Finset.card_range]
      intro a ha b hb e
      exact inj a (by simpa using ha) b (by simpa using hb) e
    obtain ⟨p, e, a1, a2⟩ := u2 (by omega)
    refine ⟨p, by rw [hop _ e]; rfl, ?_, fun h => f1.congr h a1, ?_⟩
    · have hsplit : (List.range F.npt).map p = (List.range n1).map s1.idx ++ (List.range F.npt).filter (fun i => !flag i) := by
        have : List.range F.npt = List.range n1 ++ List.range' n1 (F.npt - n1) := by
          have := List.range'_append_1 (s := 0) (m := n1) (n := F.npt - n1)
          rw [Nat.zero_add] at this
          rw [List.range_eq_range', List.range_eq_range', this]
          congr 1; omega
        rw [← a2]
        conv_lhs => rw [this]
        rw [List.map_append]
        congr 1
        · exact List.map_congr_left (fun i hi => a1 i (List.mem_range.1 hi))
        · congr 2; omega
      rw [hsplit]
      have nd1 : ((List.range n1).map s1.idx).Nodup := by
        rw [List.nodup_map_iff_inj_on List.nodup_range]
        intro a ha b hb e
        exact inj a (List.mem_range.1 ha) b (List.mem_range.1 hb) e
      have nd : ((List.range n1).map s1.idx ++ (List.range F.npt).filter (fun i => !flag i)).Nodup := by
        refine List.Nodup.append nd1 (List.nodup_range.filter _) ?_
        intro x hx hx'
        obtain ⟨i, hi, rfl⟩ := List.mem_map.1 hx
        have := (List.mem_filter.1 hx').2
        rw [(hf _).2 ⟨i, List.mem_range.1 hi, rfl⟩] at this
        simp at this
      refine (nd.subperm ?_).perm_of_length_le ?_
      · intro x hx
        rcases List.mem_append.1 hx with h | h
        · obtain ⟨i, hi, rfl⟩ := List.mem_map.1 h
          exact List.mem_range.2 (hlt i (List.mem_range.1 hi))
        · exact (List.mem_filter.1 h).1
      · rw [List.length_append, List.length_map, List.length_range, List.length_range]; omega
    · intro i j hi hij hj
      have hs : ((List.range F.npt).filter (fun i => !flag i)).Pairwise (· < ·) := List.Pairwise.filter _ List.pairwise_lt_range
      rw [← a2, List.pairwise_map, List.pairwise_iff_getElem] at hs
      have := hs (i - n1) (j - n1) (by rw [List.length_range']; omega) (by rw [List.length_range']; omega) (by omega)
      rw [List.getElem_range', List.getElem_range'] at this
      rw [show n1 + 1 * (i - n1) = i by omega, show n1 + 1 * (j - n1) = j by omega] at this
      exact this
  · intro hd
    have hc : ((range n1).image s1.idx).card < n1 := by
      by_contra hn
      have hle := Finset.card_image_le (s := range n1) (f := s1.idx)
      rw [Finset.card_range] at hle
      have heq : ((range n1).image s1.idx).card = (range n1).card := by rw [Finset.card_range]; omega
      have inj := Finset.card_image_iff.1 heq
      have := hdist.1 (fun i hi s hs e => inj (by simpa using hi) (by simpa using hs) e)
      omega
    rw [hop _ (u1 (by omega))]; rfl

/-- **C65**.  If the points have at least `n1` different positions, the order of the points is a permutation of them, it begins with the `n1` points
of farthest point sampling, and the other points keep their order. -/
theorem C65_order (F : FpsIn K) (h1 : 1 ≤ F.nThread) (h2 : F.nThread ≤ F.npt) (hbig : ∀ i < F.npt, ∀ j < F.npt, sqDist F j (pos F i) ≤ F.big)
    (n1 : Nat) (hn1 : n1 ≤ F.npt) (hd : n1 ≤ nDistinct F) (orders : Nat → List Nat) (ho : ∀ i, (orders i).Perm (List.range F.nThread)) (st : FpsSt K) :
    ∃ perm, orderPoints F n1 orders st = .ok perm ∧ ((List.range F.npt).map perm).Perm (List.range F.npt) ∧
      (1 ≤ n1 → Farthest F n1 perm) ∧ ∀ i j, n1 ≤ i → i < j → j < F.npt → perm i < perm j :=
  (order_cases F h1 h2 hbig n1 hn1 orders ho st).1 hd

/-- **C65** (repeated points).  If the points have fewer than `n1` different positions, an index is selected twice and the loop appending the other
points writes past the end of `perm[]`: undefined behaviour for every input and schedule. -/
theorem C65_repeated_points (F : FpsIn K) (h1 : 1 ≤ F.nThread) (h2 : F.nThread ≤ F.npt) (hbig : ∀ i < F.npt, ∀ j < F.npt, sqDist F j (pos F i) ≤ F.big)
    (n1 : Nat) (hn1 : n1 ≤ F.npt) (hd : nDistinct F < n1) (orders : Nat → List Nat) (ho : ∀ i, (orders i).Perm (List.range F.nThread)) (st : FpsSt K) :
    orderPoints F n1 orders st = .ub :=
  (order_cases F h1 h2 hbig n1 hn1 orders ho st).2 hd

/-! ## Non-vacuity -/

/-- Four points on a line, two threads. -/
def exF : FpsIn ℚ := ⟨4, 1, fun _ j => [0, 1, 5, 6].getD j 0, 2, 100⟩

def exSt : FpsSt ℚ := ⟨fun _ => 7, fun _ => -3, fun _ => 9, fun _ => 2, fun _ => 42, 17⟩

example : ∃ st', fps exF 3 4 (fun _ => [1, 0]) exSt = .ok st' ∧ [st'.idx 0, st'.idx 1, st'.idx 2, st'.idx 3] = [1, 3, 0, 42] := by
  have h : (match fps exF 3 4 (fun _ => [1, 0]) exSt with | .ok s => some [s.idx 0, s.idx 1, s.idx 2, s.idx 3] | _ => none) = some [1, 3, 0, 42] := by
    decide +kernel
  split at h
  · next s e => exact ⟨s, e, by simpa using h⟩
  · cases h

theorem exF_big : ∀ i < exF.npt, ∀ j < exF.npt, sqDist exF j (pos exF i) ≤ exF.big := by decide +kernel

example : ∃ perm, orderPoints exF 3 (fun _ => [1, 0]) exSt = .ok perm ∧ ((List.range 4).map perm).Perm (List.range 4) := by
  obtain ⟨p, h, hp, _⟩ := C65_order exF (by decide) (by decide) exF_big 3 (by decide) (by decide +kernel) (fun _ => [1, 0])
    (fun _ => by decide) exSt
  exact ⟨p, h, hp⟩

/-- Two of three points coincide: selecting three points is undefined behaviour. -/
example : orderPoints (⟨3, 1, fun _ j => [0, 1, 1].getD j 0, 2, 100⟩ : FpsIn ℚ) 3 (fun _ => [0, 1]) exSt = .ub :=
  C65_repeated_points _ (by decide) (by decide) (by decide +kernel) 3 (by decide) (by decide +kernel) (fun _ => [0, 1]) (fun _ => by decide) exSt

end H2Pack.AFN
