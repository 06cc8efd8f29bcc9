import Verif.Proof.AFN1
import Verif.Spec.AFN
import Mathlib.Algebra.Order.BigOperators.Ring.Finset
import Mathlib.Algebra.Order.Field.Basic

/-! # Farthest point sampling: the selected points -/

namespace H2Pack.AFN
open Finset

variable {K : Type} [Field K] [LinearOrder K]

theorem foldl_sum (f : Nat → K) (n : Nat) : (List.range n).foldl (fun s j => s + f j) 0 = ∑ j ∈ range n, f j := by
  induction n with
  | zero => rfl
  | succ n ih => rw [List.range_succ, List.foldl_append, ih, Finset.sum_range_succ]; rfl

theorem center_eq (F : FpsIn K) : center F = centroid F := by
  funext d
  unfold center centroid
  rw [foldl_sum]

theorem accDist_eq (F : FpsIn K) (q : Nat → K) : accDist F q = fun j => sqDist F j q := by
  funext j
  unfold accDist sqDist
  rw [foldl_sum (fun d => (F.coord d j - q d) * (F.coord d j - q d))]
  exact Finset.sum_congr rfl (fun d _ => (sq _).symm)

/-- what `min_d[j]` holds after `i` rounds -/
def md (F : FpsIn K) (idx : Nat → Nat) : Nat → Nat → K
  | 0, _ => F.big
  | i + 1, j => if sqDist F j (pos F (idx i)) < md F idx i j then sqDist F j (pos F (idx i)) else md F idx i j

theorem md_congr (F : FpsIn K) {idx idx' : Nat → Nat} (i : Nat) (h : ∀ s < i, idx s = idx' s) (j : Nat) : md F idx i j = md F idx' i j := by
  induction i with
  | zero => rfl
  | succ i ih =>
    unfold md
    rw [ih (fun s hs => h s (by omega)), h i (by omega)]

theorem gap_zero (F : FpsIn K) (idx : Nat → Nat) (j : Nat) : gap F idx 0 j = sqDist F j (pos F (idx 0)) := by
  unfold gap; simp

theorem gap_succ (F : FpsIn K) (idx : Nat → Nat) (i j : Nat) : gap F idx (i + 1) j = min (sqDist F j (pos F (idx (i + 1)))) (gap F idx i j) := by
  unfold gap
  simp only [Finset.range_add_one (n := i + 1)]
  rw [Finset.inf'_insert nonempty_range_add_one]

theorem md_gap (F : FpsIn K) (hbig : ∀ i < F.npt, ∀ j < F.npt, sqDist F j (pos F i) ≤ F.big) (idx : Nat → Nat) (i : Nat) (hidx : idx 0 < F.npt) (j : Nat)
    (hj : j < F.npt) : md F idx (i + 1) j = gap F idx i j := by
  induction i with
  | zero =>
    rw [gap_zero]
    have e : md F idx (0 + 1) j = if sqDist F j (pos F (idx 0)) < F.big then sqDist F j (pos F (idx 0)) else F.big := rfl
    rw [e]
    by_cases h : sqDist F j (pos F (idx 0)) < F.big
    · rw [if_pos h]
    · rw [if_neg h]
      exact le_antisymm (not_lt.1 h) (hbig _ hidx j hj)
  | succ i ih =>
    rw [gap_succ]
    have e : md F idx (i + 1 + 1) j = if sqDist F j (pos F (idx (i + 1))) < md F idx (i + 1) j then sqDist F j (pos F (idx (i + 1))) else md F idx (i + 1) j := rfl
    rw [e, ih]
    split
    · next h => exact (min_eq_left h.le).symm
    · next h => exact (min_eq_right (not_lt.1 h)).symm

/-- the rounds -/
theorem rounds (F : FpsIn K) (h1 : 1 ≤ F.nThread) (h2 : F.nThread ≤ F.npt) (cap : Nat) (orders : Nat → List Nat)
    (ho : ∀ i, (orders i).Perm (List.range F.nThread)) (st : FpsSt K) (hst : ∀ j < F.npt, st.minD j = F.big)
    (hlast : st.last = st.idx 0) : ∀ m, m + 1 ≤ cap → ∃ st' : FpsSt K, (List.range' 1 m).foldl (fun (r : Res (FpsSt K)) i => r.bind (fpsRound F cap orders i)) (.ok st) = .ok st' ∧
      st'.last = st'.idx m ∧ st'.idx 0 = st.idx 0 ∧ (∀ j < F.npt, st'.minD j = md F st'.idx m j) ∧
      (∀ i, m < i → st'.idx i = st.idx i) ∧
      (∀ i < m, First (fun a b => decide (a > b)) (md F st'.idx (i + 1)) 0 F.npt (st'.idx (i + 1))) := by
  intro m
  induction m with
  | zero => intro _; exact ⟨st, rfl, hlast, rfl, hst, fun i _ => rfl, fun i hi => absurd hi (by omega)⟩
  | succ m ih =>
    intro hm
    obtain ⟨s1, e1, a1, a2, a3, a4, a5⟩ := ih (by omega)
    obtain ⟨s2, e2, b1, b2, b3⟩ := phase_ok F h1 h2 (accDist F (fun d => F.coord d s1.last)) (fun x m => if x < m then x else m) false
      (fun a b => decide (a > b)) strict_gt irr_gt (orders (1 + m)) (ho _) s1 cap (1 + m) (by omega)
    have hpart : ∀ st : FpsSt K, st.last = s1.last → ∀ t, roundPart F t st = part F.npt F.nThread (accDist F (fun d => F.coord d s1.last))
        (fun x m => if x < m then x else m) false (fun a b => decide (a > b)) t st := by
      intro st h t; rw [roundPart_eq, h]
    have keep : ∀ (T : Nat → K) (t : Nat) (st st' : FpsSt K), part F.npt F.nThread T (fun x m => if x < m then x else m) false (fun a b => decide (a > b)) t st = .ok st' →
        st'.last = st.last := by
      intro T t st st' h
      unfold part at h
      split at h
      · cases h
      · dsimp only at h
        split at h
        · cases h
        · cases h; rfl
    have hall : ∀ (o : List Nat) (st : FpsSt K), st.last = s1.last → allParts (roundPart F) o st =
        allParts (part F.npt F.nThread (accDist F (fun d => F.coord d s1.last)) (fun x m => if x < m then x else m) false (fun a b => decide (a > b))) o st := by
      intro o
      have ubs : ∀ (p : Nat → FpsSt K → Res (FpsSt K)) (o : List Nat) (r : Res (FpsSt K)), (∀ x, r ≠ .ok x) →
          o.foldl (fun (r : Res (FpsSt K)) t => r.bind (p t)) r = r := by
        intro p o
        induction o with
        | nil => intro r _; rfl
        | cons t o ih =>
          intro r hr
          rw [List.foldl_cons]
          have : r.bind (p t) = r := by
            cases r with
            | ok x => exact absurd rfl (hr x)
            | ub => rfl
            | diverge => rfl
          rw [this]; exact ih r hr
      induction o with
      | nil => intro st _; rfl
      | cons t o iho =>
        intro st h
        unfold allParts at iho ⊢
        rw [List.foldl_cons, List.foldl_cons]
        have e : (Res.ok st).bind (roundPart F t) = part F.npt F.nThread (accDist F (fun d => F.coord d s1.last))
          (fun x m => if x < m then x else m) false (fun a b => decide (a > b)) t st := hpart st h t
        have e2 : (Res.ok st).bind (part F.npt F.nThread (accDist F (fun d => F.coord d s1.last))
          (fun x m => if x < m then x else m) false (fun a b => decide (a > b)) t) = part F.npt F.nThread (accDist F (fun d => F.coord d s1.last))
          (fun x m => if x < m then x else m) false (fun a b => decide (a > b)) t st := rfl
        rw [e, e2]
        cases hp : part F.npt F.nThread (accDist F (fun d => F.coord d s1.last)) (fun x m => if x < m then x else m) false (fun a b => decide (a > b)) t st with
        | ok s' => exact iho s' ((keep _ _ _ _ hp).trans h)
        | ub => rw [ubs _ _ _ (by intro x hx; cases hx), ubs _ _ _ (by intro x hx; cases hx)]
        | diverge => rw [ubs _ _ _ (by intro x hx; cases hx), ubs _ _ _ (by intro x hx; cases hx)]
    have hT : accDist F (fun d => F.coord d s1.last) = fun j => sqDist F j (pos F (s1.idx m)) := by
      rw [accDist_eq, a1]; rfl
    have hkeep : ∀ i ≤ m, s2.idx i = s1.idx i := by
      intro i hi
      rw [b3, Function.update_of_ne (by omega)]
    have hmd : ∀ j < F.npt, md F s2.idx (m + 1) j = if sqDist F j (pos F (s1.idx m)) < s1.minD j then sqDist F j (pos F (s1.idx m)) else s1.minD j := by
      intro j hj
      rw [md_congr F (idx' := s1.idx) (m + 1) (fun s hs => hkeep s (by omega)) j, a3 j hj]
      rfl
    refine ⟨s2, ?_, ?_, ?_, ?_, ?_, ?_⟩
    · rw [List.range'_1_concat, List.foldl_append, e1]
      rw [List.foldl_cons, List.foldl_nil]
      show fpsRound F cap orders (1 + m) s1 = _
      unfold fpsRound
      rw [hall _ s1 rfl]; exact e2
    · rw [b3, Nat.add_comm m 1, Function.update_self]
    · rw [hkeep 0 (by omega), a2]
    · intro j hj
      rw [b1 j hj, hmd j hj, hT]
    · intro i hi
      rw [b3, Function.update_of_ne (by omega), a4 i (by omega)]
    · intro i hi
      by_cases him : i = m
      · subst him
        have : s2.idx (i + 1) = s2.last := by rw [b3, Nat.add_comm i 1, Function.update_self]
        rw [this]
        refine b2.congr (fun j _ hj => ?_)
        rw [hmd j hj]
        unfold vArr
        rw [hT]; rfl
      · have h := a5 i (by omega)
        rw [hkeep (i + 1) (by omega)]
        exact h.congr (fun j _ _ => md_congr F (i + 1) (fun s hs => (hkeep s (by omega)).symm) j)

theorem fps_ok (F : FpsIn K) (h1 : 1 ≤ F.nThread) (h2 : F.nThread ≤ F.npt) (hbig : ∀ i < F.npt, ∀ j < F.npt, sqDist F j (pos F i) ≤ F.big)
    (k cap : Nat) (hk : k ≤ cap) (hcap : 1 ≤ cap) (orders : Nat → List Nat) (ho : ∀ i, (orders i).Perm (List.range F.nThread)) (st : FpsSt K) :
    ∃ st', fps F k cap orders st = .ok st' ∧ Farthest F k st'.idx ∧ ∀ i, max 1 k ≤ i → st'.idx i = st.idx i := by
  obtain ⟨s0, e0, a1, a2, a3⟩ := phase_ok F h1 h2 (accDist F (center F)) (fun _ _ => F.big) true
      (fun a b => decide (a < b)) strict_lt irr_lt (orders 0) (ho 0) st cap 0 hcap
  have hs0 : s0.last = s0.idx 0 := by rw [a3, Function.update_self]
  obtain ⟨s1, e1, b1, b2, b3, b4, b5⟩ := rounds F h1 h2 cap orders ho s0 a1 hs0 (k - 1) (by omega)
  refine ⟨s1, ?_, ?_, ?_⟩
  · unfold fps
    have : ((allParts (centerPart F) (orders 0) st).bind (master F (fun a b => decide (a < b)) cap 0)) = .ok s0 := e0
    cases hp : allParts (centerPart F) (orders 0) st with
    | ok s =>
      rw [hp] at this
      have this : master F (fun a b => decide (a < b)) cap 0 s = .ok s0 := this
      simp only [Res.bind_ok]
      rw [this]
      exact e1
    | ub => rw [hp] at this; cases this
    | diverge => rw [hp] at this; cases this
  · obtain ⟨_, c1, c2, c3⟩ := a2
    have hv : vArr (accDist F (center F)) (fun _ _ => F.big) true st.minD = fun j => sqDist F j (centroid F) := by
      funext j
      unfold vArr
      rw [accDist_eq, center_eq]; rfl
    rw [hv, hs0, ← b2] at c2 c3
    rw [hs0, ← b2] at c1
    have g : ∀ i, i + 1 < k → First (fun a b => decide (a > b)) (gap F s1.idx i) 0 F.npt (s1.idx (i + 1)) := by
      intro i hi
      exact (b5 i (by omega)).congr (fun j _ hj => md_gap F hbig s1.idx i c1 j hj)
    refine ⟨c1, fun j hj => ?_, fun j hj => ?_, fun i hi => (g i hi).2.1, fun i hi j hj => ?_, fun i hi j hj => ?_⟩
    · have := c2 j (by omega) hj
      simpa using this
    · have := c3 j (by omega) hj
      simpa using this
    · have := (g i hi).2.2.1 j (by omega) hj
      simpa using this
    · have := (g i hi).2.2.2 j (by omega) hj
      simpa using this
  · intro i hi
    rw [b4 i (by omega), a3, Function.update_of_ne (by omega)]

/-! ## More threads than points -/

theorem allParts_ub (npt nth : Nat) (h1 : 1 ≤ nth) (h2 : npt < nth) (T : Nat → K) (M : K → K → K) (useT : Bool) (better : K → K → Bool) (order : List Nat)
    (hlt : ∀ t ∈ order, t < nth) (h : nth - 1 ∈ order) (st : FpsSt K) : allParts (part npt nth T M useT better) order st = .ub := by
  have noDiv : ∀ t < nth, ∀ st : FpsSt K, (∃ s, part npt nth T M useT better t st = .ok s) ∨ part npt nth T M useT better t st = .ub := by
    intro t ht st
    unfold part
    rw [block_eq npt nth t h1 ht]
    dsimp only
    split
    · right; rfl
    · left; exact ⟨_, rfl⟩
  have hub : ∀ st : FpsSt K, part npt nth T M useT better (nth - 1) st = .ub := by
    intro st
    unfold part
    rw [block_eq npt nth (nth - 1) h1 (by omega)]
    dsimp only
    rw [if_pos]
    have e := bs_succ npt nth (nth - 1)
    rw [show nth - 1 + 1 = nth by omega, bs_last npt nth h1, Nat.div_eq_of_lt h2, Nat.mod_eq_of_lt h2, if_neg (by omega)] at e
    omega
  have ubf : ∀ (o : List Nat), o.foldl (fun (r : Res (FpsSt K)) t => r.bind (part npt nth T M useT better t)) .ub = .ub := by
    intro o
    induction o with
    | nil => rfl
    | cons t o ih => rw [List.foldl_cons]; exact ih
  induction order generalizing st with
  | nil => simp at h
  | cons t o ih =>
    unfold allParts at ih ⊢
    rw [List.foldl_cons]
    rcases noDiv t (hlt t (by simp)) st with ⟨s, hs⟩ | hs
    · have e : (Res.ok st).bind (part npt nth T M useT better t) = .ok s := hs
      rw [e]
      have hne : t ≠ nth - 1 := by rintro rfl; rw [hub st] at hs; cases hs
      refine ih (fun u hu => hlt u (List.mem_cons_of_mem _ hu)) ?_ s
      rcases List.mem_cons.1 h with h | h
      · exact absurd h.symm hne
      · exact h
    · have e : (Res.ok st).bind (part npt nth T M useT better t) = .ub := hs
      rw [e]; exact ubf o

theorem fps_ub (F : FpsIn K) (h2 : F.npt < F.nThread) (k cap : Nat) (orders : Nat → List Nat) (ho : (orders 0).Perm (List.range F.nThread))
    (st : FpsSt K) : fps F k cap orders st = .ub := by
  have h := allParts_ub F.npt F.nThread (by omega) h2 (accDist F (center F)) (fun _ _ => F.big) true (fun a b => decide (a < b)) (orders 0)
    (fun t ht => List.mem_range.1 (ho.mem_iff.1 ht)) (ho.mem_iff.2 (List.mem_range.2 (by omega))) st
  have h : allParts (centerPart F) (orders 0) st = .ub := h
  unfold fps
  rw [h]; rfl

end H2Pack.AFN
