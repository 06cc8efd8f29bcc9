import Verif.Model.AFN
import Verif.Proof.ULV7
import Mathlib.Data.List.Perm.Subperm
import Mathlib.Tactic.Linarith
import Mathlib.Tactic.Ring

/-! # Farthest point sampling: the parallel search -/

namespace H2Pack.AFN

variable {K : Type} [Field K] [LinearOrder K]

/-- start of block `t` -/
def bs (npt nth t : Nat) : Nat := npt / nth * t + min t (npt % nth)

theorem bs_zero (npt nth : Nat) : bs npt nth 0 = 0 := by simp [bs]

theorem bs_last (npt nth : Nat) (h : 1 ≤ nth) : bs npt nth nth = npt := by
  unfold bs
  have h1 := Nat.mod_lt npt (show nth > 0 by omega)
  rw [Nat.min_eq_right h1.le]
  have := Nat.div_add_mod npt nth
  rw [Nat.mul_comm]; exact this

theorem bs_succ (npt nth t : Nat) : bs npt nth (t + 1) = bs npt nth t + npt / nth + (if t < npt % nth then 1 else 0) := by
  unfold bs
  rw [Nat.mul_add, Nat.mul_one]
  split <;> omega

theorem bs_mono (npt nth : Nat) {a b : Nat} (h : a ≤ b) : bs npt nth a ≤ bs npt nth b := by
  induction b with
  | zero => have : a = 0 := by omega
            rw [this]
  | succ b ih =>
    by_cases h' : a = b + 1
    · rw [h']
    · have := ih (by omega)
      rw [bs_succ]
      exact this.trans (by rw [Nat.add_assoc]; exact Nat.le_add_right _ _)

theorem bs_lt (npt nth t : Nat) (h : 1 ≤ nth) (hn : nth ≤ npt) : bs npt nth t < bs npt nth (t + 1) := by
  rw [bs_succ]
  have := Nat.div_pos hn (by omega)
  omega

theorem block_eq (npt nth t : Nat) (h : 1 ≤ nth) (ht : t < nth) :
    calcBlockSposLen npt nth t = some ⟨bs npt nth t, (bs npt nth (t + 1) : Int) - bs npt nth t⟩ := by
  unfold calcBlockSposLen
  rw [if_neg (by omega), if_neg (by omega)]
  have e1 : (npt : Int).tmod nth = ((npt % nth : Nat) : Int) := by
    rw [Int.tmod_eq_emod_of_nonneg (by omega)]; exact (Int.natCast_mod _ _).symm
  have e2 : (npt : Int).tdiv nth = ((npt / nth : Nat) : Int) := by
    rw [Int.tdiv_eq_ediv_of_nonneg (by omega)]; exact (Int.natCast_div _ _).symm
  rw [e1, e2, bs_succ]
  unfold bs
  generalize npt / nth = q
  generalize npt % nth = m
  by_cases hm : t < m
  · rw [if_pos (by omega), if_pos hm, Nat.min_eq_left hm.le]
    congr 2
    · push_cast; ring
    · push_cast; ring
  · rw [if_neg (by omega), if_neg hm, Nat.min_eq_right (by omega)]
    congr 2
    · push_cast; ring

/-! ## The scan -/

/-- what the strict comparisons `<` and `>` have in common -/
def Strict (better : K → K → Bool) : Prop :=
  ∀ a b c, better a b = true → better c b = false → better a c = true ∧ better c a = false

theorem strict_lt : Strict (fun a b : K => decide (a < b)) := by
  intro a b c h1 h2
  simp only [decide_eq_true_eq, decide_eq_false_iff_not, not_lt] at *
  exact ⟨lt_of_lt_of_le h1 h2, (lt_of_lt_of_le h1 h2).le⟩

theorem strict_gt : Strict (fun a b : K => decide (a > b)) := by
  intro a b c h1 h2
  simp only [decide_eq_true_eq, decide_eq_false_iff_not, not_lt, gt_iff_lt] at *
  exact ⟨lt_of_le_of_lt h2 h1, (lt_of_le_of_lt h2 h1).le⟩

theorem irr_lt : ∀ a : K, (fun a b : K => decide (a < b)) a a = false := by intro a; simp
theorem irr_gt : ∀ a : K, (fun a b : K => decide (a > b)) a a = false := by intro a; simp

/-- `i` is the first best entry of `v` in `s .. e-1` -/
def First (better : K → K → Bool) (v : Nat → K) (s e i : Nat) : Prop :=
  s ≤ i ∧ i < e ∧ (∀ j, s ≤ j → j < e → better (v j) (v i) = false) ∧ ∀ j, s ≤ j → j < i → better (v i) (v j) = true

theorem scanBest_spec (better : K → K → Bool) (hS : Strict better) (hirr : ∀ a, better a a = false) (v : Nat → K) (s e : Nat) (h : s < e) :
    First better v s e (scanBest better v s e).1 ∧ (scanBest better v s e).2 = v (scanBest better v s e).1 := by
  have key : ∀ m, let r := (List.range' (s + 1) m).foldl (fun r j => if better (v j) r.2 then (j, v j) else r) (s, v s)
      First better v s (s + 1 + m) r.1 ∧ r.2 = v r.1 := by
    intro m
    induction m with
    | zero =>
      refine ⟨⟨le_refl _, by show s < _; omega, fun j h1 h2 => ?_, fun j h1 h2 => ?_⟩, rfl⟩
      · have : j = s := by omega
        subst this; exact hirr _
      · have h2 : j < s := h2
        omega
    | succ m ih =>
      rw [List.range'_1_concat, List.foldl_append]
      dsimp only [List.foldl_cons, List.foldl_nil] at ih ⊢
      generalize List.foldl (fun r j => if better (v j) r.2 = true then (j, v j) else r) (s, v s) (List.range' (s + 1) m) = r at ih ⊢
      obtain ⟨⟨i1, i2, i3, i4⟩, hv⟩ := ih
      by_cases hb : better (v (s + 1 + m)) r.2 = true
      · rw [if_pos hb]
        rw [hv] at hb
        refine ⟨⟨by dsimp only; omega, by dsimp only; omega, fun j h1 h2 => ?_, fun j h1 h2 => ?_⟩, rfl⟩
        · by_cases hj : j = s + 1 + m
          · subst hj; exact hirr _
          · exact (hS _ _ _ hb (i3 j h1 (by omega))).2
        · exact (hS _ _ _ hb (i3 j h1 h2)).1
      · rw [if_neg hb]
        refine ⟨⟨i1, by omega, fun j h1 h2 => ?_, i4⟩, hv⟩
        by_cases hj : j = s + 1 + m
        · subst hj; rw [hv] at hb; exact Bool.eq_false_iff.2 hb
        · exact i3 j h1 (by omega)
  have := key (e - (s + 1))
  rw [show s + 1 + (e - (s + 1)) = e by omega] at this
  exact this

/-! ## One phase -/

/-- the common form of the parts of a thread: `T` the new distances, `M t m` the new value of `min_d` -/
def part (npt nth : Nat) (T : Nat → K) (M : K → K → K) (useT : Bool) (better : K → K → Bool) (t : Nat) (st : FpsSt K) : Res (FpsSt K) :=
  match calcBlockSposLen npt nth t with
  | none => .ub
  | some b =>
    let s := b.spos.toNat
    let e := (b.spos + b.len).toNat
    let tmpD := setRange st.tmpD T s e
    let minD := setRange st.minD (fun j => M (tmpD j) (st.minD j)) s e
    if npt ≤ s then .ub
    else
      let r := scanBest better (if useT then tmpD else minD) s e
      .ok { st with tmpD := tmpD, minD := minD, locIdx := Function.update st.locIdx t r.1, locVal := Function.update st.locVal t r.2 }

theorem centerPart_eq (F : FpsIn K) (t : Nat) (st : FpsSt K) : centerPart F t st =
    part F.npt F.nThread (accDist F (center F)) (fun _ _ => F.big) true (fun a b => decide (a < b)) t st := rfl

theorem roundPart_eq (F : FpsIn K) (t : Nat) (st : FpsSt K) : roundPart F t st =
    part F.npt F.nThread (accDist F (fun d => F.coord d st.last)) (fun x m => if x < m then x else m) false (fun a b => decide (a > b)) t st := rfl

/-- the array the thread searches -/
def vArr (T : Nat → K) (M : K → K → K) (useT : Bool) (m0 : Nat → K) (j : Nat) : K := if useT then T j else M (T j) (m0 j)

theorem First.congr {better : K → K → Bool} {v w : Nat → K} {s e i : Nat} (h : First better v s e i) (he : ∀ j, s ≤ j → j < e → v j = w j) :
    First better w s e i := by
  obtain ⟨h1, h2, h3, h4⟩ := h
  refine ⟨h1, h2, fun j a b => ?_, fun j a b => ?_⟩
  · rw [← he j a b, ← he i h1 h2]; exact h3 j a b
  · rw [← he j a (by omega), ← he i h1 h2]; exact h4 j a b

theorem part_ok (npt nth : Nat) (h1 : 1 ≤ nth) (h2 : nth ≤ npt) (T : Nat → K) (M : K → K → K) (useT : Bool) (better : K → K → Bool)
    (hS : Strict better) (hirr : ∀ a, better a a = false) (t : Nat) (ht : t < nth) (st : FpsSt K) :
    ∃ st', part npt nth T M useT better t st = .ok st' ∧ st'.idx = st.idx ∧ st'.last = st.last ∧
      (∀ j, bs npt nth t ≤ j → j < bs npt nth (t + 1) → st'.minD j = M (T j) (st.minD j)) ∧
      (∀ j, ¬ (bs npt nth t ≤ j ∧ j < bs npt nth (t + 1)) → st'.minD j = st.minD j) ∧
      (∀ u, u ≠ t → st'.locIdx u = st.locIdx u ∧ st'.locVal u = st.locVal u) ∧
      First better (vArr T M useT st.minD) (bs npt nth t) (bs npt nth (t + 1)) (st'.locIdx t) ∧
      st'.locVal t = vArr T M useT st.minD (st'.locIdx t) := by
  have hb := bs_lt npt nth t h1 h2
  have hle : bs npt nth (t + 1) ≤ npt := by
    conv_rhs => rw [← bs_last npt nth h1]
    exact bs_mono npt nth (by omega)
  unfold part
  rw [block_eq npt nth t h1 ht]
  dsimp only
  rw [show ((bs npt nth t : Nat) : Int).toNat = bs npt nth t by omega,
    show ((bs npt nth t : Nat) + (((bs npt nth (t+1) : Nat) : Int) - (bs npt nth t : Nat))).toNat = bs npt nth (t + 1) by omega, if_neg (by omega)]
  generalize bs npt nth t = s at *
  generalize bs npt nth (t + 1) = e at *
  have hM : ∀ j, s ≤ j → j < e → setRange st.minD (fun j => M (setRange st.tmpD T s e j) (st.minD j)) s e j = M (T j) (st.minD j) := by
    intro j a b
    unfold setRange
    rw [if_pos ⟨a, b⟩]
    beta_reduce
    rw [if_pos ⟨a, b⟩]
  obtain ⟨sp, sv⟩ := scanBest_spec better hS hirr (if useT = true then setRange st.tmpD T s e else
    setRange st.minD (fun j => M (setRange st.tmpD T s e j) (st.minD j)) s e) s e hb
  have hv : ∀ j, s ≤ j → j < e → (if useT = true then setRange st.tmpD T s e else
    setRange st.minD (fun j => M (setRange st.tmpD T s e j) (st.minD j)) s e) j = vArr T M useT st.minD j := by
    intro j a b
    unfold vArr
    cases useT
    · simp only [Bool.false_eq_true, if_false]; exact hM j a b
    · simp only [if_true]; unfold setRange; rw [if_pos ⟨a, b⟩]
  refine ⟨_, rfl, rfl, rfl, ?_, ?_, ?_, ?_, ?_⟩
  · exact hM
  · intro j hj
    dsimp only
    unfold setRange
    rw [if_neg hj]
  · intro u hu
    dsimp only
    rw [Function.update_of_ne hu, Function.update_of_ne hu]
    exact ⟨rfl, rfl⟩
  · dsimp only
    rw [Function.update_self]
    exact sp.congr hv
  · dsimp only
    rw [Function.update_self, Function.update_self, sv, hv _ sp.1 sp.2.1]

theorem allParts_ok (npt nth : Nat) (h1 : 1 ≤ nth) (h2 : nth ≤ npt) (T : Nat → K) (M : K → K → K) (useT : Bool) (better : K → K → Bool)
    (hS : Strict better) (hirr : ∀ a, better a a = false) : ∀ (order : List Nat) (st : FpsSt K), order.Nodup → (∀ t ∈ order, t < nth) →
    ∃ st', allParts (part npt nth T M useT better) order st = .ok st' ∧ st'.idx = st.idx ∧ st'.last = st.last ∧
      (∀ t ∈ order, (∀ j, bs npt nth t ≤ j → j < bs npt nth (t + 1) → st'.minD j = M (T j) (st.minD j)) ∧
        First better (vArr T M useT st.minD) (bs npt nth t) (bs npt nth (t + 1)) (st'.locIdx t) ∧
        st'.locVal t = vArr T M useT st.minD (st'.locIdx t)) ∧
      (∀ t, t ∉ order → st'.locIdx t = st.locIdx t ∧ st'.locVal t = st.locVal t) ∧
      (∀ j, (∀ t ∈ order, ¬ (bs npt nth t ≤ j ∧ j < bs npt nth (t + 1))) → st'.minD j = st.minD j) := by
  intro order
  induction order with
  | nil =>
    intro st _ _
    exact ⟨st, rfl, rfl, rfl, fun t h => absurd h (by simp), fun t _ => ⟨rfl, rfl⟩, fun j _ => rfl⟩
  | cons t order ih =>
    intro st hnd hlt
    obtain ⟨hno, hnd'⟩ := List.nodup_cons.1 hnd
    obtain ⟨s1, e1, a1, a2, a3, a4, a5, a6, a7⟩ := part_ok npt nth h1 h2 T M useT better hS hirr t (hlt t (by simp)) st
    obtain ⟨s2, e2, b1, b2, b3, b4, b5⟩ := ih s1 hnd' (fun u hu => hlt u (List.mem_cons_of_mem _ hu))
    have disj : ∀ u, u ≠ t → ∀ j, bs npt nth u ≤ j → j < bs npt nth (u + 1) → ¬ (bs npt nth t ≤ j ∧ j < bs npt nth (t + 1)) := by
      rintro u hu j c1 c2 ⟨c3, c4⟩
      rcases Nat.lt_or_gt_of_ne hu with h | h
      · have := bs_mono npt nth (show u + 1 ≤ t by omega); omega
      · have := bs_mono npt nth (show t + 1 ≤ u by omega); omega
    refine ⟨s2, ?_, b1.trans a1, b2.trans a2, ?_, ?_, ?_⟩
    · unfold allParts at e2 ⊢
      rw [List.foldl_cons]
      have : (Res.ok st).bind (part npt nth T M useT better t) = .ok s1 := e1
      rw [this]; exact e2
    · intro u hu
      by_cases hut : u = t
      · subst hut
        refine ⟨fun j c1 c2 => ?_, ?_, ?_⟩
        · rw [b5 j (fun w hw => ?_)]
          · exact a3 j c1 c2
          · have hwu : u ≠ w := by rintro rfl; exact hno hw
            rintro ⟨c3, c4⟩
            have hwt : w ≠ u := fun h => hwu h.symm
            exact disj w hwt j c3 c4 ⟨c1, c2⟩
        · rw [(b4 u hno).1]; exact a6
        · rw [(b4 u hno).1, (b4 u hno).2]; exact a7
      · have hu' : u ∈ order := by
          rcases List.mem_cons.1 hu with h | h
          · exact absurd h hut
          · exact h
        obtain ⟨c1, c2, c3⟩ := b3 u hu'
        have hm : ∀ j, bs npt nth u ≤ j → j < bs npt nth (u + 1) → s1.minD j = st.minD j := fun j x y => a4 j (disj u hut j x y)
        have hv : ∀ j, bs npt nth u ≤ j → j < bs npt nth (u + 1) → vArr T M useT s1.minD j = vArr T M useT st.minD j := by
          intro j x y; unfold vArr; rw [hm j x y]
        refine ⟨fun j x y => by rw [c1 j x y, hm j x y], c2.congr hv, ?_⟩
        rw [c3]; exact hv _ c2.1 c2.2.1
    · intro u hu
      rw [List.mem_cons, not_or] at hu
      obtain ⟨c1, c2⟩ := b4 u hu.2
      obtain ⟨d1, d2⟩ := a5 u hu.1
      exact ⟨c1.trans d1, c2.trans d2⟩
    · intro j hj
      rw [b5 j (fun u hu => hj u (List.mem_cons_of_mem _ hu)), a4 j (hj t (by simp))]

theorem block_of (npt nth : Nat) (h1 : 1 ≤ nth) (j : Nat) (hj : j < npt) : ∃ t < nth, bs npt nth t ≤ j ∧ j < bs npt nth (t + 1) := by
  have key : ∀ m, j < bs npt nth m → ∃ t < m, bs npt nth t ≤ j ∧ j < bs npt nth (t + 1) := by
    intro m
    induction m with
    | zero => intro h; rw [bs_zero] at h; omega
    | succ m ih =>
      intro h
      by_cases hm : j < bs npt nth m
      · obtain ⟨t, a, b, c⟩ := ih hm
        exact ⟨t, by omega, b, c⟩
      · exact ⟨m, by omega, by omega, h⟩
  exact key nth (by rw [bs_last npt nth h1]; exact hj)

/-- one phase with the search of the master thread -/
theorem phase_ok (F : FpsIn K) (h1 : 1 ≤ F.nThread) (h2 : F.nThread ≤ F.npt) (T : Nat → K) (M : K → K → K) (useT : Bool) (better : K → K → Bool)
    (hS : Strict better) (hirr : ∀ a, better a a = false) (order : List Nat) (ho : order.Perm (List.range F.nThread)) (st : FpsSt K)
    (cap i : Nat) (hi : i < cap) : ∃ st', ((allParts (part F.npt F.nThread T M useT better) order st).bind (master F better cap i)) = .ok st' ∧
      (∀ j < F.npt, st'.minD j = M (T j) (st.minD j)) ∧ First better (vArr T M useT st.minD) 0 F.npt st'.last ∧
      st'.idx = Function.update st.idx i st'.last := by
  obtain ⟨s1, e1, a1, a2, a3, a4, a5⟩ := allParts_ok F.npt F.nThread h1 h2 T M useT better hS hirr order st
    (ho.nodup_iff.2 List.nodup_range) (fun t ht => List.mem_range.1 (ho.mem_iff.1 ht))
  have mem : ∀ t < F.nThread, t ∈ order := fun t ht => ho.mem_iff.2 (List.mem_range.2 ht)
  obtain ⟨sp, _⟩ := scanBest_spec better hS hirr s1.locVal 0 F.nThread (by omega)
  rw [e1]
  refine ⟨_, (by show master F better cap i s1 = _; unfold master; rw [if_neg (by omega)]), ?_, ?_, ?_⟩
  · intro j hj
    obtain ⟨t, ht, b1, b2⟩ := block_of F.npt F.nThread h1 j hj
    exact (a3 t (mem t ht)).1 j b1 b2
  · dsimp only
    generalize (scanBest better s1.locVal 0 F.nThread).1 = w at sp
    obtain ⟨_, hw, w3, w4⟩ := sp
    obtain ⟨_, ⟨f1, f2, f3, f4⟩, fv⟩ := a3 w (mem w hw)
    have hend : bs F.npt F.nThread (w + 1) ≤ F.npt := by
      conv_rhs => rw [← bs_last F.npt F.nThread h1]
      exact bs_mono _ _ (by omega)
    refine ⟨by omega, by omega, fun j _ hj => ?_, fun j _ hj => ?_⟩
    · obtain ⟨t, ht, b1, b2⟩ := block_of F.npt F.nThread h1 j hj
      obtain ⟨_, ⟨g1, g2, g3, g4⟩, gv⟩ := a3 t (mem t ht)
      have x1 := g3 j b1 b2
      have x2 := w3 t (by omega) ht
      rw [gv, fv] at x2
      by_contra hn
      rw [Bool.not_eq_false] at hn
      have := (hS _ _ _ hn x2).1
      rw [x1] at this; exact Bool.false_ne_true this
    · obtain ⟨t, ht, b1, b2⟩ := block_of F.npt F.nThread h1 j (by omega)
      obtain ⟨_, ⟨g1, g2, g3, g4⟩, gv⟩ := a3 t (mem t ht)
      by_cases htw : t = w
      · subst htw
        exact f4 j b1 hj
      · have htw' : t < w := by
          by_contra hn
          have := bs_mono F.npt F.nThread (show w + 1 ≤ t by omega)
          omega
        have x2 := w4 t (by omega) htw'
        rw [gv, fv] at x2
        exact (hS _ _ _ x2 (g3 j b1 b2)).1
  · dsimp only
    rw [a1]

end H2Pack.AFN
