import Verif.Proof.Partition
import Mathlib.Algebra.Order.Archimedean.Basic
import Mathlib.Tactic.FieldSimp

/-! # Termination and divergence of the bisection -/

set_option linter.unusedSectionVars false

namespace H2Pack.Part
open H2Pack.Utils (Box)
variable {K : Type} [Field K] [LinearOrder K] [IsStrictOrderedRing K]

/-! ## More fuel does not change a result -/

omit [IsStrictOrderedRing K] [LinearOrder K] [Field K] in
theorem partChildren_mono (f f' : Nat → Nat → Box K → St K → Res (Tree K × St K))
    (h : ∀ s e b st, f s e b st ≠ .diverge → f' s e b st = f s e b st) :
    ∀ subs st, partChildren f subs st ≠ .diverge → partChildren f' subs st = partChildren f subs st := by
  intro subs
  induction subs with
  | nil => intro st _; rfl
  | cons x subs ih =>
    obtain ⟨s, e, b⟩ := x
    intro st hne
    rw [partChildren] at hne ⊢
    rw [partChildren]
    cases hf : f s e b st with
    | diverge => rw [hf] at hne; exact absurd rfl hne
    | ub => rw [h s e b st (by rw [hf]; simp), hf]; rfl
    | ok r =>
      rw [h s e b st (by rw [hf]; simp), hf]
      rw [hf] at hne
      obtain ⟨t, st1⟩ := r
      simp only [Res.bind_ok] at hne ⊢
      have : partChildren f subs st1 ≠ .diverge := by
        intro hd; rw [hd] at hne; exact hne rfl
      rw [ih st1 this]

theorem partition_mono (P : Params K) (g : Nat → Nat → Nat) : ∀ (fuel level s e : Nat) (box : Box K) (st : St K),
    partition P g fuel level s e box st ≠ .diverge → partition P g (fuel+1) level s e box st = partition P g fuel level s e box st := by
  intro fuel
  induction fuel with
  | zero => intro level s e box st h; exact absurd rfl h
  | succ fuel ih =>
    intro level s e box st h
    rw [partition] at h ⊢
    rw [partition]
    dsimp only at h ⊢
    by_cases hleaf : e + 1 - s ≤ P.maxLeafPoints ∨ box.ext 0 ≤ P.maxLeafSize
    · rw [if_pos hleaf, if_pos hleaf]
    · rw [if_neg hleaf, if_neg hleaf]
      rw [if_neg hleaf] at h
      generalize hs : sortLoop P s _ _ _ _ = r at h ⊢
      cases r with
      | ub => rfl
      | diverge => exact absurd rfl h
      | ok b =>
        simp only [Res.bind_ok] at h ⊢
        split
        · rename_i hd
          rw [if_pos hd] at h
          have hne : partChildren (partition P g fuel (level+1)) (subList P.ptDim s (subCount (fun i => childIdx P.ptDim box (st.coord (s + i))) (e + 1 - s))
              (subRel (fun i => childIdx P.ptDim box (st.coord (s + i))) (fun i j => relBit box (st.coord (s + i)) j) (e + 1 - s) g) box)
              ⟨b.coord, b.idx, st.po, st.nLeaf, max st.maxLevel level⟩ ≠ .diverge := by
            intro hd2; rw [hd2] at h; exact h rfl
          rw [partChildren_mono _ (partition P g (fuel+1) (level+1)) (fun s e b st hh => ih (level+1) s e b st hh) _ _ hne]
        · rfl

theorem partition_mono_le (P : Params K) (g : Nat → Nat → Nat) (fuel level s e : Nat) (box : Box K) (st : St K)
    (h : partition P g fuel level s e box st ≠ .diverge) : ∀ k, partition P g (fuel+k) level s e box st = partition P g fuel level s e box st := by
  intro k
  induction k with
  | zero => rfl
  | succ k ih => rw [← Nat.add_assoc, partition_mono P g (fuel+k) level s e box st (by rw [ih]; exact h), ih]

/-! ## Termination -/

theorem partChildren_term (f : Nat → Nat → Box K → St K → Res (Tree K × St K)) :
    ∀ subs : List (Nat × Nat × Box K), (∀ x ∈ subs, ∀ st, f x.1 x.2.1 x.2.2 st ≠ .diverge) →
    ∀ st, partChildren f subs st ≠ .diverge := by
  intro subs
  induction subs with
  | nil => intro _ st; rw [partChildren]; simp
  | cons x subs ih =>
    obtain ⟨s, e, b⟩ := x
    intro h st
    rw [partChildren]
    have h1 := h (s, e, b) (by simp) st
    dsimp only at h1
    cases hf : f s e b st with
    | diverge => exact absurd hf h1
    | ub => simp
    | ok r =>
      obtain ⟨t, st1⟩ := r
      simp only [Res.bind_ok]
      have := ih (fun x hx => h x (List.mem_cons_of_mem _ hx)) st1
      cases hp : partChildren f subs st1 with
      | diverge => exact absurd hp this
      | ub => simp
      | ok r => simp

omit [IsStrictOrderedRing K] [LinearOrder K] [Field K] in
theorem sortLoop_ne_diverge (P : Params K) (s : Nat) (ci : Nat → Nat) (old : St K) : ∀ l b, sortLoop P s ci old l b ≠ .diverge := by
  intro l
  induction l with
  | nil => intro b; rw [sortLoop]; simp
  | cons i l ih =>
    intro b
    rw [sortLoop]
    unfold sortStep
    dsimp only
    split
    · simp only [Res.bind_ok]; exact ih _
    · simp

/-- Enough levels for the box to shrink below the limit. -/
theorem partition_term (P : Params K) (g : Nat → Nat → Nat) : ∀ (k level s e : Nat) (box : Box K) (st : St K),
    box.ext 0 - 4 * eps ≤ (P.maxLeafSize - 4 * eps) * 2 ^ k → partition P g (k+1) level s e box st ≠ .diverge := by
  intro k
  induction k with
  | zero =>
    intro level s e box st h
    rw [partition]
    dsimp only
    rw [if_pos (Or.inr (by rw [pow_zero, mul_one] at h; linarith))]
    simp
  | succ k ih =>
    intro level s e box st h
    rw [partition]
    dsimp only
    split
    · simp
    · generalize hs : sortLoop P s _ _ _ _ = r
      cases r with
      | ub => simp
      | diverge => exact absurd hs (sortLoop_ne_diverge P s _ _ _ _)
      | ok b =>
        simp only [Res.bind_ok]
        split
        · have := partChildren_term (partition P g (k+1) (level+1)) (subList P.ptDim s (subCount (fun i => childIdx P.ptDim box (st.coord (s + i))) (e + 1 - s))
              (subRel (fun i => childIdx P.ptDim box (st.coord (s + i))) (fun i j => relBit box (st.coord (s + i)) j) (e + 1 - s) g) box)
              (by
                intro x hx st
                apply ih
                unfold subList at hx
                rw [List.mem_map] at hx
                obtain ⟨c, _, rfl⟩ := hx
                show (1/2) * box.ext 0 + 2 * eps - 4 * eps ≤ _
                rw [pow_succ] at h
                linarith) ⟨b.coord, b.idx, st.po, st.nLeaf, max st.maxLevel level⟩
          cases hp : partChildren (partition P g (k+1) (level+1)) _ _ with
          | diverge => exact absurd hp this
          | ub => simp
          | ok r => simp
        · simp

/-! ## Divergence -/

omit [IsStrictOrderedRing K] in
theorem childIdxLoop_congr (box : Box K) (x y : Nat → K) : ∀ n j p a, (∀ i, j ≤ i → i < j + n → x i = y i) →
    childIdxLoop box x n j p a = childIdxLoop box y n j p a := by
  intro n
  induction n with
  | zero => intro j p a _; rfl
  | succ n ih =>
    intro j p a h
    rw [childIdxLoop, childIdxLoop]
    have : relBit box x j = relBit box y j := by unfold relBit; rw [h j (le_refl _) (by omega)]
    rw [this]
    exact ih _ _ _ (fun i h1 h2 => h i (by omega) (by omega))

omit [IsStrictOrderedRing K] in
theorem childIdx_congr (d : Nat) (box : Box K) (x y : Nat → K) (h : ∀ i < d, x i = y i) : childIdx d box x = childIdx d box y :=
  childIdxLoop_congr box x y d 0 1 0 (fun i _ hi => h i (by omega))

/-- More than `max_leaf_points` points of the range coincide. -/
def Coincide (P : Params K) (coord : Nat → Nat → K) (s e : Nat) : Prop :=
  ∃ (S : Finset Nat) (x : Nat → K), P.maxLeafPoints < S.card ∧ ∀ p ∈ S, s ≤ p ∧ p ≤ e ∧ ∀ j < P.ptDim, coord p j = x j

theorem partChildren_div (P : Params K) (hx : P.ptDim ≤ P.xptDim) (level : Nat) (f : Nat → Nat → Box K → St K → Res (Tree K × St K))
    (hf : ∀ s e b st, s ≤ e → e < P.nPoint → Spec P level s e b st (f s e b st)) :
    ∀ (subs : List (Nat × Nat × Box K)) (a b : Nat) (st : St K), Tiles a b (subs.map (fun x => (x.1, x.2.1))) → b ≤ P.nPoint →
    (∃ x ∈ subs, ∀ st', (∀ p, x.1 ≤ p → p ≤ x.2.1 → ∀ j < P.ptDim, st'.coord p j = st.coord p j) → f x.1 x.2.1 x.2.2 st' = .diverge) →
    partChildren f subs st = .diverge := by
  intro subs
  induction subs with
  | nil => intro a b st _ _ ⟨x, hx, _⟩; simp at hx
  | cons y subs ih =>
    obtain ⟨s, e, bx⟩ := y
    intro a b st ht hb hex
    rw [List.map_cons] at ht
    obtain ⟨t1, t2, t3⟩ := ht
    dsimp only at t1 t2 t3
    rw [partChildren]
    have hle := tiles_le _ _ _ t3
    have hsp := hf s e bx st t2 (by omega)
    obtain ⟨x, hxm, hxd⟩ := hex
    rcases List.mem_cons.1 hxm with hxe | hxm
    · subst hxe
      have := hxd st (fun _ _ _ _ _ => rfl)
      dsimp only at this
      rw [this]; rfl
    · cases hfr : f s e bx st with
      | diverge => rfl
      | ub => rw [hfr] at hsp; exact hsp.elim
      | ok r =>
        obtain ⟨t, st1⟩ := r
        rw [hfr] at hsp
        have hpost : Post P level s e bx st t st1 := hsp
        simp only [Res.bind_ok]
        have := ih (e+1) b st1 t3 hb ⟨x, hxm, fun st' hst' => hxd st' (by
          intro p hp1 hp2 j hj
          have hr := tiles_mem _ _ _ t3 (x.1, x.2.1) (List.mem_map.2 ⟨x, hxm, rfl⟩)
          dsimp only at hr
          obtain ⟨π, hπ⟩ := hpost.perm
          rw [hst' p hp1 hp2 j hj, hπ.2.2 p j (by omega), hπ.1 p (by omega)])⟩
        rw [this]; rfl

theorem exists_slot (d : Nat → Nat) (h0 : d 0 = 0) : ∀ M p, p < d M → ∃ c < M, d c ≤ p ∧ p < d (c+1) := by
  intro M
  induction M with
  | zero => intro p hp; omega
  | succ M ih =>
    intro p hp
    rcases Nat.lt_or_ge p (d M) with h | h
    · obtain ⟨c, h1, h2⟩ := ih p h; exact ⟨c, by omega, h2⟩
    · exact ⟨M, by omega, h, hp⟩

theorem partition_div (P : Params K) (hx : P.ptDim ≤ P.xptDim) (g : Nat → Nat → Nat) (hm : P.maxLeafSize ≤ 4 * eps) :
    ∀ (fuel level s e : Nat) (box : Box K) (st : St K), s ≤ e → e < P.nPoint → 4 * eps < box.ext 0 → Coincide P st.coord s e →
    partition P g fuel level s e box st = .diverge := by
  intro fuel
  induction fuel with
  | zero => intro level s e box st _ _ _ _; rfl
  | succ fuel ih =>
    intro level s e box st hse hen hw ⟨S, x, hS, hSp⟩
    rw [partition]
    dsimp only
    have hcard : P.maxLeafPoints < e + 1 - s := by
      have hsub : S ⊆ Finset.Icc s e := by
        intro p hp; rw [Finset.mem_Icc]; have := hSp p hp; exact ⟨this.1, this.2.1⟩
      have := Finset.card_le_card hsub
      rw [Nat.card_Icc] at this
      omega
    rw [if_neg (by rw [not_or, not_le, not_le]; exact ⟨hcard, lt_of_le_of_lt hm hw⟩)]
    obtain ⟨b, e1, e2, ⟨π, hπ⟩, e4⟩ := sort_spec P s (e + 1 - s) (by omega) box { st with maxLevel := max st.maxLevel level }
    dsimp only at e1 e2 e4
    rw [e1]
    simp only [Res.bind_ok]
    rw [if_pos e2]
    generalize hci : (fun i => childIdx P.ptDim box (st.coord (s + i))) = ci at *
    generalize hrel : subRel ci (fun i j => relBit box (st.coord (s + i)) j) (e + 1 - s) g = rel
    have htile : Tiles s (e+1) ((subList P.ptDim s (subCount ci (e+1-s)) rel box).map (fun x => (x.1, x.2.1))) := by
      have := subList_tiles (K := K) s (2 ^ P.ptDim) (subCount ci (e+1-s)) (fun c => subBox box (rel c)) (2 ^ P.ptDim) 0 (by omega)
      rw [e2] at this
      unfold subList
      rw [List.range_eq_range']
      have h2 : s + displs (subCount ci (e+1-s)) 0 = s := rfl
      rw [h2, show s + (e + 1 - s) = e + 1 by omega] at this
      exact this
    have key : ∀ p, s ≤ p → p ≤ e → (∀ j < P.ptDim, b.coord p j = x j) → childIdx P.ptDim box x < 2 ^ P.ptDim ∧
        displs (subCount ci (e+1-s)) (childIdx P.ptDim box x) ≤ p - s ∧ p - s < displs (subCount ci (e+1-s)) (childIdx P.ptDim box x + 1) := by
      intro p h1 h2 hpx
      obtain ⟨c, hc, h3, h4⟩ := exists_slot (displs (subCount ci (e+1-s))) rfl (2 ^ P.ptDim) (p - s) (by rw [e2]; omega)
      obtain ⟨i, hi, h5, h6⟩ := e4 c (p - s) h3 h4 (by omega)
      have : childIdx P.ptDim box x = c := by
        rw [← h5]
        apply childIdx_congr
        intro j hj
        rw [← h6 j (by omega), ← hpx j hj]
        congr 1; omega
      rw [this]; exact ⟨hc, h3, h4⟩
    -- the coincident points after sorting
    have hS' : ∀ p ∈ S.map π.symm.toEmbedding, s ≤ p ∧ p ≤ e ∧ ∀ j < P.ptDim, b.coord p j = x j := by
      intro p hp
      rw [Finset.mem_map] at hp
      obtain ⟨q, hq, rfl⟩ := hp
      have h1 := hSp q hq
      have h2 := (perm_maps hπ.1 (π.symm q)).1 (by rw [Equiv.apply_symm_apply]; omega)
      refine ⟨h2.1, by show π.symm q ≤ e; omega, ?_⟩
      intro j hj
      have := hπ.2.2 (π.symm q) j (by omega)
      rw [Equiv.apply_symm_apply] at this
      exact this.trans (h1.2.2 j hj)
    have hne : S.Nonempty := by rw [← Finset.card_pos]; omega
    obtain ⟨q0, hq0⟩ := hne
    have hk0 := key (π.symm q0) (hS' _ (Finset.mem_map_of_mem _ hq0)).1 (hS' _ (Finset.mem_map_of_mem _ hq0)).2.1 (hS' _ (Finset.mem_map_of_mem _ hq0)).2.2
    generalize hc : childIdx P.ptDim box x = c at hk0 key
    have hsucc : displs (subCount ci (e+1-s)) (c+1) = displs (subCount ci (e+1-s)) c + subCount ci (e+1-s) c := rfl
    have hdiv := partChildren_div P hx (level+1) (partition P g fuel (level+1)) (fun s e b st h1 h2 => partition_spec P hx g fuel (level+1) s e b st h1 h2)
        (subList P.ptDim s (subCount ci (e+1-s)) rel box) s (e+1)
        ⟨b.coord, b.idx, st.po, st.nLeaf, max st.maxLevel level⟩ htile (by omega)
        ⟨(s + displs (subCount ci (e+1-s)) c, s + displs (subCount ci (e+1-s)) (c+1) - 1, subBox box (rel c)), by
          unfold subList
          refine List.mem_map.2 ⟨c, ?_, rfl⟩
          rw [List.mem_filter, List.mem_range]
          refine ⟨hk0.1, ?_⟩
          simp only [decide_eq_true_eq]
          omega,
         by
          intro st' hst'
          dsimp only at hst' ⊢
          have hin : (s + displs (subCount ci (e+1-s)) c, s + displs (subCount ci (e+1-s)) (c+1) - 1) ∈ (subList P.ptDim s (subCount ci (e+1-s)) rel box).map (fun x => (x.1, x.2.1)) := by
            unfold subList
            rw [List.map_map]
            refine List.mem_map.2 ⟨c, ?_, rfl⟩
            rw [List.mem_filter, List.mem_range]
            refine ⟨hk0.1, ?_⟩
            simp only [decide_eq_true_eq]
            omega
          have hr := tiles_mem _ _ _ htile _ hin
          dsimp only at hr
          refine ih (level+1) _ _ _ st' (by omega) (by omega) ?_ ⟨S.map π.symm.toEmbedding, x, by rw [Finset.card_map]; exact hS, ?_⟩
          · show 4 * eps < (1/2) * box.ext 0 + 2 * eps
            linarith
          · intro p hp
            have h1 := hS' p hp
            have h2 := key p h1.1 h1.2.1 h1.2.2
            have h3 : s + displs (subCount ci (e+1-s)) c ≤ p ∧ p ≤ s + displs (subCount ci (e+1-s)) (c+1) - 1 := by omega
            exact ⟨h3.1, h3.2, fun j hj => by rw [hst' p h3.1 h3.2 j hj]; exact h1.2.2 j hj⟩⟩
    rw [hdiv]; rfl

end H2Pack.Part
