import Verif.Proof.SPD6
import Verif.Proof.ULV6

set_option linter.unusedSectionVars false

/-! # SPDHSS: gathering and cleaning blocks -/

namespace H2Pack.SPD
open H2Pack.MV (Mat Rep)
open H2Pack.ULV (putBlock putBlock_in putBlock_out foldl_inv foldl_range_inv loop)
open H2Pack.Part (Arr kids)
open Finset

/-- Sum of the first `k` sizes. -/
def pos (p : Nat → Nat) (L : List Nat) (k : Nat) : Nat := ((L.take k).map p).sum

theorem pos_zero (p : Nat → Nat) (L : List Nat) : pos p L 0 = 0 := by simp [pos]

theorem pos_succ (p : Nat → Nat) (L : List Nat) {k : Nat} (hk : k < L.length) : pos p L (k + 1) = pos p L k + p L[k] := by
  unfold pos
  rw [List.take_succ_eq_append_getElem hk, List.map_append, List.sum_append]
  simp

theorem pos_length (p : Nat → Nat) (L : List Nat) : pos p L L.length = (L.map p).sum := by simp [pos]

theorem pos_mono (p : Nat → Nat) (L : List Nat) {k l : Nat} (h : k ≤ l) (hl : l ≤ L.length) : pos p L k ≤ pos p L l := by
  induction h with
  | refl => exact le_rfl
  | @step m _ ih =>
    have := ih (by omega)
    rw [pos_succ p L (show m < L.length by omega)]; omega

theorem needAll_some {α : Type} (L : List α) {f : α → Option (Mat ℝ)} {g : α → Mat ℝ} (h : ∀ x ∈ L, f x = some (g x)) :
    needAll (L.map f) = .ok (L.map g) := by
  induction L with
  | nil => rfl
  | cons x L ih =>
    rw [List.map_cons, h x (by simp)]
    unfold needAll
    rw [ih (fun y hy => h y (by simp [hy]))]
    rfl

theorem rows_ok (st : St) (blk1 : List Nat) {f : Nat → Nat → Mat ℝ} : ∀ (blk0 : List Nat) (acc : List (List (Mat ℝ))),
    (∀ i ∈ blk0, ∀ j ∈ blk1, lookB st i j = some (f i j)) →
    loop (fun (acc : List (List (Mat ℝ))) i => do
      let r ← needAll (blk1.map fun j => lookB st i j)
      .ok (acc ++ [r])) blk0 acc = .ok (acc ++ blk0.map fun i => blk1.map (f i)) := by
  intro blk0
  induction blk0 with
  | nil => intro acc _; simp [loop]
  | cons i blk0 ih =>
    intro acc h
    unfold loop
    rw [needAll_some blk1 (g := f i) (fun j hj => h i (by simp) j hj)]
    show loop _ blk0 (acc ++ [blk1.map (f i)]) = _
    rw [ih _ (fun i' hi' => h i' (by simp [hi']))]
    simp

theorem gatherRow_spec (srow i : Nat) (blk1 : List Nat) (f : Nat → Nat → Mat ℝ) (p q : Nat → Nat) (hp : ∀ j ∈ blk1, (f i j).nrow = p i)
    (hq : ∀ j ∈ blk1, (f i j).ncol = q j) (hne : blk1 ≠ []) (e : Nat → Nat → ℝ) :
    (∀ l (hl : l < blk1.length), ∀ a < p i, ∀ b < q blk1[l], (gatherRow srow (blk1.map (f i)) e).1 (srow + a) (pos q blk1 l + b) = (f i blk1[l]).e a b) ∧
    (∀ r c, ¬ (srow ≤ r ∧ r < srow + p i) → (gatherRow srow (blk1.map (f i)) e).1 r c = e r c) ∧
    (gatherRow srow (blk1.map (f i)) e).2.2 = p i := by
  have key := foldl_inv (fun (s : (Nat → Nat → ℝ) × Nat × Nat) (m : Mat ℝ) => (putBlock srow s.2.1 m.nrow m.ncol m.e s.1, s.2.1 + m.ncol, m.nrow))
    (fun n s => (∀ l (hl : l < blk1.length), l < n → ∀ a < p i, ∀ b < q blk1[l], s.1 (srow + a) (pos q blk1 l + b) = (f i blk1[l]).e a b) ∧
      (∀ r c, ¬ (srow ≤ r ∧ r < srow + p i) → s.1 r c = e r c) ∧ s.2.1 = pos q blk1 n ∧ (0 < n → s.2.2 = p i)) (blk1.map (f i)) (e, 0, 0)
    ⟨fun l _ h => by omega, fun _ _ _ => rfl, (pos_zero _ _).symm, fun h => by omega⟩ (by
      rintro n hn ⟨e', sc, nr⟩ ⟨h1, h2, h3, h4⟩
      rw [List.length_map] at hn
      rw [List.getElem_map]
      have hm : blk1[n] ∈ blk1 := List.getElem_mem hn
      dsimp only at h1 h2 h3 h4 ⊢
      rw [hp _ hm, hq _ hm]
      subst h3
      refine ⟨?_, ?_, ?_, fun _ => rfl⟩
      · intro l hl hln a ha b hb
        rcases Nat.lt_succ_iff_lt_or_eq.1 hln with hlt | rfl
        · rw [putBlock_out, h1 l hl hlt a ha b hb]
          right
          have := pos_mono q blk1 (show l + 1 ≤ n by omega) (by omega)
          rw [pos_succ q blk1 hl] at this
          omega
        · exact putBlock_in ha hb rfl rfl
      · intro r c hr
        rw [putBlock_out (Or.inl hr), h2 r c hr]
      · rw [pos_succ q blk1 hn])
  rw [List.length_map] at key
  obtain ⟨h1, h2, _, h4⟩ := key
  exact ⟨fun l hl a ha b hb => h1 l hl hl a ha b hb, h2, h4 (List.length_pos_iff.2 hne)⟩

/-- Gathering succeeds. -/
theorem gatherB_ok (st : St) (blk0 blk1 : List Nat) (f : Nat → Nat → Mat ℝ) (p q : Nat → Nat) (h0 : blk0 ≠ []) (h1 : blk1 ≠ [])
    (hf : ∀ i ∈ blk0, ∀ j ∈ blk1, lookB st i j = some (f i j)) (hp : ∀ i ∈ blk0, ∀ j ∈ blk1, (f i j).nrow = p i)
    (hq : ∀ i ∈ blk0, ∀ j ∈ blk1, (f i j).ncol = q j) :
    ∃ e, gatherB st blk0 blk1 = .ok (some ⟨(blk0.map p).sum, (blk1.map q).sum, e⟩) ∧
      ∀ k (hk : k < blk0.length), ∀ l (hl : l < blk1.length), ∀ a < p blk0[k], ∀ b < q blk1[l],
        e (pos p blk0 k + a) (pos q blk1 l + b) = (f blk0[k] blk1[l]).e a b := by
  obtain ⟨j0, js, rfl⟩ := List.exists_cons_of_ne_nil h1
  obtain ⟨i0, is, rfl⟩ := List.exists_cons_of_ne_nil h0
  have hc : ((((i0 :: is).map fun i => (j0 :: js).map (f i)).all fun r => (r.headD (f i0 j0)).ncol = (f i0 j0).ncol) = true ∧
      (((j0 :: js).map (f i0)).all fun m => m.nrow = (f i0 j0).nrow) = true) := by
    rw [List.all_eq_true, List.all_eq_true]
    constructor
    · intro r hr
      obtain ⟨i, hi, rfl⟩ := List.mem_map.1 hr
      have a1 := hq i hi j0 (by simp)
      have a2 := hq i0 (by simp) j0 (by simp)
      simp [a1, a2]
    · intro m hm
      obtain ⟨j, hj, rfl⟩ := List.mem_map.1 hm
      have a1 := hp i0 (by simp) j hj
      have a2 := hp i0 (by simp) j0 (by simp)
      simp [a1, a2]
  have hstep : gatherB st (i0 :: is) (j0 :: js) = Res.ok (some ⟨((((i0 :: is).map fun i => (j0 :: js).map (f i))).map fun r => (r.headD (f i0 j0)).nrow).sum,
            (((j0 :: js).map (f i0)).map Mat.ncol).sum,
            ((((i0 :: is).map fun i => (j0 :: js).map (f i))).foldl (fun (s : Nat × (Nat → Nat → ℝ)) r =>
              let g := gatherRow s.1 r s.2
              (s.1 + g.2.2, g.1)) (0, fun _ _ => 0)).2⟩) := by
    unfold gatherB
    rw [rows_ok st (j0 :: js) (i0 :: is) [] hf]
    exact if_pos hc
  rw [hstep]
  have e1 : (((i0 :: is).map fun i => (j0 :: js).map (f i)).map fun r => (r.headD (f i0 j0)).nrow) = (i0 :: is).map p := by
    rw [List.map_map]
    refine List.map_congr_left fun i hi => ?_
    simp [hp i hi j0 (by simp)]
  have e2 : ((j0 :: js).map (f i0)).map Mat.ncol = (j0 :: js).map q := by
    rw [List.map_map]
    exact List.map_congr_left fun j hj => hq i0 (by simp) j hj
  rw [e1, e2]
  refine ⟨_, rfl, ?_⟩
  clear e1 e2 hstep hc
  generalize i0 :: is = blk0 at *
  generalize j0 :: js = blk1 at *
  have key := foldl_inv (fun (s : Nat × (Nat → Nat → ℝ)) (r : List (Mat ℝ)) =>
      let g := gatherRow s.1 r s.2
      (s.1 + g.2.2, g.1))
    (fun n s => s.1 = pos p blk0 n ∧ ∀ k (hk : k < blk0.length), k < n → ∀ l (hl : l < blk1.length), ∀ a < p blk0[k], ∀ b < q blk1[l],
        s.2 (pos p blk0 k + a) (pos q blk1 l + b) = (f blk0[k] blk1[l]).e a b) (blk0.map fun i => blk1.map (f i)) (0, fun _ _ => 0)
    ⟨(pos_zero _ _).symm, fun k _ h => by omega⟩ (by
      rintro n hn ⟨sr, e⟩ ⟨g1, g2⟩
      rw [List.length_map] at hn
      rw [List.getElem_map]
      have hm : blk0[n] ∈ blk0 := List.getElem_mem hn
      obtain ⟨r1, r2, r3⟩ := gatherRow_spec sr blk0[n] blk1 f p q (hp _ hm) (hq _ hm) h1 e
      dsimp only at g1 g2 ⊢
      rw [r3]
      refine ⟨by rw [pos_succ p blk0 hn, g1], ?_⟩
      intro k hk hkn l hl a ha b hb
      rcases Nat.lt_succ_iff_lt_or_eq.1 hkn with hlt | rfl
      · rw [r2, g2 k hk hlt l hl a ha b hb]
        have := pos_mono p blk0 (show k + 1 ≤ n by omega) (by omega)
        rw [pos_succ p blk0 hk] at this
        omega
      · rw [← g1]; exact r1 l hl a ha b hb)
  rw [List.length_map] at key
  exact fun k hk l hl a ha b hb => key.2 k hk hk l hl a ha b hb

/-- The pairs that are removed. -/
theorem cleanB_ok (blk0 blk1 : List Nat) (n0 : blk0.Nodup) (n1 : blk1.Nodup) (st : St) (h : ∀ i ∈ blk0, ∀ j ∈ blk1, st.idx i j = true) :
    ∃ B idx, cleanB blk0 blk1 st = .ok { st with B := B, idx := idx } ∧
      (∀ i j, i ∈ blk0 ∧ j ∈ blk1 → idx i j = false) ∧ (∀ i j, ¬ (i ∈ blk0 ∧ j ∈ blk1) → idx i j = st.idx i j ∧ B i j = st.B i j) := by
  have row : ∀ (i : Nat) (L : List Nat), L.Nodup → ∀ st : St, (∀ j ∈ L, st.idx i j = true) →
      ∃ B idx, loop (fun (st : St) j =>
        if st.idx i j then
          .ok { st with
            B := Function.update st.B i (Function.update (st.B i) j none)
            idx := Function.update st.idx i (Function.update (st.idx i) j false) }
        else .ub) L st = .ok { st with B := B, idx := idx } ∧
      (∀ i' j, i' = i ∧ j ∈ L → idx i' j = false) ∧ (∀ i' j, ¬ (i' = i ∧ j ∈ L) → idx i' j = st.idx i' j ∧ B i' j = st.B i' j) := by
    intro i L
    induction L with
    | nil => intro _ st _; exact ⟨st.B, st.idx, rfl, fun _ _ h => by simp at h, fun _ _ _ => ⟨rfl, rfl⟩⟩
    | cons j L ih =>
      intro hn st h
      rw [List.nodup_cons] at hn
      set st1 : St := { st with
            B := Function.update st.B i (Function.update (st.B i) j none)
            idx := Function.update st.idx i (Function.update (st.idx i) j false) } with hst1
      obtain ⟨B, idx, e, h1, h2⟩ := ih hn.2 st1 (fun j' hj' => by
        have : j' ≠ j := by rintro rfl; exact hn.1 hj'
        rw [hst1]
        simp [this, h j' (by simp [hj'])])
      refine ⟨B, idx, ?_, ?_, ?_⟩
      · unfold loop
        rw [if_pos (h j (by simp))]
        show loop _ L st1 = _
        rw [e]
      · rintro i' j' ⟨rfl, hj'⟩
        rcases List.mem_cons.1 hj' with rfl | hj'
        · rw [(h2 i' j' (fun h => hn.1 h.2)).1, hst1]; simp
        · exact h1 i' j' ⟨rfl, hj'⟩
      · intro i' j' hno
        obtain ⟨a1, a2⟩ := h2 i' j' (fun h => hno ⟨h.1, by simp [h.2]⟩)
        rw [a1, a2, hst1]
        by_cases hi : i' = i
        · subst hi
          have : j' ≠ j := by rintro rfl; exact hno ⟨rfl, by simp⟩
          simp [this]
        · simp [hi]
  unfold cleanB
  induction blk0 generalizing st with
  | nil => exact ⟨st.B, st.idx, rfl, fun _ _ h => by simp at h, fun _ _ _ => ⟨rfl, rfl⟩⟩
  | cons i L ih =>
    rw [List.nodup_cons] at n0
    obtain ⟨B1, idx1, e1, h1, h2⟩ := row i blk1 n1 st (h i (by simp))
    obtain ⟨B, idx, e, h3, h4⟩ := ih n0.2 { st with B := B1, idx := idx1 } (fun i' hi' j hj => by
      have : i' ≠ i := by rintro rfl; exact n0.1 hi'
      show idx1 i' j = true
      rw [(h2 i' j (fun h => this h.1)).1]
      exact h i' (by simp [hi']) j hj)
    refine ⟨B, idx, ?_, ?_, ?_⟩
    · unfold loop
      rw [e1]
      exact e
    · rintro i' j' ⟨hi', hj'⟩
      rcases List.mem_cons.1 hi' with rfl | hi'
      · rw [(h4 i' j' (fun h => n0.1 h.1)).1]
        exact h1 i' j' ⟨rfl, hj'⟩
      · exact h3 i' j' ⟨hi', hj'⟩
    · intro i' j' hno
      obtain ⟨a1, a2⟩ := h4 i' j' (fun h => hno ⟨by simp [h.1], h.2⟩)
      obtain ⟨b1, b2⟩ := h2 i' j' (fun h => hno ⟨by simp [h.1], h.2⟩)
      rw [a1, a2]
      exact ⟨b1, b2⟩

end H2Pack.SPD
