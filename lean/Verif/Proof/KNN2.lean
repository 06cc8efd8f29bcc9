import Verif.Proof.KNN1
import Mathlib.Data.List.GetD

/-! # Neighbour search through the tree: the neighbours of the nodes of the search level -/

namespace H2Pack.AFN
open H2Pack.Part
open H2Pack.Utils (Box gap)

variable {K : Type} [Field K] [LinearOrder K] [IsStrictOrderedRing K] {A : Arr K} {n dim : Nat} {lo0 D : Nat → K} {cell ones : Nat → Nat → Nat} {s : Nat}

theorem Near.symm {u v : Nat} (h : Near dim cell u v) : Near dim cell v u := fun d hd => ⟨(h d hd).2, (h d hd).1⟩

theorem Near.refl (u : Nat) : Near dim cell u u := fun d _ => ⟨by omega, by omega⟩

/-- The node at a position of the search level. -/
def slv (A : Arr K) (i : Nat) : Nat := (slNodes A).getD i 0

theorem slv_mem {i : Nat} (hi : i < (slNodes A).length) : slv A i ∈ slNodes A := by
  unfold slv
  rw [List.getD_eq_getElem _ _ hi]
  exact List.getElem_mem hi

theorem slv_inj (T : ClusterTree A n) (hs : TopLeafLevel A s) {i j : Nat} (hi : i < (slNodes A).length) (hj : j < (slNodes A).length) (h : slv A i = slv A j) : i = j := by
  unfold slv at h
  rw [List.getD_eq_getElem _ _ hi, List.getD_eq_getElem _ _ hj] at h
  exact (List.Nodup.getElem_inj_iff (sl_nodup T hs)).1 h

theorem slv_ex {v : Nat} (hv : v ∈ slNodes A) : ∃ i < (slNodes A).length, slv A i = v := by
  obtain ⟨i, hi, e⟩ := List.getElem_of_mem hv
  exact ⟨i, hi, by unfold slv; rw [List.getD_eq_getElem _ _ hi]; exact e⟩

/-- After the pairs `Q`. -/
structure NInv (A : Arr K) (dim : Nat) (cell : Nat → Nat → Nat) (Q : List (Nat × Nat)) (f : Nat → List Nat) : Prop where
  pairs : ∀ q ∈ Q, q.1 < q.2 ∧ q.2 < (slNodes A).length
  nodup : ∀ i < (slNodes A).length, (f i).Nodup
  mem : ∀ i < (slNodes A).length, ∀ x, x ∈ f i ↔ x = slv A i ∨ ∃ j < (slNodes A).length, x = slv A j ∧ ((i, j) ∈ Q ∨ (j, i) ∈ Q) ∧ Near dim cell (slv A i) (slv A j)

theorem ninv_len (T : ClusterTree A n) (hs : TopLeafLevel A s) (G : Grid A dim lo0 D cell ones) {Q : List (Nat × Nat)} {f : Nat → List Nat} (h : NInv A dim cell Q f)
    {i j : Nat} (hi : i < (slNodes A).length) (hj : j < (slNodes A).length) (hij : i ≠ j) (hn : Near dim cell (slv A i) (slv A j)) (hq : (i, j) ∉ Q) (hq' : (j, i) ∉ Q) :
    slv A j ∉ f i ∧ (f i).length < 3 ^ dim := by
  have hnot : slv A j ∉ f i := by
    intro hm
    rcases (h.mem i hi _).1 hm with e | ⟨k, hk, e, hk', _⟩
    · exact hij (slv_inj T hs hi hj e.symm)
    · rw [← slv_inj T hs hj hk e] at hk'
      rcases hk' with h' | h'
      · exact hq h'
      · exact hq' h'
  refine ⟨hnot, ?_⟩
  have hi' := (mem_sl T hs _).1 (slv_mem hi)
  have hall : ∀ t ∈ slv A j :: f i, (t < A.nNode ∧ A.level t = s) ∧ Near dim cell (slv A i) t := by
    intro t ht
    rcases List.mem_cons.1 ht with rfl | ht
    · exact ⟨(mem_sl T hs _).1 (slv_mem hj), hn⟩
    · rcases (h.mem i hi t).1 ht with rfl | ⟨k, hk, rfl, _, h'⟩
      · exact ⟨hi', Near.refl _⟩
      · exact ⟨(mem_sl T hs _).1 (slv_mem hk), h'⟩
  have := count_near T G (v := slv A i) (slv A j :: f i) (List.nodup_cons.2 ⟨hnot, h.nodup i hi⟩)
    (fun t ht => ⟨(hall t ht).1.1, by rw [(hall t ht).1.2, hi'.2]⟩)
    (fun t ht hlt => by rw [(hall t ht).1.2, hi'.2] at hlt; omega)
    (fun t ht d hd => by
      rw [nearCell_same A cell (by rw [(hall t ht).1.2, hi'.2])]
      have := (hall t ht).2 d hd
      omega)
  rw [List.length_cons] at this
  omega

theorem nbrStep_spec (T : ClusterTree A n) (hs : TopLeafLevel A s) (G : Grid A dim lo0 D cell ones) (hw : WideBoxes dim A) {Q : List (Nat × Nat)} {f : Nat → List Nat}
    (h : NInv A dim cell Q f) {p : Nat × Nat} (h1 : p.1 < p.2) (h2 : p.2 < (slNodes A).length) (hq : p ∉ Q) :
    ∃ f', nbrStep A dim (3 ^ dim) (slNodes A) f p = some f' ∧ NInv A dim cell (p :: Q) f' := by
  obtain ⟨i, j⟩ := p
  dsimp only at h1 h2
  have hi : i < (slNodes A).length := by omega
  have mi := (mem_sl T hs _).1 (slv_mem hi)
  have mj := (mem_sl T hs _).1 (slv_mem h2)
  have hq' : (j, i) ∉ Q := fun hm => by have := (h.pairs _ hm).1; dsimp only at this; omega
  have hb := boxNbr_iff G hw mi.1 mj.1 (by rw [mi.2, mj.2])
  have hpairs : ∀ q ∈ (i, j) :: Q, q.1 < q.2 ∧ q.2 < (slNodes A).length := by
    intro q hq
    rcases List.mem_cons.1 hq with rfl | hq
    · exact ⟨h1, h2⟩
    · exact h.pairs q hq
  unfold nbrStep
  dsimp only
  change ∃ f', (if boxNbr dim (A.enbox (slv A i)) (A.enbox (slv A j)) = true then _ else _) = some f' ∧ _
  by_cases hn : Near dim cell (slv A i) (slv A j)
  · rw [if_pos (hb.2 hn)]
    obtain ⟨n1, l1⟩ := ninv_len T hs G h hi h2 (by omega) hn hq hq'
    obtain ⟨n2, l2⟩ := ninv_len T hs G h h2 hi (by omega) hn.symm hq' hq
    rw [if_pos ⟨l1, l2⟩]
    have hval : ∀ k, Function.update (Function.update f i (f i ++ [slv A j])) j (f j ++ [slv A i]) k =
        if k = j then f j ++ [slv A i] else if k = i then f i ++ [slv A j] else f k := by
      intro k
      simp only [Function.update_apply]
    refine ⟨_, rfl, hpairs, fun k hk => ?_, fun k hk x => ?_⟩
    · change (Function.update (Function.update f i (f i ++ [slv A j])) j (f j ++ [slv A i]) k).Nodup
      rw [hval]
      split
      · rw [List.nodup_append]
        exact ⟨h.nodup j h2, by simp, fun a ha b hb => by simp at hb; rintro rfl; exact n2 (hb ▸ ha)⟩
      · split
        · rw [List.nodup_append]
          exact ⟨h.nodup i hi, by simp, fun a ha b hb => by simp at hb; rintro rfl; exact n1 (hb ▸ ha)⟩
        · exact h.nodup k hk
    · change x ∈ Function.update (Function.update f i (f i ++ [slv A j])) j (f j ++ [slv A i]) k ↔ _
      rw [hval]
      have hmono : (x = slv A k ∨ ∃ j' < (slNodes A).length, x = slv A j' ∧ ((k, j') ∈ Q ∨ (j', k) ∈ Q) ∧ Near dim cell (slv A k) (slv A j')) →
          (x = slv A k ∨ ∃ j' < (slNodes A).length, x = slv A j' ∧ ((k, j') ∈ (i, j) :: Q ∨ (j', k) ∈ (i, j) :: Q) ∧ Near dim cell (slv A k) (slv A j')) := by
        rintro (e | ⟨j', a1, a2, a3, a4⟩)
        · exact Or.inl e
        · exact Or.inr ⟨j', a1, a2, a3.imp (List.mem_cons_of_mem _) (List.mem_cons_of_mem _), a4⟩
      have hback : ∀ j', ((k, j') ∈ (i, j) :: Q ∨ (j', k) ∈ (i, j) :: Q) → (k = i ∧ j' = j) ∨ (k = j ∧ j' = i) ∨ ((k, j') ∈ Q ∨ (j', k) ∈ Q) := by
        intro j' hm
        rcases hm with hm | hm
        · rcases List.mem_cons.1 hm with e | e
          · cases e; exact Or.inl ⟨rfl, rfl⟩
          · exact Or.inr (Or.inr (Or.inl e))
        · rcases List.mem_cons.1 hm with e | e
          · cases e; exact Or.inr (Or.inl ⟨rfl, rfl⟩)
          · exact Or.inr (Or.inr (Or.inr e))
      by_cases hkj : k = j
      · rw [if_pos hkj, List.mem_append, List.mem_singleton, h.mem j h2]
        subst hkj
        constructor
        · rintro (e | rfl)
          · exact hmono e
          · exact Or.inr ⟨i, hi, rfl, Or.inr (by simp), hn.symm⟩
        · rintro (e | ⟨j', a1, a2, a3, a4⟩)
          · exact Or.inl (Or.inl e)
          · rcases hback j' a3 with ⟨e, _⟩ | ⟨_, rfl⟩ | e
            · omega
            · exact Or.inr a2
            · exact Or.inl (Or.inr ⟨j', a1, a2, e, a4⟩)
      · rw [if_neg hkj]
        by_cases hki : k = i
        · rw [if_pos hki, List.mem_append, List.mem_singleton, h.mem i hi]
          subst hki
          constructor
          · rintro (e | rfl)
            · exact hmono e
            · exact Or.inr ⟨j, h2, rfl, Or.inl (by simp), hn⟩
          · rintro (e | ⟨j', a1, a2, a3, a4⟩)
            · exact Or.inl (Or.inl e)
            · rcases hback j' a3 with ⟨_, rfl⟩ | ⟨e, _⟩ | e
              · exact Or.inr a2
              · exact absurd e hkj
              · exact Or.inl (Or.inr ⟨j', a1, a2, e, a4⟩)
        · rw [if_neg hki, h.mem k hk]
          constructor
          · exact hmono
          · rintro (e | ⟨j', a1, a2, a3, a4⟩)
            · exact Or.inl e
            · rcases hback j' a3 with ⟨e, _⟩ | ⟨e, _⟩ | e
              · exact absurd e hki
              · exact absurd e hkj
              · exact Or.inr ⟨j', a1, a2, e, a4⟩
  · rw [if_neg fun h => hn (hb.1 h)]
    refine ⟨f, rfl, hpairs, h.nodup, fun k hk x => ?_⟩
    rw [h.mem k hk]
    constructor
    · rintro (e | ⟨j', a1, a2, a3, a4⟩)
      · exact Or.inl e
      · exact Or.inr ⟨j', a1, a2, a3.imp (List.mem_cons_of_mem _) (List.mem_cons_of_mem _), a4⟩
    · rintro (e | ⟨j', a1, a2, a3, a4⟩)
      · exact Or.inl e
      · refine Or.inr ⟨j', a1, a2, ?_, a4⟩
        rcases a3 with hm | hm
        · rcases List.mem_cons.1 hm with e | e
          · cases e; exact absurd a4 hn
          · exact Or.inl e
        · rcases List.mem_cons.1 hm with e | e
          · cases e; exact absurd a4.symm hn
          · exact Or.inr e

theorem mem_nbrPairs (s : Nat) (p : Nat × Nat) : p ∈ nbrPairs s ↔ p.1 < p.2 ∧ p.2 < s := by
  obtain ⟨i, j⟩ := p
  unfold nbrPairs
  simp only [List.mem_flatMap, List.mem_map, List.mem_range, List.mem_range'_1, Prod.mk.injEq]
  constructor
  · rintro ⟨a, ha, b, hb, rfl, rfl⟩; omega
  · intro h; exact ⟨i, by omega, j, by omega, rfl, rfl⟩

theorem nbrPairs_nodup (s : Nat) : (nbrPairs s).Nodup := by
  unfold nbrPairs
  rw [List.nodup_flatMap]
  refine ⟨fun i _ => List.Nodup.map (fun a b h => by simpa using h) List.nodup_range', ?_⟩
  refine List.nodup_range.imp fun {a b} hab => ?_
  intro x hx hy
  simp only [List.mem_map] at hx hy
  obtain ⟨_, _, rfl⟩ := hx
  obtain ⟨_, _, h⟩ := hy
  simp at h
  exact hab h.1.symm

theorem nbrs_spec (T : ClusterTree A n) (hs : TopLeafLevel A s) (G : Grid A dim lo0 D cell ones) (hw : WideBoxes dim A) :
    ∃ f, nbrs A dim (3 ^ dim) = some f ∧ ∀ i < (slNodes A).length, (f i).Nodup ∧ (f i).length ≤ 3 ^ dim ∧ ∀ x, x ∈ f i ↔ x ∈ slNodes A ∧ Near dim cell (slv A i) x := by
  have key : ∀ (Ps Q : List (Nat × Nat)) (f : Nat → List Nat), NInv A dim cell Q f → Ps.Nodup → (∀ p ∈ Ps, p.1 < p.2 ∧ p.2 < (slNodes A).length ∧ p ∉ Q) →
      ∃ f' Q', Ps.foldlM (nbrStep A dim (3 ^ dim) (slNodes A)) f = some f' ∧ NInv A dim cell Q' f' ∧ ∀ p, p ∈ Q' ↔ p ∈ Ps ∨ p ∈ Q := by
    intro Ps
    induction Ps with
    | nil => intro Q f h _ _; exact ⟨f, Q, rfl, h, fun p => by simp⟩
    | cons p Ps ih =>
      intro Q f h hnd hP
      obtain ⟨a1, a2, a3⟩ := hP p (by simp)
      obtain ⟨f1, e1, h1⟩ := nbrStep_spec T hs G hw h a1 a2 a3
      obtain ⟨hp, hnd'⟩ := List.nodup_cons.1 hnd
      obtain ⟨f', Q', e2, h2, h3⟩ := ih (p :: Q) f1 h1 hnd' (fun q hq => by
        obtain ⟨b1, b2, b3⟩ := hP q (List.mem_cons_of_mem _ hq)
        refine ⟨b1, b2, fun hm => ?_⟩
        rcases List.mem_cons.1 hm with rfl | hm
        · exact hp hq
        · exact b3 hm)
      refine ⟨f', Q', ?_, h2, fun q => ?_⟩
      · rw [List.foldlM_cons, e1]; exact e2
      · rw [h3]; simp only [List.mem_cons]; tauto
  obtain ⟨f, Q, e, h, hQ⟩ := key (nbrPairs (slNodes A).length) [] (fun i => [(slNodes A).getD i 0])
    ⟨by simp, fun i _ => by simp, fun i _ x => by simp [slv]⟩ (nbrPairs_nodup _) (fun p hp => by
      have := (mem_nbrPairs _ p).1 hp
      exact ⟨this.1, this.2, by simp⟩)
  have hQ' : ∀ p, p ∈ Q ↔ p.1 < p.2 ∧ p.2 < (slNodes A).length := fun p => by rw [hQ, mem_nbrPairs]; simp
  have hmem : ∀ i < (slNodes A).length, ∀ x, x ∈ f i ↔ x ∈ slNodes A ∧ Near dim cell (slv A i) x := by
    intro i hi x
    rw [h.mem i hi]
    constructor
    · rintro (rfl | ⟨j, hj, rfl, _, hn⟩)
      · exact ⟨slv_mem hi, Near.refl _⟩
      · exact ⟨slv_mem hj, hn⟩
    · rintro ⟨hx, hn⟩
      obtain ⟨j, hj, rfl⟩ := slv_ex hx
      by_cases hij : i = j
      · exact Or.inl (by rw [hij])
      · refine Or.inr ⟨j, hj, rfl, ?_, hn⟩
        rw [hQ', hQ']
        dsimp only
        omega
  refine ⟨f, e, fun i hi => ⟨h.nodup i hi, ?_, hmem i hi⟩⟩
  have hi' := (mem_sl T hs _).1 (slv_mem hi)
  have hall : ∀ t ∈ f i, (t < A.nNode ∧ A.level t = s) ∧ Near dim cell (slv A i) t := fun t ht => by
    obtain ⟨a, b⟩ := (hmem i hi t).1 ht
    exact ⟨(mem_sl T hs t).1 a, b⟩
  exact count_near T G (v := slv A i) (f i) (h.nodup i hi)
    (fun t ht => ⟨(hall t ht).1.1, by rw [(hall t ht).1.2, hi'.2]⟩)
    (fun t ht hlt => by rw [(hall t ht).1.2, hi'.2] at hlt; omega)
    (fun t ht d hd => by
      rw [nearCell_same A cell (by rw [(hall t ht).1.2, hi'.2])]
      have := (hall t ht).2 d hd
      omega)

end H2Pack.AFN
