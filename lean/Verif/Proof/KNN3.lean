import Verif.Proof.KNN2

/-! # Neighbour search through the tree: candidates and selection -/

namespace H2Pack.AFN
open H2Pack.Part
open H2Pack.CSR
open H2Pack.Utils (Box gap)

theorem expand_spec (cap i : Nat) (L0 : List Nat) : ∀ (r k : Nat) (L : List Nat), r + k = i → L.Nodup → (∀ x ∈ L, x < i) → (∀ x ∈ L0, x ∈ L) → (∀ x < k, x ∈ L) →
    (∀ x ∈ L, x ∈ L0 ∨ x < k) → L.length + 2 ≤ cap →
    ∃ L', expand cap L0 r k L = .ok L' ∧ L'.Nodup ∧ (∀ x ∈ L', x < i) ∧ (∀ x ∈ L, x ∈ L') ∧ (L'.length + 1 = cap ∨ ∀ x < i, x ∈ L') := by
  intro r
  induction r with
  | zero =>
    intro k L hk h1 h2 h3 h4 h5 h6
    exact ⟨L, rfl, h1, h2, fun x hx => hx, Or.inr fun x hx => h4 x (by omega)⟩
  | succ r ih =>
    intro k L hk h1 h2 h3 h4 h5 h6
    rw [expand]
    by_cases hm : k ∈ L0
    · rw [if_pos hm]
      refine ih (k + 1) L (by omega) h1 h2 h3 (fun x hx => ?_) (fun x hx => ?_) h6
      · rcases Nat.lt_or_ge x k with h | h
        · exact h4 x h
        · have : x = k := by omega
          subst this; exact h3 x hm
      · rcases h5 x hx with h | h
        · exact Or.inl h
        · exact Or.inr (by omega)
    · have hkL : k ∉ L := fun h => by
        rcases h5 k h with h | h
        · exact hm h
        · omega
      have hnd : (L ++ [k]).Nodup := by
        rw [List.nodup_append]
        exact ⟨h1, by simp, fun a ha b hb => by simp at hb; rintro rfl; exact hkL (hb ▸ ha)⟩
      have hlt : ∀ x ∈ L ++ [k], x < i := by
        intro x hx
        rcases List.mem_append.1 hx with h | h
        · exact h2 x h
        · simp at h; omega
      rw [if_neg hm, if_pos (by omega)]
      by_cases hc : L.length + 2 = cap
      · rw [if_pos hc]
        exact ⟨_, rfl, hnd, hlt, fun x hx => List.mem_append_left _ hx, Or.inl (by simp; omega)⟩
      · rw [if_neg hc]
        obtain ⟨L', e, a1, a2, a3, a4⟩ := ih (k + 1) (L ++ [k]) (by omega) hnd hlt (fun x hx => List.mem_append_left _ (h3 x hx)) (fun x hx => by
            rcases Nat.lt_or_ge x k with h | h
            · exact List.mem_append_left _ (h4 x h)
            · have : x = k := by omega
              subst this; simp) (fun x hx => by
            rcases List.mem_append.1 hx with h | h
            · rcases h5 x h with h | h
              · exact Or.inl h
              · exact Or.inr (by omega)
            · simp at h; exact Or.inr (by omega)) (by simp; omega)
        exact ⟨L', e, a1, a2, fun x hx => a3 x (List.mem_append_left _ hx), a4⟩

theorem cand1_spec {m cap i : Nat} (hcap : m < cap) (C : List Nat) (hC : C.Nodup) :
    ∃ L, cand1 m cap i C = .ok L ∧ L.Nodup ∧ (∀ x ∈ L, x < i) ∧ (∀ x ∈ C, x < i → x ∈ L) ∧ (m ≤ i → m ≤ L.length) := by
  unfold cand1
  dsimp only
  set c := C.filter (fun k => decide (k < i)) with hc
  have hnd : c.Nodup := hC.filter _
  have hlt : ∀ x ∈ c, x < i := fun x hx => by have := (List.mem_filter.1 hx).2; simpa using this
  have hin : ∀ x ∈ C, x < i → x ∈ c := fun x hx h => List.mem_filter.2 ⟨hx, by simpa using h⟩
  by_cases h : c.length < m ∧ m ≤ i
  · rw [if_pos h]
    obtain ⟨L, e, a1, a2, a3, a4⟩ := expand_spec cap i c i 0 c (by omega) hnd hlt (fun x hx => hx) (fun x hx => by omega) (fun x hx => Or.inl hx) (by omega)
    refine ⟨L, e, a1, a2, fun x hx hxi => a3 x (hin x hx hxi), fun _ => ?_⟩
    rcases a4 with a4 | a4
    · omega
    · have := (List.subperm_of_subset List.nodup_range (fun x hx => a4 x (List.mem_range.1 hx))).length_le
      rw [List.length_range] at this
      omega
  · rw [if_neg h]
    exact ⟨c, rfl, hnd, hlt, hin, fun hm => by omega⟩

section
variable {K : Type} [Field K] [LinearOrder K]

theorem selRow_spec (dim : Nat) (coord : Nat → Nat → K) (m i : Nat) (hm : 1 ≤ m) (L : List Nat) (hnd : L.Nodup) (hlt : ∀ x ∈ L, x < i) (hlen : m ≤ i → m ≤ L.length) :
    ∃ S, Returns (selRow dim coord m i L) S ∧ Lower m i S ∧ S.length = min (i + 1) m ∧ ∀ j ∈ S, j ≠ i → ∀ k < i, k ∉ S → k ∈ L → dist2 dim coord i j ≤ dist2 dim coord i k := by
  by_cases him : i < m
  · refine ⟨List.range (i + 1), ⟨0, fun _ _ => by simp [selRow, him]⟩, ⟨?_, List.nodup_range, ?_, ?_⟩, ?_, ?_⟩
    · rw [List.range_succ]; simp
    · intro j hj; have := List.mem_range.1 hj; omega
    · rw [List.length_range]; omega
    · rw [List.length_range]; omega
    · intro j _ _ k hk hk' _; exact absurd (List.mem_range.2 (by omega)) hk'
  · have hl := hlen (by omega)
    have hmin : min m L.length = m := by omega
    obtain ⟨kv, ⟨F, hF⟩, ⟨σ, hσ, hk, hv⟩, hs⟩ := qpart_spec (κ := K) (ν := Nat) (L.length : Int) (m : Int) ((L.length : Int) - 1 - 0).toNat
      ⟨fun a => pdist2 dim coord i (L.getD a.toNat 0), fun a => L.getD a.toNat 0⟩ 0 ((L.length : Int) - 1) (by omega) (le_refl _) (by omega) (by omega)
    have hmem : ∀ a : Int, 0 ≤ a → a ≤ (L.length : Int) - 1 → 0 ≤ σ a ∧ σ a ≤ (L.length : Int) - 1 := fun a h1 h2 => perm_mem hσ ⟨h1, h2⟩
    have hlast : m = (m - 1) + 1 := by omega
    have hL : ((List.range m).map (fun j : Nat => kv.val j)).set (m - 1) i = ((List.range (m - 1)).map (fun j : Nat => kv.val j)) ++ [i] := by
      conv_lhs => rw [hlast]
      rw [List.range_succ, List.map_append, List.set_append]
      simp
    have hval : ∀ a : Nat, a < L.length → ∃ h : (σ a).toNat < L.length, kv.val a = L[(σ a).toNat] := by
      intro a ha
      have := hmem a (by omega) (by omega)
      have hlt : (σ a).toNat < L.length := by omega
      refine ⟨hlt, ?_⟩
      rw [hv]
      show L.getD (σ (a : Int)).toNat 0 = _
      rw [List.getD_eq_getElem _ _ hlt]
    have hvm : ∀ a : Nat, a < L.length → kv.val a ∈ L := by
      intro a ha
      obtain ⟨h, e⟩ := hval a ha
      rw [e]; exact List.getElem_mem h
    have hinj : ∀ a b : Nat, a < L.length → b < L.length → kv.val a = kv.val b → a = b := by
      intro a b ha hb e
      obtain ⟨h1, e1⟩ := hval a ha
      obtain ⟨h2, e2⟩ := hval b hb
      rw [e1, e2] at e
      have e3 := (List.Nodup.getElem_inj_iff hnd).1 e
      have g1 := hmem a (by omega) (by omega)
      have g2 := hmem b (by omega) (by omega)
      have : σ (a : Int) = σ (b : Int) := by omega
      have := σ.injective this
      omega
    have hkey : ∀ a : Nat, a < L.length → kv.key a = dist2 dim coord i (kv.val a) := by
      intro a ha
      rw [hk, hv]
      exact pdist2_eq _ _ _ _
    have hin : ∀ j, j ∈ (List.range (m - 1)).map (fun j : Nat => kv.val j) ↔ ∃ a < m - 1, kv.val (a : Nat) = j := by
      intro j; simp
    refine ⟨((List.range (m - 1)).map (fun j : Nat => kv.val j)) ++ [i], ⟨F, fun fuel hf => ?_⟩, ⟨by simp, ?_, ?_, ?_⟩, ?_, ?_⟩
    · unfold selRow
      rw [if_neg him, if_neg (by omega)]
      have e := hF fuel hf
      dsimp only at e
      rw [hmin, e]
      simp only [Res.bind_ok]
      rw [hL]
    · rw [List.nodup_append]
      refine ⟨?_, by simp, ?_⟩
      · rw [List.nodup_map_iff_inj_on List.nodup_range]
        intro a ha b hb e
        have ha := List.mem_range.1 ha
        have hb := List.mem_range.1 hb
        exact hinj a b (by omega) (by omega) e
      · intro x hx y hy
        obtain ⟨a, ha, rfl⟩ := (hin x).1 hx
        have := hlt _ (hvm a (by omega))
        simp at hy
        omega
    · intro j hj
      rcases List.mem_append.1 hj with h | h
      · obtain ⟨a, ha, rfl⟩ := (hin j).1 h
        have := hlt _ (hvm a (by omega))
        omega
      · simp at h; omega
    · simp; omega
    · simp; omega
    · intro j hj hji q hq hq' hqL
      have hj' : j ∈ (List.range (m - 1)).map (fun j : Nat => kv.val j) := by
        rcases List.mem_append.1 hj with h | h
        · exact h
        · simp at h; exact absurd h hji
      obtain ⟨a, ha, rfl⟩ := (hin j).1 hj'
      -- position of q
      obtain ⟨c, hc, hcq⟩ := List.getElem_of_mem hqL
      have hb : 0 ≤ σ.symm (c : Int) ∧ σ.symm (c : Int) ≤ (L.length : Int) - 1 := by
        by_contra hn
        have := hσ _ hn
        rw [Equiv.apply_symm_apply] at this
        omega
      obtain ⟨b, hb'⟩ : ∃ b : Nat, (b : Int) = σ.symm (c : Int) := ⟨_, Int.toNat_of_nonneg hb.1⟩
      have hqv : kv.val b = q := by
        obtain ⟨h1, e1⟩ := hval b (by omega)
        rw [e1, ← hcq]
        congr 1
        rw [hb', Equiv.apply_symm_apply]
        simp
      have hbm : m - 1 ≤ b := by
        by_contra hc
        exact hq' (List.mem_append_left _ ((hin q).2 ⟨b, by omega, hqv⟩))
      rw [← hqv, ← hkey a (by omega), ← hkey b (by omega)]
      exact hs a b (by omega) (by omega) (by omega) (by omega)

end

section
variable {K : Type} [Field K] [LinearOrder K] {n0 : Nat} {s : Nat}

/-- The arguments fit together. -/
structure KnnOK (I : KnnIn K) : Prop where
  tree : ClusterTree I.arr I.n0
  ciLt : ∀ k < I.n0, I.ci k < I.n0
  ciInj : ∀ k < I.n0, ∀ l < I.n0, I.ci k = I.ci l → k = l
  ciSurj : ∀ x < I.n0, ∃ k < I.n0, I.ci k = x
  c0Lt : ∀ i < I.n, I.c0 i < I.n0
  c0Inj : ∀ i < I.n, ∀ j < I.n, I.c0 i = I.c0 j → i = j

theorem h2idx_spec {I : KnnIn K} (h : KnnOK I) (k i : Nat) : h2idx I k = some i ↔ i < I.n ∧ I.c0 i = I.ci k := idx0_spec I h.c0Inj _ _

theorem h2idx_inj {I : KnnIn K} (h : KnnOK I) {k l i : Nat} (hk : k < I.n0) (hl : l < I.n0) (e1 : h2idx I k = some i) (e2 : h2idx I l = some i) : k = l := by
  rw [h2idx_spec h] at e1 e2
  exact h.ciInj k hk l hl (e1.2.symm.trans e2.2)

theorem h2idx_ex {I : KnnIn K} (h : KnnOK I) {i : Nat} (hi : i < I.n) : ∃ p < I.n0, h2idx I p = some i := by
  obtain ⟨p, hp, e⟩ := h.ciSurj _ (h.c0Lt i hi)
  exact ⟨p, hp, (h2idx_spec h p i).2 ⟨hi, e.symm⟩⟩

theorem mem_cand0 (I : KnnIn K) (T : ClusterTree I.arr I.n0) (nb : List Nat) (hnb : ∀ v ∈ nb, v < I.arr.nNode) (i : Nat) :
    i ∈ cand0 I nb ↔ ∃ v ∈ nb, ∃ p, I.arr.ptS v ≤ p ∧ p ≤ I.arr.ptE v ∧ h2idx I p = some i := by
  unfold cand0
  simp only [List.mem_flatMap, List.mem_filterMap, List.mem_range'_1]
  refine ⟨?_, ?_⟩
  · rintro ⟨v, hv, p, hp, e⟩
    have := T.clusterLe v (hnb v hv)
    unfold nodeNpt at hp
    exact ⟨v, hv, p, hp.1, by omega, e⟩
  · rintro ⟨v, hv, p, h1, h2, e⟩
    unfold nodeNpt
    exact ⟨v, hv, p, ⟨h1, by omega⟩, e⟩

theorem cand0_nodup {I : KnnIn K} (h : KnnOK I) (hs : TopLeafLevel I.arr s) (nb : List Nat) (hnd : nb.Nodup) (hnb : ∀ v ∈ nb, v ∈ slNodes I.arr) : (cand0 I nb).Nodup := by
  have T := h.tree
  have hin : ∀ v ∈ nb, ∀ p, p ∈ List.range' (I.arr.ptS v) (nodeNpt I.arr v) → p < I.n0 ∧ I.arr.ptS v ≤ p ∧ p ≤ I.arr.ptE v := by
    intro v hv p hp
    have hv' := (mem_sl T hs v).1 (hnb v hv)
    have h1 := T.clusterLe v hv'.1
    have h2 := T.clusterLt v hv'.1
    rw [List.mem_range'_1] at hp
    unfold nodeNpt at hp
    omega
  unfold cand0
  rw [List.nodup_flatMap]
  refine ⟨fun v hv => ?_, ?_⟩
  · rw [List.Nodup, List.pairwise_filterMap]
    refine List.Pairwise.imp_of_mem (R := fun a b => a ≠ b) (fun {a b} ha hb hab x hx y hy hxy => ?_) List.nodup_range'
    subst hxy
    exact hab (h2idx_inj h (hin v hv a ha).1 (hin v hv b hb).1 hx hy)
  · refine hnd.imp_of_mem fun {a b} ha hb hab x hx hy => ?_
    rw [List.mem_filterMap] at hx hy
    obtain ⟨p, hp, ep⟩ := hx
    obtain ⟨q, hq, eq⟩ := hy
    have hp' := hin a ha p hp
    have hq' := hin b hb q hq
    have := h2idx_inj h hp'.1 hq'.1 ep eq
    subst this
    have ha' := (mem_sl T hs a).1 (hnb a ha)
    have hb' := (mem_sl T hs b).1 (hnb b hb)
    exact hab (level_unique T ha'.1 hb'.1 (by rw [ha'.2, hb'.2]) hp'.2 hq'.2)

theorem cand0_len (I : KnnIn K) (nb : List Nat) (hnb : ∀ v ∈ nb, v ∈ slNodes I.arr) : (cand0 I nb).length ≤ nb.length * slMax I.arr := by
  unfold cand0
  induction nb with
  | nil => simp
  | cons v nb ih =>
    rw [List.flatMap_cons, List.length_append, List.length_cons]
    have h1 := ih fun u hu => hnb u (List.mem_cons_of_mem _ hu)
    have h2 := List.length_filterMap_le (h2idx I) (List.range' (I.arr.ptS v) (nodeNpt I.arr v))
    rw [List.length_range'] at h2
    have h3 := slMax_ge (hnb v (by simp))
    have : (nb.length + 1) * slMax I.arr = nb.length * slMax I.arr + slMax I.arr := by ring
    omega

end

end H2Pack.AFN
