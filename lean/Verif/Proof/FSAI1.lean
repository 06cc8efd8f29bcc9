import Verif.Spec.FSAI
import Verif.Proof.QSort

/-! # Quick partitioning and the exact nearest neighbours -/

namespace H2Pack.AFN
open H2Pack.CSR

variable {κ ν : Type} [LinearOrder κ]

theorem qpart_spec (n k : Int) : ∀ (d : Nat) (kv : KV κ ν) (l r : Int), (r - l).toNat ≤ d → 0 ≤ l → l ≤ r → r < n →
    ∃ kv', Returns (fun fuel => qpart n fuel kv l r k) kv' ∧ PermOn l r kv kv' ∧
      ∀ a b, l ≤ a → a < k → a ≤ b → b ≤ r → kv'.key a ≤ kv'.key b := by
  intro d
  induction d using Nat.strong_induction_on with
  | _ d ih =>
    intro kv l r hd hl hlr hrn
    have hm : l ≤ (l + r).tdiv 2 ∧ (l + r).tdiv 2 ≤ r := by
      rw [Int.tdiv_eq_ediv_of_nonneg (by omega)]; omega
    obtain ⟨kv1, i, j, ⟨F1, hF1⟩, hp1, hji, hil, hjr, hA, hB, hprog⟩ :=
      partLoop_spec n (kv.key ((l + r).tdiv 2)) l r hl hrn (r + 1 - l).toNat kv l r (le_refl _) (le_refl _) (le_refl _)
        (fun k h1 h2 => by omega) (fun k h1 h2 => by omega)
        (fun _ => ⟨⟨_, hm.1, hm.2, le_refl _⟩, ⟨_, hm.1, hm.2, le_refl _⟩⟩)
    obtain ⟨hpi, hpj⟩ := hprog ⟨_, hm.1, hm.2, rfl⟩
    have step1 : ∃ kv2, Returns (fun fuel => if j > l then qpart n fuel kv1 l j k else .ok kv1) kv2 ∧
        PermOn l j kv1 kv2 ∧ ∀ a b, l ≤ a → a < k → a ≤ b → b ≤ j → kv2.key a ≤ kv2.key b := by
      by_cases hjl : j > l
      · obtain ⟨kv3, h1, h2, h3⟩ := ih (j - l).toNat (by omega) kv1 l j (le_refl _) hl (by omega) (by omega)
        exact ⟨kv3, by simpa [hjl] using h1, h2, h3⟩
      · exact ⟨kv1, ⟨0, fun _ _ => by simp [hjl]⟩, PermOn.refl _ _ _, fun a b h1 h2 h3 h4 => by
          have : a = b := by omega
          subst this; exact le_refl _⟩
    obtain ⟨kv2, ⟨F2, hF2⟩, hp2, hs2⟩ := step1
    have step2 : ∃ kv3, Returns (fun fuel => if i < r ∧ i < k then qpart n fuel kv2 i r k else .ok kv2) kv3 ∧
        PermOn i r kv2 kv3 ∧ ∀ a b, i ≤ a → a < k → a ≤ b → b ≤ r → kv3.key a ≤ kv3.key b := by
      by_cases hir : i < r ∧ i < k
      · obtain ⟨kv2, h1, h2, h3⟩ := ih (r - i).toNat (by omega) kv2 i r (le_refl _) (by omega) (by omega) hrn
        exact ⟨kv2, by simpa [hir] using h1, h2, h3⟩
      · exact ⟨kv2, ⟨0, fun _ _ => by simp [hir]⟩, PermOn.refl _ _ _, fun a b h1 h2 h3 h4 => by
          have : a = b := by omega
          subst this; exact le_refl _⟩
    obtain ⟨kv3, ⟨F3, hF3⟩, hp3, hs3⟩ := step2
    refine ⟨kv3, ⟨F1 + F2 + F3 + 1, fun fuel hf => ?_⟩,
      (hp1.trans (hp2.mono (le_refl _) (by omega))).trans (hp3.mono (by omega) (le_refl _)), ?_⟩
    · obtain ⟨m, rfl⟩ : ∃ m, fuel = m + 1 := ⟨fuel - 1, by omega⟩
      show qpart n (m+1) kv l r k = _
      simp only [qpart]
      have e1 : partLoop n (kv.key ((l + r).tdiv 2)) m kv l r = _ := hF1 m (by omega)
      rw [if_neg (by omega), e1]
      simp only [Res.bind_ok]
      have e2 := hF2 m (by omega)
      have e3 := hF3 m (by omega)
      dsimp only at e2 e3
      by_cases hir : j > l
      · rw [if_pos hir] at e2 ⊢
        rw [e2]
        simp only [Res.bind_ok]
        exact e3
      · rw [if_neg hir] at e2 ⊢
        rw [Res.ok.injEq] at e2
        rw [e2]
        exact e3
    · have lo : ∀ q, l ≤ q → q < i → q ≤ r → kv3.key q ≤ kv.key ((l + r).tdiv 2) := by
        intro q h1 h2 h3
        rw [(hp3.key_outside (by omega)).1]
        by_cases hkj : q ≤ j
        · exact hp2.forall_key (P := fun x => x ≤ kv.key ((l + r).tdiv 2))
            (fun k h1 h2 => hA k h1 (by omega) (by omega)) q h1 hkj
        · rw [(hp2.key_outside (by omega)).1]; exact hA q h1 h2 h3
      have hi : ∀ q, j < q → q ≤ r → l ≤ q → kv.key ((l + r).tdiv 2) ≤ kv3.key q := by
        have base : ∀ q, j < q → q ≤ r → l ≤ q → kv.key ((l + r).tdiv 2) ≤ kv2.key q := by
          intro q h1 h2 h3
          rw [(hp2.key_outside (by omega)).1]; exact hB q h1 h2 h3
        intro q h1 h2 h3
        by_cases hki : i ≤ q
        · exact hp3.forall_key (P := fun x => kv.key ((l + r).tdiv 2) ≤ x)
            (fun k h1 h2 => base k (by omega) h2 (by omega)) q hki h2
        · rw [(hp3.key_outside (by omega)).1]; exact base q h1 h2 h3
      intro a b h1 h2 h3 h4
      by_cases hbj : b ≤ j
      · rw [(hp3.key_outside (k := a) (by omega)).1, (hp3.key_outside (k := b) (by omega)).1]
        exact hs2 a b h1 h2 h3 hbj
      · by_cases hai : i ≤ a
        · exact hs3 a b hai h2 h3 h4
        · exact le_trans (lo a h1 (by omega) (by omega)) (hi b (by omega) h4 (by omega))

section
variable {K : Type} [Field K] [LinearOrder K]

theorem pdist2_eq (dim : Nat) (coord : Nat → Nat → K) (i j : Nat) : pdist2 dim coord i j = dist2 dim coord i j := by
  unfold pdist2 dist2
  induction dim with
  | zero => simp
  | succ n ih => rw [List.range_succ, List.foldl_append, ih, Finset.sum_range_succ]; simp [sq]

theorem exactRow_spec (dim : Nat) (coord : Nat → Nat → K) (n m i : Nat) (hm : 1 ≤ m) (hi : i < n) :
    ∃ L, Returns (exactRow dim coord n m i) L ∧ Nearest (dist2 dim coord) m i L := by
  by_cases him : i < m
  · refine ⟨List.range (i + 1), ⟨0, fun _ _ => by simp [exactRow, him]⟩, ⟨⟨?_, List.nodup_range, ?_, ?_⟩, ?_, ?_⟩⟩
    · rw [List.range_succ]; simp
    · intro j hj; have := List.mem_range.1 hj; omega
    · rw [List.length_range]; omega
    · rw [List.length_range]; omega
    · intro j _ _ k hk hk'; exact absurd (List.mem_range.2 (by omega)) hk'
  · obtain ⟨kv, ⟨F, hF⟩, ⟨σ, hσ, hk, hv⟩, hs⟩ := qpart_spec (κ := K) (ν := Nat) n m (i - 1 : Int).toNat
      ⟨fun j => pdist2 dim coord i j.toNat, fun j => j.toNat⟩ 0 ((i : Int) - 1) (by omega) (le_refl _) (by omega) (by omega)
    have hmem : ∀ a : Int, 0 ≤ a → a ≤ i - 1 → 0 ≤ σ a ∧ σ a ≤ i - 1 := fun a h1 h2 => perm_mem hσ ⟨h1, h2⟩
    have hlast : m = (m - 1) + 1 := by omega
    have hL : ((List.range m).map (fun j : Nat => kv.val j)).set (m - 1) i = ((List.range (m - 1)).map (fun j : Nat => kv.val j)) ++ [i] := by
      conv_lhs => rw [hlast]
      rw [List.range_succ, List.map_append, List.set_append]
      simp
    have hval : ∀ a : Nat, a < i → (kv.val a : Int) = σ a := by
      intro a ha
      rw [hv]
      have := (hmem a (by omega) (by omega)).1
      show ((σ (a : Int)).toNat : Int) = σ a
      omega
    have hkey : ∀ a : Nat, a < i → kv.key a = dist2 dim coord i (kv.val a) := by
      intro a ha
      rw [hk, hv]
      exact pdist2_eq _ _ _ _
    have hin : ∀ j, j ∈ (List.range (m - 1)).map (fun j : Nat => kv.val j) ↔ ∃ a < m - 1, kv.val (a : Nat) = j := by
      intro j; simp
    refine ⟨((List.range (m - 1)).map (fun j : Nat => kv.val j)) ++ [i], ⟨F, fun fuel hf => ?_⟩, ⟨⟨by simp, ?_, ?_, ?_⟩, ?_, ?_⟩⟩
    · unfold exactRow
      rw [if_neg him, if_neg (by omega)]
      have e := hF fuel hf
      dsimp only at e
      rw [e]
      simp only [Res.bind_ok]
      rw [hL]
    · rw [List.nodup_append]
      refine ⟨?_, by simp, ?_⟩
      · rw [List.nodup_map_iff_inj_on List.nodup_range]
        intro a ha b hb e
        have ha := List.mem_range.1 ha
        have hb := List.mem_range.1 hb
        have : σ (a : Int) = σ (b : Int) := by rw [← hval a (by omega), ← hval b (by omega), e]
        have := σ.injective this
        omega
      · intro x hx y hy
        obtain ⟨a, ha, rfl⟩ := (hin x).1 hx
        have := hval a (by omega)
        have := hmem a (by omega) (by omega)
        simp at hy
        omega
    · intro j hj
      rcases List.mem_append.1 hj with h | h
      · obtain ⟨a, ha, rfl⟩ := (hin j).1 h
        have := hval a (by omega)
        have := hmem a (by omega) (by omega)
        omega
      · simp at h; omega
    · simp; omega
    · simp; omega
    · intro j hj hji q hq hq'
      have hj' : j ∈ (List.range (m - 1)).map (fun j : Nat => kv.val j) := by
        rcases List.mem_append.1 hj with h | h
        · exact h
        · simp at h; exact absurd h hji
      obtain ⟨a, ha, rfl⟩ := (hin j).1 hj'
      -- position of q
      have hb : 0 ≤ σ.symm (q : Int) ∧ σ.symm (q : Int) ≤ i - 1 := by
        by_contra hn
        have := hσ _ hn
        rw [Equiv.apply_symm_apply] at this
        omega
      obtain ⟨b, hb'⟩ : ∃ b : Nat, (b : Int) = σ.symm (q : Int) := ⟨_, Int.toNat_of_nonneg hb.1⟩
      have hqv : kv.val b = q := by
        have := hval b (by omega)
        rw [hb', Equiv.apply_symm_apply] at this
        rw [hb']
        exact_mod_cast this
      have hbm : m - 1 ≤ b := by
        by_contra hc
        exact hq' (List.mem_append_left _ ((hin q).2 ⟨b, by omega, hqv⟩))
      rw [← hqv, ← hkey a (by omega), ← hkey b (by omega)]
      exact hs a b (by omega) (by omega) (by omega) (by omega)

end

end H2Pack.AFN
