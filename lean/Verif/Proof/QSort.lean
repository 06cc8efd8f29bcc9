import Verif.Model.CSR
import Mathlib.Logic.Equiv.Basic
import Mathlib.GroupTheory.Perm.Basic
import Mathlib.Tactic.Linarith

/-! # Correctness of the quick sort -/

namespace H2Pack.CSR

variable {κ ν : Type} [LinearOrder κ]

theorem scanUp_spec (n : Int) (key : Int → κ) (mid : κ) : ∀ (d : Nat) (i k : Int), 0 ≤ i → i ≤ k →
    k < n → ¬ key k < mid → (k - i).toNat ≤ d →
    ∃ i', i ≤ i' ∧ i' ≤ k ∧ (∀ x, i ≤ x → x < i' → key x < mid) ∧ ¬ key i' < mid ∧
      ∀ fuel ≥ d + 1, scanUp n key mid fuel i = .ok i' := by
  intro d
  induction d with
  | zero =>
    intro i k h0 hik hkn hk hd
    have : i = k := by omega
    subst this
    refine ⟨i, le_refl _, le_refl _, fun x h1 h2 => by omega, hk, fun fuel hf => ?_⟩
    obtain ⟨m, rfl⟩ : ∃ m, fuel = m + 1 := ⟨fuel - 1, by omega⟩
    rw [scanUp, if_neg (by omega), if_neg hk]
  | succ d ih =>
    intro i k h0 hik hkn hk hd
    by_cases hi : key i < mid
    · have hne : i ≠ k := by rintro rfl; exact hk hi
      obtain ⟨i', h1, h2, h3, h4, h5⟩ := ih (i+1) k (by omega) (by omega) hkn hk (by omega)
      refine ⟨i', by omega, h2, ?_, h4, fun fuel hf => ?_⟩
      · intro x hx1 hx2
        by_cases hxi : x = i
        · subst hxi; exact hi
        · exact h3 x (by omega) hx2
      · obtain ⟨m, rfl⟩ : ∃ m, fuel = m + 1 := ⟨fuel - 1, by omega⟩
        rw [scanUp, if_neg (by omega), if_pos hi, h5 m (by omega)]
    · refine ⟨i, le_refl _, hik, fun x h1 h2 => by omega, hi, fun fuel hf => ?_⟩
      obtain ⟨m, rfl⟩ : ∃ m, fuel = m + 1 := ⟨fuel - 1, by omega⟩
      rw [scanUp, if_neg (by omega), if_neg hi]

theorem scanDown_spec (n : Int) (key : Int → κ) (mid : κ) : ∀ (d : Nat) (j k : Int), 0 ≤ k → k ≤ j →
    j < n → ¬ key k > mid → (j - k).toNat ≤ d →
    ∃ j', j' ≤ j ∧ k ≤ j' ∧ (∀ x, j' < x → x ≤ j → key x > mid) ∧ ¬ key j' > mid ∧
      ∀ fuel ≥ d + 1, scanDown n key mid fuel j = .ok j' := by
  intro d
  induction d with
  | zero =>
    intro j k h0 hik hkn hk hd
    have : j = k := by omega
    subst this
    refine ⟨j, le_refl _, le_refl _, fun x h1 h2 => by omega, hk, fun fuel hf => ?_⟩
    obtain ⟨m, rfl⟩ : ∃ m, fuel = m + 1 := ⟨fuel - 1, by omega⟩
    rw [scanDown, if_neg (by omega), if_neg hk]
  | succ d ih =>
    intro j k h0 hik hkn hk hd
    by_cases hi : key j > mid
    · have hne : j ≠ k := by rintro rfl; exact hk hi
      obtain ⟨j', h1, h2, h3, h4, h5⟩ := ih (j-1) k (by omega) (by omega) (by omega) hk (by omega)
      refine ⟨j', by omega, h2, ?_, h4, fun fuel hf => ?_⟩
      · intro x hx1 hx2
        by_cases hxi : x = j
        · subst hxi; exact hi
        · exact h3 x hx1 (by omega)
      · obtain ⟨m, rfl⟩ : ∃ m, fuel = m + 1 := ⟨fuel - 1, by omega⟩
        rw [scanDown, if_neg (by omega), if_pos hi, h5 m (by omega)]
    · refine ⟨j, le_refl _, hik, fun x h1 h2 => by omega, hi, fun fuel hf => ?_⟩
      obtain ⟨m, rfl⟩ : ∃ m, fuel = m + 1 := ⟨fuel - 1, by omega⟩
      rw [scanDown, if_neg (by omega), if_neg hi]

theorem swap_key (kv : KV κ ν) (i j k : Int) : (kv.swap i j).key k = kv.key (Equiv.swap i j k) := by
  simp only [KV.swap, Function.update_apply, Equiv.swap_apply_def]
  by_cases h1 : k = j
  · subst h1
    by_cases h2 : k = i
    · subst h2; simp
    · simp [h2]
  · by_cases h2 : k = i
    · subst h2; simp [h1]
    · simp [h1, h2]

theorem swap_val (kv : KV κ ν) (i j k : Int) : (kv.swap i j).val k = kv.val (Equiv.swap i j k) := by
  simp only [KV.swap, Function.update_apply, Equiv.swap_apply_def]
  by_cases h1 : k = j
  · subst h1
    by_cases h2 : k = i
    · subst h2; simp
    · simp [h2]
  · by_cases h2 : k = i
    · subst h2; simp [h1]
    · simp [h1, h2]

/-- `kv'` is `kv` with the positions `l..r` permuted. -/
def PermOn (l r : Int) (kv kv' : KV κ ν) : Prop :=
  ∃ σ : Equiv.Perm Int, (∀ k, ¬ (l ≤ k ∧ k ≤ r) → σ k = k) ∧
    (∀ k, kv'.key k = kv.key (σ k)) ∧ (∀ k, kv'.val k = kv.val (σ k))

theorem PermOn.refl (l r : Int) (kv : KV κ ν) : PermOn l r kv kv := ⟨1, by simp, by simp, by simp⟩

theorem PermOn.trans {l r : Int} {a b c : KV κ ν} (h1 : PermOn l r a b) (h2 : PermOn l r b c) : PermOn l r a c := by
  obtain ⟨s, s1, s2, s3⟩ := h1
  obtain ⟨t, t1, t2, t3⟩ := h2
  refine ⟨s * t, ?_, ?_, ?_⟩
  · intro k hk; rw [Equiv.Perm.mul_apply, t1 k hk, s1 k hk]
  · intro k; rw [Equiv.Perm.mul_apply, t2, s2]
  · intro k; rw [Equiv.Perm.mul_apply, t3, s3]

theorem PermOn.mono {l r l' r' : Int} {a b : KV κ ν} (h : PermOn l r a b) (h1 : l' ≤ l) (h2 : r ≤ r') :
    PermOn l' r' a b := by
  obtain ⟨s, s1, s2, s3⟩ := h
  exact ⟨s, fun k hk => s1 k (by omega), s2, s3⟩

theorem PermOn.swap {l r : Int} (kv : KV κ ν) {i j : Int} (h1 : l ≤ i) (h2 : i ≤ r) (h3 : l ≤ j) (h4 : j ≤ r) :
    PermOn l r kv (kv.swap i j) :=
  ⟨Equiv.swap i j, fun k hk => Equiv.swap_apply_of_ne_of_ne (by omega) (by omega), swap_key kv i j, swap_val kv i j⟩

/-- the permutation maps the range to itself -/
theorem perm_mem {l r : Int} {σ : Equiv.Perm Int} (h : ∀ k, ¬ (l ≤ k ∧ k ≤ r) → σ k = k) {k : Int}
    (hk : l ≤ k ∧ k ≤ r) : l ≤ σ k ∧ σ k ≤ r := by
  by_contra hn
  have := h (σ k) hn
  have := σ.injective this
  rw [this] at hn
  exact hn hk

theorem PermOn.key_outside {l r : Int} {a b : KV κ ν} (h : PermOn l r a b) {k : Int} (hk : ¬ (l ≤ k ∧ k ≤ r)) :
    b.key k = a.key k ∧ b.val k = a.val k := by
  obtain ⟨s, s1, s2, s3⟩ := h
  rw [s2, s3, s1 k hk]; exact ⟨rfl, rfl⟩

theorem PermOn.forall_key {l r : Int} {a b : KV κ ν} (h : PermOn l r a b) {P : κ → Prop}
    (hP : ∀ k, l ≤ k → k ≤ r → P (a.key k)) : ∀ k, l ≤ k → k ≤ r → P (b.key k) := by
  obtain ⟨s, s1, s2, s3⟩ := h
  intro k h1 h2
  rw [s2]
  have := perm_mem s1 ⟨h1, h2⟩
  exact hP _ this.1 this.2

theorem partLoop_spec (n : Int) (mid : κ) (l r : Int) (hl : 0 ≤ l) (hr : r < n) : ∀ (d : Nat) (kv : KV κ ν) (i j : Int),
    (j + 1 - i).toNat ≤ d → l ≤ i → j ≤ r →
    (∀ k, l ≤ k → k < i → kv.key k ≤ mid) → (∀ k, j < k → k ≤ r → mid ≤ kv.key k) →
    (i ≤ j → (∃ k, i ≤ k ∧ k ≤ r ∧ mid ≤ kv.key k) ∧ (∃ k, l ≤ k ∧ k ≤ j ∧ kv.key k ≤ mid)) →
    ∃ kv' i' j', Returns (fun fuel => partLoop n mid fuel kv i j) (kv', i', j') ∧
      PermOn l r kv kv' ∧ j' < i' ∧ i ≤ i' ∧ j' ≤ j ∧
      (∀ k, l ≤ k → k < i' → k ≤ r → kv'.key k ≤ mid) ∧
      (∀ k, j' < k → k ≤ r → l ≤ k → mid ≤ kv'.key k) ∧
      ((∃ m, i ≤ m ∧ m ≤ j ∧ kv.key m = mid) → i < i' ∧ j' < j) := by
  intro d
  induction d with
  | zero =>
    intro kv i j hd hli hjr hA hB _
    refine ⟨kv, i, j, ⟨1, fun fuel hf => ?_⟩, PermOn.refl _ _ _, by omega, le_refl _, le_refl _,
      fun k h1 h2 _ => hA k h1 h2, fun k h1 h2 _ => hB k h1 h2, ?_⟩
    · obtain ⟨m, rfl⟩ : ∃ m, fuel = m + 1 := ⟨fuel - 1, by omega⟩
      show partLoop n mid (m+1) kv i j = _
      rw [partLoop, if_neg (by omega)]
    · rintro ⟨m, h1, h2, _⟩; exfalso; omega
  | succ d ih =>
    intro kv i j hd hli hjr hA hB hS
    by_cases hij : i ≤ j
    · obtain ⟨⟨ku, hu1, hu2, hu3⟩, ⟨kd, hd1, hd2, hd3⟩⟩ := hS hij
      obtain ⟨i', a1, a2, a3, a4, a5⟩ := scanUp_spec n kv.key mid (ku - i).toNat i ku (by omega) hu1 (by omega)
        (not_lt.2 hu3) (le_refl _)
      obtain ⟨j', b1, b2, b3, b4, b5⟩ := scanDown_spec n kv.key mid (j - kd).toNat j kd (by omega) hd2 (by omega)
        (not_lt.2 hd3) (le_refl _)
      have hmid : ∀ m, i ≤ m → m ≤ j → kv.key m = mid → i' ≤ m ∧ m ≤ j' := by
        intro m h1 h2 h3
        constructor
        · by_contra hn; exact absurd h3 (ne_of_lt (a3 m h1 (by omega)))
        · by_contra hn; exact absurd h3 (ne_of_gt (b3 m (by omega) h2))
      by_cases hij' : i' ≤ j'
      · -- swap and continue
        have hi'k : kv.key i' ≥ mid := not_lt.1 a4
        have hj'k : kv.key j' ≤ mid := not_lt.1 b4
        have ki : (kv.swap i' j').key i' = kv.key j' := by rw [swap_key, Equiv.swap_apply_left]
        have kj : (kv.swap i' j').key j' = kv.key i' := by rw [swap_key, Equiv.swap_apply_right]
        have ko : ∀ k, k ≠ i' → k ≠ j' → (kv.swap i' j').key k = kv.key k := by
          intro k h1 h2; rw [swap_key, Equiv.swap_apply_of_ne_of_ne h1 h2]
        have hA' : ∀ k, l ≤ k → k < i' + 1 → (kv.swap i' j').key k ≤ mid := by
          intro k h1 h2
          by_cases hki : k = i'
          · subst hki; rw [ki]; exact hj'k
          · rw [ko k hki (by omega)]
            by_cases hlt : k < i
            · exact hA k h1 hlt
            · exact le_of_lt (a3 k (by omega) (by omega))
        have hB' : ∀ k, j' - 1 < k → k ≤ r → mid ≤ (kv.swap i' j').key k := by
          intro k h1 h2
          by_cases hkj : k = j'
          · subst hkj; rw [kj]; exact hi'k
          · rw [ko k (by omega) hkj]
            by_cases hlt : j < k
            · exact hB k hlt h2
            · exact le_of_lt (b3 k (by omega) (by omega))
        obtain ⟨kv', i2, j2, hret, hperm, c1, c2, c3, c4, c5, _⟩ := ih (kv.swap i' j') (i'+1) (j'-1) (by omega)
          (by omega) (by omega) hA' hB' (fun h => ⟨⟨j', by omega, by omega, hB' j' (by omega) (by omega)⟩,
            ⟨i', by omega, by omega, hA' i' (by omega) (by omega)⟩⟩)
        obtain ⟨F, hF⟩ := hret
        refine ⟨kv', i2, j2, ⟨F + (ku - i).toNat + (j - kd).toNat + 2, fun fuel hf => ?_⟩,
          (PermOn.swap kv (by omega) (by omega) (by omega) (by omega)).trans hperm, c1, by omega, by omega, c4, c5,
          fun _ => ⟨by omega, by omega⟩⟩
        obtain ⟨m, rfl⟩ : ∃ m, fuel = m + 1 := ⟨fuel - 1, by omega⟩
        show partLoop n mid (m+1) kv i j = _
        rw [partLoop, if_pos hij, a5 m (by omega)]
        simp only [Res.bind_ok]
        rw [b5 m (by omega)]
        simp only [Res.bind_ok, hij', if_true]
        exact hF m (by omega)
      · -- crossed: the loop exits at the next test
        refine ⟨kv, i', j', ⟨(ku - i).toNat + (j - kd).toNat + 3, fun fuel hf => ?_⟩, PermOn.refl _ _ _, by omega,
          a1, b1, ?_, ?_, ?_⟩
        · obtain ⟨m, rfl⟩ : ∃ m, fuel = m + 2 := ⟨fuel - 2, by omega⟩
          show partLoop n mid (m+1+1) kv i j = _
          rw [partLoop, if_pos hij, a5 (m+1) (by omega)]
          simp only [Res.bind_ok]
          rw [b5 (m+1) (by omega)]
          simp only [Res.bind_ok, hij', if_false]
          rw [partLoop, if_neg hij']
        · intro k h1 h2 _
          by_cases hlt : k < i
          · exact hA k h1 hlt
          · exact le_of_lt (a3 k (by omega) h2)
        · intro k h1 h2 _
          by_cases hlt : j < k
          · exact hB k hlt h2
          · exact le_of_lt (b3 k h1 (by omega))
        · rintro ⟨m, h1, h2, h3⟩
          have := hmid m h1 h2 h3
          omega
    · refine ⟨kv, i, j, ⟨1, fun fuel hf => ?_⟩, PermOn.refl _ _ _, by omega, le_refl _, le_refl _,
        fun k h1 h2 _ => hA k h1 h2, fun k h1 h2 _ => hB k h1 h2, ?_⟩
      · obtain ⟨m, rfl⟩ : ∃ m, fuel = m + 1 := ⟨fuel - 1, by omega⟩
        show partLoop n mid (m+1) kv i j = _
        rw [partLoop, if_neg (by omega)]
      · rintro ⟨m, h1, h2, _⟩; omega

/-- sortedness of a range -/
def SortedOn (l r : Int) (kv : KV κ ν) : Prop := ∀ a b, l ≤ a → a ≤ b → b ≤ r → kv.key a ≤ kv.key b

theorem qsort_spec (n : Int) : ∀ (d : Nat) (kv : KV κ ν) (l r : Int), (r - l).toNat ≤ d → 0 ≤ l → l ≤ r → r < n →
    ∃ kv', Returns (fun fuel => qsort n fuel kv l r) kv' ∧ PermOn l r kv kv' ∧ SortedOn l r kv' := by
  intro d
  induction d using Nat.strong_induction_on with
  | _ d ih =>
    intro kv l r hd hl hlr hrn
    have hm : l ≤ (l + r).tdiv 2 ∧ (l + r).tdiv 2 ≤ r := by
      rw [Int.tdiv_eq_ediv_of_nonneg (by omega)]; omega
    obtain ⟨kv1, i, j, ⟨F1, hF1⟩, hp1, hji, hil, hjr, hA, hB, hprog⟩ :=
      partLoop_spec n (kv.key ((l + r).tdiv 2)) l r hl hrn (r + 1 - l).toNat kv l r (le_refl _) (le_refl _) (le_refl _)
        (fun k h1 h2 => by omega) (fun k h1 h2 => by omega)
        (fun _ => ⟨⟨_, hm.1, hm.2, le_refl _⟩, ⟨_, hm.1, hm.2, le_refl _⟩⟩)
    obtain ⟨hpi, hpj⟩ := hprog ⟨_, hm.1, hm.2, rfl⟩
    -- first recursive call (or nothing)
    have step1 : ∃ kv2, Returns (fun fuel => if i < r then qsort n fuel kv1 i r else .ok kv1) kv2 ∧
        PermOn i r kv1 kv2 ∧ SortedOn i r kv2 := by
      by_cases hir : i < r
      · obtain ⟨kv2, h1, h2, h3⟩ := ih (r - i).toNat (by omega) kv1 i r (le_refl _) (by omega) (by omega) hrn
        exact ⟨kv2, by simpa [hir] using h1, h2, h3⟩
      · exact ⟨kv1, ⟨0, fun _ _ => by simp [hir]⟩, PermOn.refl _ _ _, fun a b h1 h2 h3 => by
          have : a = b := by omega
          subst this; exact le_refl _⟩
    obtain ⟨kv2, ⟨F2, hF2⟩, hp2, hs2⟩ := step1
    have step2 : ∃ kv3, Returns (fun fuel => if j > l then qsort n fuel kv2 l j else .ok kv2) kv3 ∧
        PermOn l j kv2 kv3 ∧ SortedOn l j kv3 := by
      by_cases hjl : j > l
      · obtain ⟨kv3, h1, h2, h3⟩ := ih (j - l).toNat (by omega) kv2 l j (le_refl _) hl (by omega) (by omega)
        exact ⟨kv3, by simpa [hjl] using h1, h2, h3⟩
      · exact ⟨kv2, ⟨0, fun _ _ => by simp [hjl]⟩, PermOn.refl _ _ _, fun a b h1 h2 h3 => by
          have : a = b := by omega
          subst this; exact le_refl _⟩
    obtain ⟨kv3, ⟨F3, hF3⟩, hp3, hs3⟩ := step2
    refine ⟨kv3, ⟨F1 + F2 + F3 + 1, fun fuel hf => ?_⟩,
      (hp1.trans (hp2.mono hil (le_refl _))).trans (hp3.mono (le_refl _) (by omega)), ?_⟩
    · obtain ⟨m, rfl⟩ : ∃ m, fuel = m + 1 := ⟨fuel - 1, by omega⟩
      show qsort n (m+1) kv l r = _
      simp only [qsort]
      have e1 : partLoop n (kv.key ((l + r).tdiv 2)) m kv l r = _ := hF1 m (by omega)
      rw [if_neg (by omega), e1]
      simp only [Res.bind_ok]
      have e2 := hF2 m (by omega)
      have e3 := hF3 m (by omega)
      dsimp only at e2 e3
      by_cases hir : i < r
      · rw [if_pos hir] at e2 ⊢
        rw [e2]
        simp only [Res.bind_ok]
        exact e3
      · rw [if_neg hir] at e2 ⊢
        rw [Res.ok.injEq] at e2
        rw [e2]
        exact e3
    · -- sortedness
      have lo : ∀ k, l ≤ k → k < i → k ≤ r → kv3.key k ≤ kv.key ((l + r).tdiv 2) := by
        have base : ∀ k, l ≤ k → k < i → k ≤ r → kv2.key k ≤ kv.key ((l + r).tdiv 2) := by
          intro k h1 h2 h3
          rw [(hp2.key_outside (by omega)).1]; exact hA k h1 h2 h3
        intro k h1 h2 h3
        by_cases hkj : k ≤ j
        · exact hp3.forall_key (P := fun x => x ≤ kv.key ((l + r).tdiv 2))
            (fun k h1 h2 => base k h1 (by omega) (by omega)) k h1 hkj
        · rw [(hp3.key_outside (by omega)).1]; exact base k h1 h2 h3
      have hi : ∀ k, j < k → k ≤ r → l ≤ k → kv.key ((l + r).tdiv 2) ≤ kv3.key k := by
        intro k h1 h2 h3
        rw [(hp3.key_outside (by omega)).1]
        by_cases hki : i ≤ k
        · exact hp2.forall_key (P := fun x => kv.key ((l + r).tdiv 2) ≤ x)
            (fun k h1 h2 => hB k (by omega) h2 (by omega)) k hki h2
        · rw [(hp2.key_outside (by omega)).1]; exact hB k h1 h2 h3
      intro a b h1 h2 h3
      by_cases hbj : b ≤ j
      · exact hs3 a b h1 h2 hbj
      · by_cases hai : i ≤ a
        · have e1 := (hp3.key_outside (k := a) (by omega)).1
          have e2 := (hp3.key_outside (k := b) (by omega)).1
          rw [e1, e2]; exact hs2 a b hai h2 h3
        · exact le_trans (lo a h1 (by omega) (by omega)) (hi b (by omega) h3 (by omega))

/-- Sorting an empty range does nothing, provided the pivot read is in bounds. -/
theorem qsort_empty (n : Int) (kv : KV κ ν) (l : Int) (hl : 0 ≤ l) (hn : l ≤ n) (hn1 : 1 ≤ n) :
    Returns (fun fuel => qsort n fuel kv l (l - 1)) kv := by
  refine ⟨2, fun fuel hf => ?_⟩
  obtain ⟨m, rfl⟩ : ∃ m, fuel = m + 2 := ⟨fuel - 2, by omega⟩
  have hm : 0 ≤ (l + (l - 1)).tdiv 2 ∧ (l + (l - 1)).tdiv 2 < n := by
    by_cases h0 : l = 0
    · subst h0; exact ⟨by decide, by have : ((0:Int) + (0 - 1)).tdiv 2 = 0 := by decide
                                     omega⟩
    · rw [Int.tdiv_eq_ediv_of_nonneg (by omega)]; omega
  show qsort n (m+1+1) kv l (l-1) = _
  simp only [qsort]
  rw [if_neg (by omega), partLoop, if_neg (by omega)]
  simp only [Res.bind_ok]
  rw [if_neg (by omega), if_neg (by omega)]

end H2Pack.CSR
