import Verif.Proof.FSAIBlock
import Mathlib.Algebra.Order.BigOperators.Group.List

/-! # The rows and columns of the block FSAI matrix -/

namespace H2Pack.FSB
open H2Pack.ULV H2Pack.AFN Finset Matrix

/-- Row `r`, column `c` of the kernel matrix plus `shift I` in the order of the sorted points. -/
def sEnt (F : In) (r c : Nat) : ℝ := F.kern (F.pt (r / F.kd)) (F.pt (c / F.kd)) (r % F.kd) (c % F.kd) + if r = c then F.shift else 0

variable {kd : Nat} {N : List Nat}

theorem cols_len : (cols kd N).length = N.length * kd := by unfold cols; simp

theorem cols_get {k : Nat} (hk : k < N.length * kd) : (cols kd N).getD k 0 = kd * N.getD (k / kd) 0 + k % kd := by
  rw [List.getD_eq_getElem _ _ (by rw [cols_len]; exact hk)]
  unfold cols
  simp

theorem kd_pos {k : Nat} (hk : k < N.length * kd) : 0 < kd := Nat.pos_of_ne_zero (by rintro rfl; simp at hk)

theorem block_div {x b : Nat} (hb : b < kd) : (kd * x + b) / kd = x ∧ (kd * x + b) % kd = b := by
  have hk : 0 < kd := by omega
  constructor
  · rw [Nat.add_comm, Nat.add_mul_div_left _ _ hk, Nat.div_eq_of_lt hb, Nat.zero_add]
  · rw [Nat.mul_add_mod, Nat.mod_eq_of_lt hb]

theorem cols_div {k : Nat} (hk : k < N.length * kd) : (cols kd N).getD k 0 / kd = N.getD (k / kd) 0 ∧ (cols kd N).getD k 0 % kd = k % kd := by
  rw [cols_get hk]
  exact block_div (Nat.mod_lt _ (kd_pos hk))

theorem div_lt {k m : Nat} (hk : k < m * kd) : k / kd < m := Nat.div_lt_of_lt_mul (by rwa [Nat.mul_comm])

theorem cols_inj (hN : N.Nodup) {p q : Nat} (hp : p < N.length * kd) (hq : q < N.length * kd) : (cols kd N).getD p 0 = (cols kd N).getD q 0 ↔ p = q := by
  refine ⟨fun h => ?_, fun h => by rw [h]⟩
  obtain ⟨p1, p2⟩ := cols_div hp
  obtain ⟨q1, q2⟩ := cols_div hq
  rw [h] at p1 p2
  have h1 : N.getD (p / kd) 0 = N.getD (q / kd) 0 := p1.symm.trans q1
  have h2 : p % kd = q % kd := p2.symm.trans q2
  rw [List.getD_eq_getElem _ _ (div_lt hp), List.getD_eq_getElem _ _ (div_lt hq)] at h1
  have h3 := (List.Nodup.getElem_inj_iff hN).1 h1
  have e1 := Nat.div_add_mod p kd
  have e2 := Nat.div_add_mod q kd
  rw [← e1, ← e2, h3, h2]

theorem cols_nodup (hN : N.Nodup) : (cols kd N).Nodup := by
  rw [List.nodup_iff_injective_getElem]
  intro p q h
  have hp : (p : Nat) < N.length * kd := by rw [← cols_len (N := N)]; exact p.2
  have hq : (q : Nat) < N.length * kd := by rw [← cols_len (N := N)]; exact q.2
  have : (cols kd N).getD p 0 = (cols kd N).getD q 0 := by
    rw [List.getD_eq_getElem _ _ p.2, List.getD_eq_getElem _ _ q.2]; exact h
  exact Fin.ext ((cols_inj hN hp hq).1 this)

theorem cols_mem {c : Nat} (hk : 0 < kd) : c ∈ cols kd N ↔ c / kd ∈ N := by
  constructor
  · intro h
    obtain ⟨p, hp, rfl⟩ := List.mem_iff_getElem.1 h
    have hp' := hp
    rw [cols_len] at hp'
    rw [← List.getD_eq_getElem _ 0 hp, (cols_div hp').1, List.getD_eq_getElem _ _ (div_lt hp')]
    exact List.getElem_mem _
  · intro h
    obtain ⟨t, ht, e⟩ := List.mem_iff_getElem.1 h
    have hm := Nat.mod_lt c hk
    have hp : kd * t + c % kd < N.length * kd := by
      calc kd * t + c % kd < kd * t + kd := by omega
        _ = (t + 1) * kd := by ring
        _ ≤ N.length * kd := Nat.mul_le_mul_right _ ht
    have hg := cols_get hp
    rw [(block_div hm).1, (block_div hm).2, List.getD_eq_getElem _ _ ht, e, Nat.div_add_mod] at hg
    rw [← hg, List.getD_eq_getElem _ _ (by rw [cols_len]; exact hp)]
    exact List.getElem_mem _

theorem cols_lt {n : Nat} (hN : ∀ j ∈ N, j < n) (hk : 0 < kd) : ∀ c ∈ cols kd N, c < n * kd := by
  intro c hc
  have := hN _ ((cols_mem hk).1 hc)
  rw [Nat.div_lt_iff_lt_mul hk] at this
  exact this

theorem tmpA_eq {F : In} (hN : N.Nodup) {p q : Nat} (hp : p < N.length * F.kd) (hq : q < N.length * F.kd) :
    tmpA F N p q = sEnt F ((cols F.kd N).getD p 0) ((cols F.kd N).getD q 0) := by
  unfold tmpA sEnt
  rw [(cols_div hp).1, (cols_div hp).2, (cols_div hq).1, (cols_div hq).2]
  congr 1
  by_cases h : p = q
  · rw [if_pos h, if_pos (by rw [h])]
  · rw [if_neg h, if_neg (fun e => h ((cols_inj hN hp hq).1 e))]

theorem nbr_spec {L : List Nat} {i : Nat} (h : (L.filter fun q => decide (q < i)).Nodup) : (nbr L i).Nodup ∧ (∀ j ∈ nbr L i, j ≤ i) ∧
    (nbr L i).length = (L.filter fun q => decide (q < i)).length + 1 ∧ (∀ j, j ∈ nbr L i ↔ (j < i ∧ j ∈ L) ∨ j = i) ∧
    (∀ j, j < i → j ∈ L → ∃ t < (nbr L i).length - 1, (nbr L i).getD t 0 = j) := by
  have hm : ∀ j, j ∈ nbr L i ↔ (j < i ∧ j ∈ L) ∨ j = i := by
    intro j
    unfold nbr
    simp only [List.mem_append, List.mem_filter, decide_eq_true_eq, List.mem_singleton]
    constructor
    · rintro (h | h)
      · exact Or.inl ⟨h.2, h.1⟩
      · exact Or.inr h
    · rintro (h | h)
      · exact Or.inl ⟨h.2, h.1⟩
      · exact Or.inr h
  refine ⟨?_, ?_, by unfold nbr; simp, hm, ?_⟩
  · unfold nbr
    rw [List.nodup_append]
    refine ⟨h, by simp, ?_⟩
    intro x hx y hy
    have := (List.mem_filter.1 hx).2
    simp at this hy
    omega
  · intro j hj
    rcases (hm j).1 hj with h | h <;> omega
  · intro j h1 h2
    obtain ⟨t, ht, e⟩ := List.mem_iff_getElem.1 (List.mem_filter.2 ⟨h2, by simpa using h1⟩ : j ∈ L.filter fun q => decide (q < i))
    refine ⟨t, by unfold nbr; simp; exact ht, ?_⟩
    rw [List.getD_eq_getElem _ _ (by unfold nbr; simp; omega)]
    unfold nbr
    rw [List.getElem_append_left ht, e]

/-- The values as they are stored. -/
noncomputable def rowVals (kd : Nat) (N : Nat → List Nat) (Y : Nat → Nat → Nat → ℝ) (r : Nat) : List ℝ :=
  (List.range ((N (r / kd)).length * kd)).map fun k => Y (r / kd) (r % kd) k

/-- Entry `(r, c)` of the matrix of the triples. -/
noncomputable def gEnt (kd : Nat) (N : Nat → List Nat) (Y : Nat → Nat → Nat → ℝ) (r c : Nat) : ℝ :=
  gEntry (fun r => cols kd (N (r / kd))) (rowVals kd N Y) r c

variable {n : Nat} {N : Nat → List Nat} {Y : Nat → Nat → Nat → ℝ}

/-- The matrix of the triples. -/
noncomputable def gM (n kd : Nat) (N : Nat → List Nat) (Y : Nat → Nat → Nat → ℝ) : Matrix (Fin (n * kd)) (Fin (n * kd)) ℝ := fun r c => gEnt kd N Y r c

theorem gEnt_def (r c : Nat) : gEnt kd N Y r c =
    ∑ p ∈ range (cols kd (N (r / kd))).length, if (cols kd (N (r / kd))).getD p 0 = c then (rowVals kd N Y r).getD p 0 else 0 := rfl

theorem vals_get {r p : Nat} (hp : p < (N (r / kd)).length * kd) : (rowVals kd N Y r).getD p 0 = Y (r / kd) (r % kd) p := by
  unfold rowVals
  rw [List.getD_eq_getElem _ _ (by simpa using hp)]
  simp

/-- A row of the matrix times a vector. -/
theorem row_sum (hk : 0 < kd) (hN : ∀ i < n, ∀ j ∈ N i, j < n) {r : Nat} (hr : r < n * kd) (f : Nat → ℝ) :
    ∑ c ∈ range (n * kd), gEnt kd N Y r c * f c =
      ∑ k ∈ range ((N (r / kd)).length * kd), Y (r / kd) (r % kd) k * f ((cols kd (N (r / kd))).getD k 0) := by
  simp only [gEnt_def]
  rw [sum_fiber (cols_lt (hN _ (div_lt hr)) hk) _ f, cols_len]
  refine sum_congr rfl fun p hp => ?_
  rw [vals_get (mem_range.1 hp)]

theorem gEnt_zero (hk : 0 < kd) {r c : Nat} (hc : c / kd ∉ N (r / kd)) : gEnt kd N Y r c = 0 := by
  rw [gEnt_def]
  refine sum_eq_zero fun p hp => if_neg fun e => hc ?_
  rw [← cols_mem hk, ← e, List.getD_eq_getElem _ _ (mem_range.1 hp)]
  exact List.getElem_mem _

/-- Sums over the triples. -/
theorem sum_triples (f : Nat × Nat × ℝ → ℝ) : ((entries n kd N Y).map f).sum =
    ∑ r ∈ range (n * kd), ∑ p ∈ range (cols kd (N (r / kd))).length, f (r, (cols kd (N (r / kd))).getD p 0, (rowVals kd N Y r).getD p 0) :=
  sum_entries (n * kd) (fun r => cols kd (N (r / kd))) (rowVals kd N Y) (fun r _ => by unfold rowVals; rw [cols_len]; simp) f

theorem triples_fwd (hk : 0 < kd) (hN : ∀ i < n, ∀ j ∈ N i, j < n) {i : Nat} (hi : i < n * kd) (x : Nat → ℝ) :
    ((entries n kd N Y).map fun e => if e.1 = i then e.2.2 * x e.2.1 else 0).sum = ∑ c ∈ range (n * kd), gEnt kd N Y i c * x c := by
  rw [sum_triples, sum_eq_single i]
  · simp only [gEnt_def]
    rw [sum_fiber (cols_lt (hN _ (div_lt hi)) hk) _ x]
    simp
  · intro r _ hr
    exact sum_eq_zero fun p _ => if_neg hr
  · intro h; exact absurd (mem_range.2 hi) h

theorem triples_bwd {i : Nat} (x : Nat → ℝ) :
    ((entries n kd N Y).map fun e => if e.2.1 = i then e.2.2 * x e.1 else 0).sum = ∑ r ∈ range (n * kd), gEnt kd N Y r i * x r := by
  rw [sum_triples]
  refine sum_congr rfl fun r _ => ?_
  rw [gEnt_def, sum_mul]
  refine sum_congr rfl fun p _ => ?_
  dsimp only
  split <;> simp

theorem triples_len (hk : 0 < kd) (hN : ∀ i < n, 1 ≤ (N i).length) : n * kd ≤ (entries n kd N Y).length := by
  have h := sum_triples (n := n) (kd := kd) (N := N) (Y := Y) fun _ => 1
  simp only [List.map_const', List.sum_replicate, nsmul_eq_mul, mul_one, sum_const, card_range] at h
  have : ((n * kd : Nat) : ℝ) ≤ ((entries n kd N Y).length : ℝ) := by
    rw [h]
    calc ((n * kd : Nat) : ℝ) = ∑ r ∈ range (n * kd), (1 : ℝ) := by simp
      _ ≤ _ := sum_le_sum fun r hr => by
        rw [cols_len]
        have := hN _ (div_lt (mem_range.1 hr))
        exact_mod_cast Nat.mul_pos this hk
  exact_mod_cast this

theorem triples_mem (hk : 0 < kd) (hN : ∀ i < n, ∀ j ∈ N i, j < n) {e : Nat × Nat × ℝ} (he : e ∈ entries n kd N Y) : e.1 < n * kd ∧ e.2.1 < n * kd := by
  obtain ⟨h1, h2⟩ := entries_mem he
  exact ⟨h1, cols_lt (hN _ (div_lt h1)) hk _ h2⟩

end H2Pack.FSB
