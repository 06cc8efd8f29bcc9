import Verif.Model.Ewald
import Verif.Proof.Kernels4
import Mathlib.Tactic.Zify
import Mathlib.Algebra.BigOperators.Group.List.Lemmas
import Mathlib.Algebra.BigOperators.Intervals

/-! The lattice of the Ewald kernel. -/

namespace H2Pack.Kern
open H2Pack.KernSpec
open Finset (range)

/-- Position of a lattice vector in the order of the loops. -/
def key (n : Nat) (v : ℤ × ℤ × ℤ) : ℤ := ((v.1 + n) * (2 * n + 1) + (v.2.1 + n)) * (2 * n + 1) + (v.2.2 + n)

theorem flat_range (p q : Nat) : ((List.range p).flatMap fun a => (List.range q).map fun b => a * q + b) = List.range (p * q) := by
  induction p with
  | zero => simp
  | succ p ih => rw [List.range_succ, List.flatMap_append, ih, Nat.succ_mul, List.range_add]; simp

theorem cells_key (n : Nat) : (cells n).map (key n) = (List.range (rSize n)).map (fun a : Nat => (a : ℤ)) := by
  unfold rSize
  rw [← flat_range, ← flat_range]
  unfold cells steps
  simp only [List.map_flatMap, List.map_map, List.flatMap_map, List.flatMap_assoc]
  refine List.flatMap_congr fun a _ => List.flatMap_congr fun b _ => List.map_congr_left fun c _ => ?_
  simp only [key, Function.comp]
  push_cast
  ring

theorem cells_length (n : Nat) : (cells n).length = rSize n := by
  have := congrArg List.length (cells_key n)
  simpa using this

/-- Lattice vector number `idx`. -/
def cell (n idx : Nat) : ℤ × ℤ × ℤ := (cells n).getD idx 0

theorem cell_key {n idx : Nat} (h : idx < rSize n) : key n (cell n idx) = idx := by
  have hl : idx < (cells n).length := by rw [cells_length]; exact h
  have := congrArg (fun l => l[idx]?) (cells_key n)
  simp only [List.getElem?_map, List.getElem?_range h, List.getElem?_eq_getElem hl, Option.map_some, Option.some.injEq] at this
  unfold cell
  rw [List.getD_eq_getElem?_getD, List.getElem?_eq_getElem hl, Option.getD_some]
  exact this

theorem cells_nodup (n : Nat) : (cells n).Nodup := by
  have : ((cells n).map (key n)).Nodup := by
    rw [cells_key]
    exact List.nodup_range.map Nat.cast_injective
  exact List.Nodup.of_map _ this

theorem mem_steps {n : Nat} {a : ℤ} : a ∈ steps n ↔ a ∈ Finset.Icc (-(n : ℤ)) n := by
  unfold steps
  rw [Finset.mem_Icc, List.mem_map]
  constructor
  · rintro ⟨b, hb, rfl⟩
    have := List.mem_range.mp hb
    constructor <;> omega
  · rintro ⟨h1, h2⟩
    exact ⟨(a + n).toNat, List.mem_range.mpr (by omega), by omega⟩

theorem mem_cells {n : Nat} {v : ℤ × ℤ × ℤ} : v ∈ cells n ↔ v ∈ lattice n := by
  obtain ⟨a, b, c⟩ := v
  unfold cells lattice
  simp only [List.mem_flatMap, List.mem_map, Finset.mem_product, mem_steps, Prod.mk.injEq]
  constructor
  · rintro ⟨a', h1, b', h2, c', h3, rfl, rfl, rfl⟩
    exact ⟨h1, h2, h3⟩
  · rintro ⟨h1, h2, h3⟩
    exact ⟨a, h1, b, h2, c, h3, rfl, rfl, rfl⟩

theorem cells_toFinset (n : Nat) : (cells n).toFinset = lattice n := by
  ext v
  rw [List.mem_toFinset, mem_cells]

theorem sum_getD {α : Type} (l : List α) (d : α) (f : α → ℝ) : ∑ i ∈ range l.length, f (l.getD i d) = (l.map f).sum := by
  induction l with
  | nil => simp
  | cons x l ih =>
    rw [List.length_cons, Finset.sum_range_succ']
    simp only [List.getD_cons_succ, List.getD_cons_zero, List.map_cons, List.sum_cons]
    rw [ih, add_comm]

/-- The sum over the positions is the sum over the lattice. -/
theorem sum_cells (n : Nat) (f : ℤ × ℤ × ℤ → ℝ) : ∑ i ∈ range (rSize n), f (cell n i) = ∑ v ∈ lattice n, f v := by
  rw [← cells_length, ← cells_toFinset, List.sum_toFinset _ (cells_nodup n)]
  exact sum_getD _ _ _

theorem cell_mem {n idx : Nat} (h : idx < rSize n) : cell n idx ∈ lattice n := by
  rw [← mem_cells]
  have hl : idx < (cells n).length := by rw [cells_length]; exact h
  unfold cell
  rw [List.getD_eq_getElem?_getD, List.getElem?_eq_getElem hl, Option.getD_some]
  exact List.getElem_mem hl

theorem lattice_neg {n : Nat} {v : ℤ × ℤ × ℤ} (h : v ∈ lattice n) : -v ∈ lattice n := by
  simp only [lattice, Finset.mem_product, Finset.mem_Icc, Prod.fst_neg, Prod.snd_neg] at h ⊢
  omega

theorem key_inj {n : Nat} {u v : ℤ × ℤ × ℤ} (hu : u ∈ lattice n) (hv : v ∈ lattice n) (h : key n u = key n v) : u = v := by
  rw [← mem_cells] at hu hv
  have : ((cells n).map (key n)).Nodup := by
    rw [cells_key]
    exact List.nodup_range.map Nat.cast_injective
  exact List.inj_on_of_nodup_map this hu hv h

theorem rSize_half (n : Nat) : rSize n = 2 * kSize n + 1 := by
  unfold kSize
  have : rSize n = 2 * (4 * n ^ 3 + 6 * n ^ 2 + 3 * n) + 1 := by unfold rSize; ring
  have h' : rSize n = (2 * n + 1) * (2 * n + 1) * (2 * n + 1) := rfl
  rw [← h']
  omega

theorem key_neg (n : Nat) (v : ℤ × ℤ × ℤ) : key n (-v) = 2 * kSize n - key n v := by
  have h : (rSize n : ℤ) = 2 * kSize n + 1 := by exact_mod_cast rSize_half n
  have h2 : (rSize n : ℤ) = (2 * n + 1) * (2 * n + 1) * (2 * n + 1) := by unfold rSize; push_cast; ring
  have : (2 : ℤ) * kSize n = (2 * n + 1) * (2 * n + 1) * (2 * n + 1) - 1 := by linarith
  rw [this]
  simp only [key, Prod.fst_neg, Prod.snd_neg]
  ring

theorem cell_neg {n idx : Nat} (h : idx < rSize n) : cell n (2 * kSize n - idx) = -cell n idx := by
  have hr := rSize_half n
  refine key_inj (n := n) (cell_mem (by omega)) (lattice_neg (cell_mem h)) ?_
  rw [cell_key (by omega), key_neg, cell_key h]
  push_cast [show idx ≤ 2 * kSize n by omega]
  ring

theorem cell_mid (n : Nat) : cell n (kSize n) = 0 := by
  have hr := rSize_half n
  have h := cell_neg (n := n) (idx := kSize n) (by omega)
  rw [show 2 * kSize n - kSize n = kSize n by omega] at h
  generalize cell n (kSize n) = v at h
  obtain ⟨a, b, c⟩ := v
  simp only [Prod.neg_mk, Prod.mk.injEq] at h
  show (a, b, c) = (0, 0, 0)
  rw [Prod.mk.injEq, Prod.mk.injEq]
  omega

/-- One of each pair of opposite vectors: the first half of the lattice. -/
theorem sum_half (n : Nat) (f : ℤ × ℤ × ℤ → ℝ) (hf : ∀ v, f (-v) = f v) : ∑ i ∈ range (kSize n), 2 * f (cell n i) = ∑ v ∈ lattice n with v ≠ 0, f v := by
  have hr := rSize_half n
  have h0 : (0 : ℤ × ℤ × ℤ) ∈ lattice n := by rw [← cell_mid n]; exact cell_mem (by omega)
  have h1 := sum_cells n f
  rw [hr, show 2 * kSize n + 1 = (kSize n + 1) + kSize n by omega, Finset.sum_range_add, Finset.sum_range_succ, cell_mid] at h1
  have h2 : ∑ i ∈ range (kSize n), f (cell n (kSize n + 1 + i)) = ∑ i ∈ range (kSize n), f (cell n i) := by
    rw [← Finset.sum_range_reflect]
    refine Finset.sum_congr rfl fun i hi => ?_
    have := Finset.mem_range.mp hi
    rw [show kSize n + 1 + (kSize n - 1 - i) = 2 * kSize n - i by omega, cell_neg (by omega), hf]
  rw [h2] at h1
  have h3 : ∑ v ∈ lattice n, f v = f 0 + ∑ v ∈ lattice n with v ≠ 0, f v := by
    rw [← Finset.add_sum_erase _ _ h0]
    congr 1
    refine Finset.sum_congr ?_ fun _ _ => rfl
    ext v
    simp only [Finset.mem_erase, Finset.mem_filter]
    tauto
  rw [← Finset.mul_sum]
  linarith

/-! ## The work buffer -/

theorem sets_spec (w : Nat → ℝ) (y n m : Nat) (hn : 0 < n) (v : Nat → ℝ) :
    (∀ k < m, (List.range m).foldl (fun w k => set w (y + k * n) (v k)) w (y + k * n) = v k) ∧
      ∀ q, (∀ k < m, q ≠ y + k * n) → (List.range m).foldl (fun w k => set w (y + k * n) (v k)) w q = w q := by
  refine foldl_range_ind (fun m (w' : Nat → ℝ) => (∀ k < m, w' (y + k * n) = v k) ∧
      ∀ q, (∀ k < m, q ≠ y + k * n) → w' q = w q) _ w m ⟨by intro k hk; omega, fun _ _ => rfl⟩ ?_
  rintro t w' ht ⟨ih1, ih2⟩
  refine ⟨fun k hk => ?_, fun q hq => ?_⟩
  · rcases Nat.lt_succ_iff_lt_or_eq.mp hk with hk | rfl
    · have := Nat.mul_lt_mul_of_pos_right hk hn
      simp only [set]
      rw [if_neg (by omega), ih1 k hk]
    · simp only [set, if_true]
  · simp only [set]
    rw [if_neg (hq t (by omega)), ih2 q fun k hk => hq k (by omega)]

theorem init_spec (L xi : ℝ) (nr nk base : Nat) (w : Nat → ℝ) :
    (∀ d < 3, ∀ i < rSize nr, initWorkbuf L xi nr nk base w (base + d * rSize nr + i) = L * comp (cell nr i) d) ∧
    (∀ f < 6, ∀ i < kSize nk, i < rSize nr → initWorkbuf L xi nr nk base w (base + 3 * rSize nr + f * kSize nk + i) = kEntry L xi (cell nr i) f) ∧
    ∀ q, (∀ d < 3, ∀ i < rSize nr, q ≠ base + d * rSize nr + i) → (∀ f < 6, ∀ i < kSize nk, i < rSize nr → q ≠ base + 3 * rSize nr + f * kSize nk + i) →
      initWorkbuf L xi nr nk base w q = w q := by
  have hcells : cells nr = (List.range (rSize nr)).map (cell nr) := by
    rw [← cells_length]
    refine List.ext_getElem (by simp) fun i h1 h2 => ?_
    simp only [List.getElem_map, List.getElem_range, cell]
    rw [List.getD_eq_getElem?_getD, List.getElem?_eq_getElem h1, Option.getD_some]
  unfold initWorkbuf
  rw [hcells, List.foldl_map]
  set R := rSize nr with hR
  set K := kSize nk with hK
  have h := foldl_range_ind (fun t (s : Nat × (Nat → ℝ)) => s.1 = t ∧
    (∀ d < 3, ∀ i < t, s.2 (base + d * R + i) = L * comp (cell nr i) d) ∧
    (∀ f < 6, ∀ i < K, i < t → s.2 (base + 3 * R + f * K + i) = kEntry L xi (cell nr i) f) ∧
    ∀ q, (∀ d < 3, ∀ i < t, q ≠ base + d * R + i) → (∀ f < 6, ∀ i < K, i < t → q ≠ base + 3 * R + f * K + i) → s.2 q = w q)
    (fun s i => initStep L xi R K base s (cell nr i)) (0, w) R
    ⟨rfl, by intro d _ i hi; omega, by intro f _ i _ hi; omega, fun _ _ _ => rfl⟩
    (by
      rintro t ⟨idx, v⟩ ht ⟨h0, h1, h2, h3⟩
      simp only at h0 h1 h2 h3
      subst h0
      obtain ⟨a1, a2⟩ := sets_spec v (base + idx) R 3 (by omega) (fun d => L * comp (cell nr idx) d)
      unfold initStep
      generalize hv : (List.range 3).foldl (fun w d => set w (base + idx + d * R) (L * comp (cell nr idx) d)) v = v1 at a1 a2
      simp only
      by_cases hk : idx < K
      · rw [if_pos hk]
        obtain ⟨b1, b2⟩ := sets_spec v1 (base + 3 * R + idx) K 6 (by omega) (fun f => kEntry L xi (cell nr idx) f)
        refine ⟨trivial, fun d hd i hi => ?_, fun f hf i hiK hi => ?_, fun q hq1 hq2 => ?_⟩
        · rw [b2]
          · rcases Nat.lt_succ_iff_lt_or_eq.mp hi with hi | rfl
            · rw [a2, h1 d hd i hi]
              intro d' hd'
              interval_cases d <;> interval_cases d' <;> omega
            · rw [← a1 d hd]
              congr 1
              omega
          · intro f hf
            interval_cases d <;> omega
        · rcases Nat.lt_succ_iff_lt_or_eq.mp hi with hi | rfl
          · rw [b2, a2, h2 f hf i hiK hi]
            · intro d hd
              interval_cases d <;> omega
            · intro f' hf'
              interval_cases f <;> interval_cases f' <;> omega
          · rw [show base + 3 * R + f * K + i = base + 3 * R + i + f * K by omega]
            exact b1 f hf
        · rw [b2, a2, h3]
          · exact fun d hd i hi => hq1 d hd i (by omega)
          · exact fun f hf i hiK hi => hq2 f hf i hiK (by omega)
          · intro d hd
            have := hq1 d hd idx (by omega)
            omega
          · intro f hf
            have := hq2 f hf idx hk (by omega)
            omega
      · rw [if_neg hk]
        refine ⟨trivial, fun d hd i hi => ?_, fun f hf i hiK hi => ?_, fun q hq1 hq2 => ?_⟩
        · rcases Nat.lt_succ_iff_lt_or_eq.mp hi with hi | rfl
          · rw [a2, h1 d hd i hi]
            intro d' hd'
            interval_cases d <;> interval_cases d' <;> omega
          · rw [← a1 d hd]
            congr 1
            omega
        · rcases Nat.lt_succ_iff_lt_or_eq.mp hi with hi | rfl
          · rw [a2, h2 f hf i hiK hi]
            intro d hd
            interval_cases d <;> omega
          · omega
        · rw [a2, h3]
          · exact fun d hd i hi => hq1 d hd i (by omega)
          · exact fun f hf i hiK hi => hq2 f hf i hiK (by omega)
          · intro d hd
            have := hq1 d hd idx (by omega)
            omega)
  exact ⟨h.2.1, h.2.2.1, h.2.2.2⟩

end H2Pack.Kern
