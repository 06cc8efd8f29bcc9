import Verif.Proof.SPDS3
import Verif.Spec.SPDHSS

set_option linter.unusedSectionVars false

/-! # Sampling: accumulation over the levels, repacking -/

namespace H2Pack.SPD
open H2Pack.MV
open H2Pack.Part (Arr kids Desc ClusterTree)
open H2Pack.ULV (InRow loop loop_snoc comparable row_desc leaf_desc)
open Finset (range sum_congr mem_range sum_comm sum_add_distrib mul_sum sum_mul)

section
variable {R : Rep ℝ}

theorem fold_copy {α : Type} (w rd : α → Nat) : ∀ (L : List α) (Y : Nat → ℝ), (∀ x ∈ L, ∀ y ∈ L, rd x ≠ w y) → ∀ p,
    L.foldl (fun Y x => addAt Y (w x) (Y (rd x))) Y p = Y p + (L.map fun x => if p = w x then Y (rd x) else 0).sum := by
  intro L
  induction L with
  | nil => intro Y _ p; simp
  | cons x L ih =>
    intro Y h p
    rw [List.foldl_cons, ih _ (fun a ha b hb => h a (List.mem_cons_of_mem _ ha) b (List.mem_cons_of_mem _ hb)), List.map_cons, List.sum_cons, ← add_assoc]
    congr 1
    · unfold addAt
      by_cases e : p = w x
      · subst e; rw [Function.update_self, if_pos rfl]
      · rw [Function.update_of_ne e, if_neg e, add_zero]
    · congr 1
      apply List.map_congr_left
      intro y hy
      split
      · unfold addAt
        rw [Function.update_of_ne (h y (List.mem_cons_of_mem _ hy) x List.mem_cons_self)]
      · rfl

theorem level_add {n nvec M level : Nat} (h1 : 1 ≤ level) (h2 : level < M) (Y : Nat → ℝ) {r m j : Nat} (hr : r < n) (hm : m < M) (hj : j < nvec) :
    (List.range n).foldl (fun Y i => (List.range' (nvec * (level - 1)) nvec).foldl (fun Y j =>
        addAt Y (i * (nvec * M) + (j + nvec)) (Y (i * (nvec * M) + j))) Y) Y (cell nvec M r m j) =
      Y (cell nvec M r m j) + if m = level then Y (cell nvec M r (level - 1) j) else 0 := by
  have hlev : nvec * level = nvec * (level - 1) + nvec := by
    obtain ⟨k, rfl⟩ : ∃ k, level = k + 1 := ⟨level - 1, by omega⟩
    rw [Nat.mul_add, Nat.mul_one, Nat.add_sub_cancel]
  have hb : ∀ t < nvec, nvec * (level - 1) + t + nvec < nvec * M := by
    intro t ht
    have := (blk_lt h2 ht).1
    omega
  have e : (List.range n).foldl (fun Y i => (List.range' (nvec * (level - 1)) nvec).foldl (fun Y j =>
        addAt Y (i * (nvec * M) + (j + nvec)) (Y (i * (nvec * M) + j))) Y) Y =
      ((List.range n).flatMap fun i => (List.range' (nvec * (level - 1)) nvec).map fun j => (i, j)).foldl
        (fun Y x => addAt Y (x.1 * (nvec * M) + (x.2 + nvec)) (Y (x.1 * (nvec * M) + x.2))) Y := by
    rw [List.foldl_flatMap]
    congr 1
    funext Y i
    rw [List.foldl_map]
  rw [e, fold_copy]
  · congr 1
    rw [sum_flatMap_range]
    simp only [List.map_map]
    rw [sum_congr rfl (fun i _ => list_sum_range' (nvec * (level - 1)) nvec _)]
    simp only [Function.comp]
    by_cases hml : m = level
    · rw [if_pos hml]
      rw [sum_pick2 n nvec (cell nvec M r m j) (fun i t => i * (nvec * M) + (nvec * (level - 1) + t + nvec))
        (fun i t => Y (i * (nvec * M) + (nvec * (level - 1) + t))) r j hr hj]
      · rfl
      · intro i _ t ht
        unfold cell
        constructor
        · intro h
          obtain ⟨h3, h4⟩ := mul_add_inj (blk_lt hm hj).1 (hb t ht) h
          subst hml
          exact ⟨h3.symm, by omega⟩
        · rintro ⟨rfl, rfl⟩
          subst hml
          omega
    · rw [if_neg hml]
      apply sum_none2 n nvec (cell nvec M r m j) (fun i t => i * (nvec * M) + (nvec * (level - 1) + t + nvec))
      intro i _ t ht h
      unfold cell at h
      obtain ⟨_, h4⟩ := mul_add_inj (blk_lt hm hj).1 (hb t ht) h
      have := (blk_iff (c := level) (m := m) hj).1 ⟨by omega, by omega⟩
      exact hml this.symm
  · intro x hx y hy
    rw [List.mem_flatMap] at hx hy
    obtain ⟨i, _, hx⟩ := hx
    obtain ⟨i', _, hy⟩ := hy
    rw [List.mem_map] at hx hy
    obtain ⟨a, ha, rfl⟩ := hx
    obtain ⟨b, hb', rfl⟩ := hy
    rw [List.mem_range'_1] at ha hb'
    dsimp only
    intro h
    have hb1 := hb (b - nvec * (level - 1)) (by omega)
    obtain ⟨_, h4⟩ := mul_add_inj (show a < nvec * M by omega) (show b + nvec < nvec * M by omega) h
    omega

theorem prefixY_spec {n nvec M : Nat} (Y : Nat → ℝ) {r m j : Nat} (hr : r < n) (hm : m < M) (hj : j < nvec) :
    prefixY n nvec M Y (cell nvec M r m j) = ∑ l ∈ range (m + 1), Y (cell nvec M r l j) := by
  unfold prefixY
  have key : ∀ k, k + 1 ≤ M → ∀ m < M, ((List.range' 1 k).foldl (fun Y level =>
      (List.range n).foldl (fun Y i => (List.range' (nvec * (level - 1)) nvec).foldl (fun Y j =>
        addAt Y (i * (nvec * M) + (j + nvec)) (Y (i * (nvec * M) + j))) Y) Y) Y) (cell nvec M r m j) =
      if m ≤ k then ∑ l ∈ range (m + 1), Y (cell nvec M r l j) else Y (cell nvec M r m j) := by
    intro k
    induction k with
    | zero =>
      intro _ m _
      split
      · next h =>
        obtain rfl : m = 0 := by omega
        simp
      · rfl
    | succ k ih =>
      intro hk m hm
      rw [List.range'_1_concat, List.foldl_append, List.foldl_cons, List.foldl_nil,
        level_add (show 1 ≤ 1 + k by omega) (by omega) _ hr hm hj, ih (by omega) m hm]
      by_cases h1 : m ≤ k
      · rw [if_pos h1, if_neg (by omega), if_pos (by omega), add_zero]
      · rw [if_neg h1]
        by_cases h2 : m = 1 + k
        · rw [if_pos h2, if_pos (by omega), ih (by omega) _ (by omega), if_pos (by omega)]
          subst h2
          rw [show 1 + k - 1 + 1 = 1 + k by omega, Finset.sum_range_succ, add_comm]
        · rw [if_neg h2, if_neg (by omega), add_zero]
  rw [key (M - 1) (by omega) m hm, if_pos (by omega)]

/-! ## Repacking -/

theorem repackLeaf_self (nvec : Nat) (Ym : Nat → ℝ) (Y : Nat → Nat → Option (Mat ℝ)) {v l : Nat} (hl : l < R.arr.level v) :
    repackLeaf R nvec Ym Y v v l = some ⟨R.rowE v - R.rowS v, nvec, fun i k => Ym (R.rowS v * (nvec * R.arr.maxLevel) + (R.arr.level v - 1 - l) * nvec +
      (i * (nvec * R.arr.maxLevel) + k))⟩ := by
  unfold repackLeaf
  apply foldl_set _ (fun Y : Nat → Nat → Option (Mat ℝ) => Y v l) (R.arr.level v - 1 - l)
  · intro a ha hne s
    rw [List.mem_reverse, List.mem_range] at ha
    rw [Function.update_self, Function.update_of_ne (by omega)]
  · intro s
    rw [Function.update_self, show R.arr.level v - 1 - (R.arr.level v - 1 - l) = l by omega, Function.update_self]
  · rw [List.mem_reverse, List.mem_range]; omega

theorem repackLeaf_high (nvec : Nat) (Ym : Nat → ℝ) (Y : Nat → Nat → Option (Mat ℝ)) {v u l : Nat} (h : u ≠ v ∨ R.arr.level v ≤ l) :
    repackLeaf R nvec Ym Y v u l = Y u l := by
  unfold repackLeaf
  have : ∀ (L : List Nat) (Y : Nat → Nat → Option (Mat ℝ)), (∀ j ∈ L, j < R.arr.level v) → (L.foldl (fun Y j =>
      Function.update Y v (Function.update (Y v) (R.arr.level v - 1 - j)
        (some ⟨R.rowE v - R.rowS v, nvec, fun i k => Ym (R.rowS v * (nvec * R.arr.maxLevel) + j * nvec + (i * (nvec * R.arr.maxLevel) + k))⟩))) Y) u l = Y u l := by
    intro L
    induction L with
    | nil => intro Y _; rfl
    | cons j L ih =>
      intro Y hL
      rw [List.foldl_cons, ih _ (fun x hx => hL x (List.mem_cons_of_mem _ hx))]
      have hj := hL j List.mem_cons_self
      by_cases e : u = v
      · subst e
        rw [Function.update_self, Function.update_of_ne]
        rcases h with h | h
        · exact absurd rfl h
        · omega
      · rw [Function.update_of_ne e]
  exact this _ _ (fun j hj => by rw [List.mem_reverse, List.mem_range] at hj; exact hj)

theorem repack_ok {nvec : Nat} {lf : List Nat} (Ym : Nat → ℝ) {v l : Nat} (hv : v < R.arr.nNode) (hl : l < R.arr.maxLevel) :
    (v ∈ lf → l < R.arr.level v → repack R nvec lf Ym v l = some ⟨R.rowE v - R.rowS v, nvec, fun i k =>
      Ym (R.rowS v * (nvec * R.arr.maxLevel) + (R.arr.level v - 1 - l) * nvec + (i * (nvec * R.arr.maxLevel) + k))⟩) ∧
    (v ∉ lf ∨ R.arr.level v ≤ l → repack R nvec lf Ym v l = some ⟨0, 0, fun _ _ => 0⟩) := by
  constructor
  · intro hm hlv
    unfold repack
    rw [if_pos ⟨hv, hl⟩]
    have := foldl_set (repackLeaf R nvec Ym) (fun Y : Nat → Nat → Option (Mat ℝ) => Y v l) v _ lf
      (fun a _ hne s => repackLeaf_high nvec Ym s (Or.inl hne.symm)) (fun s => repackLeaf_self nvec Ym s hlv) hm (fun _ _ => none)
    rw [this, Option.getD_some]
  · intro h
    unfold repack
    rw [if_pos ⟨hv, hl⟩]
    have : ∀ (L : List Nat) (Y : Nat → Nat → Option (Mat ℝ)), (v ∉ L ∨ R.arr.level v ≤ l) → (L.foldl (repackLeaf R nvec Ym) Y) v l = Y v l := by
      intro L
      induction L with
      | nil => intro Y _; rfl
      | cons a L ih =>
        intro Y hL
        rw [List.foldl_cons, ih _ (hL.imp (fun h => fun hh => h (List.mem_cons_of_mem _ hh)) id), repackLeaf_high]
        by_cases e : v = a
        · subst e
          exact Or.inr (hL.resolve_left (fun h => h List.mem_cons_self))
        · exact Or.inl e
    rw [this lf _ h, Option.getD_none]

end
end H2Pack.SPD
