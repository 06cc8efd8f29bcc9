import Verif.Spec.H2Matrix
import Verif.Proof.Desc
import Mathlib.Algebra.BigOperators.Ring.Finset
import Mathlib.Algebra.BigOperators.Group.Finset.Piecewise
import Mathlib.Algebra.BigOperators.Intervals
import Mathlib.Tactic.Ring
import Mathlib.Tactic.Abel

/-! # Lemmas about accumulating updates -/

set_option linter.unusedSectionVars false

namespace H2Pack.MV
open H2Pack.Part (Arr kids ClusterTree)
open Finset (range sum_congr mul_sum sum_mul sum_comm sum_add_distrib sum_range_succ mem_range)

section
variable {K : Type} [CommRing K] {ι : Type} [DecidableEq ι]

theorem addAt_apply (mem : ι → K) (a : ι) (v : K) (l : ι) : addAt mem a v l = mem l + if l = a then v else 0 := by
  unfold addAt
  by_cases h : l = a
  · subst h; simp
  · simp [h]

theorem foldl_adds {α : Type} (f : (ι → K) → α → (ι → K)) (d : α → ι → K) (L : List α)
    (h : ∀ x ∈ L, ∀ mem l, f mem x l = mem l + d x l) (mem : ι → K) (l : ι) :
    L.foldl f mem l = mem l + (L.map fun x => d x l).sum := by
  induction L generalizing mem with
  | nil => simp
  | cons x L ih =>
    simp only [List.foldl_cons, List.map_cons, List.sum_cons]
    rw [ih (fun y hy => h y (List.mem_cons_of_mem _ hy)) (f mem x), h x (List.mem_cons_self) mem l]
    ring

theorem list_sum_range (n : Nat) (f : Nat → K) : ((List.range n).map f).sum = ∑ i ∈ range n, f i := by
  induction n with
  | zero => simp
  | succ n ih => rw [List.range_succ, List.map_append, List.sum_append, ih, sum_range_succ]; simp

theorem list_sum_range' (s n : Nat) (f : Nat → K) : ((List.range' s n).map f).sum = ∑ i ∈ range n, f (s + i) := by
  rw [← list_sum_range, List.range'_eq_map_range, List.map_map]; rfl

theorem foldl_range_adds (n : Nat) (f : (ι → K) → Nat → (ι → K)) (d : Nat → ι → K)
    (h : ∀ x < n, ∀ mem l, f mem x l = mem l + d x l) (mem : ι → K) (l : ι) :
    (List.range n).foldl f mem l = mem l + ∑ i ∈ range n, d i l := by
  rw [foldl_adds f d (List.range n) (fun x hx => h x (List.mem_range.1 hx)) mem l, list_sum_range]

/-- Contribution of row `i` in `CBLAS_BI_GEMV`. -/
def rowD (ncol : Nat) (a : Nat → Nat → K) (x0 x1 : Nat → K) (a0 a1 : Nat → ι) (i : Nat) (l : ι) : K :=
  (if l = a0 i then ∑ j ∈ range ncol, a i j * x0 j else 0) + ∑ j ∈ range ncol, if l = a1 j then a i j * x1 i else 0

theorem biRow1_adds (ncol : Nat) (a : Nat → Nat → K) (x0 x1 : Nat → K) (a0 a1 : Nat → ι) (i : Nat) (mem : ι → K) (l : ι) :
    biRow1 ncol a x0 x1 a0 a1 mem i l = mem l + rowD ncol a x0 x1 a0 a1 i l := by
  have key : ∀ n, (List.range n).foldl (fun (s : K × (ι → K)) j =>
      (s.1 + a i j * x0 j, addAt s.2 (a1 j) (x1 i * a i j))) (0, mem) =
      (∑ j ∈ range n, a i j * x0 j, fun l => mem l + ∑ j ∈ range n, if l = a1 j then a i j * x1 i else 0) := by
    intro n
    induction n with
    | zero => simp
    | succ n ih =>
      rw [List.range_succ, List.foldl_append, ih]
      simp only [List.foldl_cons, List.foldl_nil, sum_range_succ, Prod.mk.injEq, true_and]
      funext l
      rw [addAt_apply]
      split <;> ring
  unfold biRow1
  rw [key, addAt_apply]
  unfold rowD
  dsimp only
  ring

theorem biRow2_adds (ncol : Nat) (a : Nat → Nat → K) (x0 x1 : Nat → K) (a0 a1 : Nat → ι) (i : Nat) (mem : ι → K) (l : ι) :
    biRow2 ncol a x0 x1 a0 a1 mem i l = mem l + (rowD ncol a x0 x1 a0 a1 i l + rowD ncol a x0 x1 a0 a1 (i + 1) l) := by
  have key : ∀ n, (List.range n).foldl (fun (s : K × K × (ι → K)) j =>
      (s.1 + a (i + 0) j * x0 j, s.2.1 + a (i + 1) j * x0 j,
        addAt s.2.2 (a1 j) (x1 (i + 0) * a (i + 0) j + x1 (i + 1) * a (i + 1) j))) (0, 0, mem) =
      (∑ j ∈ range n, a i j * x0 j, ∑ j ∈ range n, a (i + 1) j * x0 j,
        fun l => mem l + ∑ j ∈ range n, if l = a1 j then a i j * x1 i + a (i + 1) j * x1 (i + 1) else 0) := by
    intro n
    induction n with
    | zero => simp
    | succ n ih =>
      rw [List.range_succ, List.foldl_append, ih]
      simp only [List.foldl_cons, List.foldl_nil, sum_range_succ, Prod.mk.injEq, true_and, Nat.add_zero]
      funext l
      rw [addAt_apply]
      split <;> ring
  unfold biRow2
  dsimp only
  rw [key, addAt_apply, addAt_apply]
  unfold rowD
  have e : (∑ j ∈ range ncol, if l = a1 j then a i j * x1 i + a (i + 1) j * x1 (i + 1) else 0) =
      (∑ j ∈ range ncol, if l = a1 j then a i j * x1 i else 0) + ∑ j ∈ range ncol, if l = a1 j then a (i + 1) j * x1 (i + 1) else 0 := by
    rw [← sum_add_distrib]; apply sum_congr rfl; intro j _; split <;> ring
  dsimp only
  rw [e]
  simp only [Nat.add_zero]
  ring

theorem sum_pairs (n : Nat) (f : Nat → K) : ∑ t ∈ range n, (f (2 * t) + f (2 * t + 1)) = ∑ i ∈ range (n * 2), f i := by
  induction n with
  | zero => simp
  | succ n ih =>
    rw [sum_range_succ, ih, show (n + 1) * 2 = n * 2 + 1 + 1 by ring, sum_range_succ, sum_range_succ, show n * 2 = 2 * n by ring]
    ring

theorem sum_split (m n : Nat) (h : m ≤ n) (f : Nat → K) : ∑ i ∈ range m, f i + ∑ t ∈ range (n - m), f (m + t) = ∑ i ∈ range n, f i := by
  rw [← Finset.sum_range_add]
  congr 2
  omega

/-- What `CBLAS_BI_GEMV` adds to the memory. -/
def biD (nrow ncol : Nat) (a : Nat → Nat → K) (x0 x1 : Nat → K) (a0 a1 : Nat → ι) (l : ι) : K :=
  (∑ i ∈ range nrow, if l = a0 i then ∑ j ∈ range ncol, a i j * x0 j else 0) +
  ∑ j ∈ range ncol, if l = a1 j then ∑ i ∈ range nrow, a i j * x1 i else 0

theorem biGemv_adds (nrow ncol : Nat) (a : Nat → Nat → K) (x0 x1 : Nat → K) (a0 a1 : Nat → ι) (mem : ι → K) (l : ι) :
    biGemv nrow ncol a x0 x1 a0 a1 mem l = mem l + biD nrow ncol a x0 x1 a0 a1 l := by
  unfold biGemv
  rw [foldl_range_adds _ (fun mem t => biRow1 ncol a x0 x1 a0 a1 mem (nrow / 2 * 2 + t)) _ (fun t _ => biRow1_adds ncol a x0 x1 a0 a1 (nrow / 2 * 2 + t)) _ l,
    foldl_range_adds _ (fun mem t => biRow2 ncol a x0 x1 a0 a1 mem (2 * t)) _ (fun t _ => biRow2_adds ncol a x0 x1 a0 a1 (2 * t)) _ l,
    sum_pairs (nrow / 2) (fun i => rowD ncol a x0 x1 a0 a1 i l), add_assoc,
    sum_split (nrow / 2 * 2) nrow (by omega) (fun i => rowD ncol a x0 x1 a0 a1 i l)]
  unfold rowD biD
  rw [sum_add_distrib]
  congr 2
  rw [sum_comm]
  apply sum_congr rfl
  intro j _
  split
  · rfl
  · simp

/-! ## Schedules -/

theorem cuts_mono {n nblk : Nat} {blk : Nat → Nat} (h : Cuts n nblk blk) (f : Nat → K) :
    ∀ b ≤ nblk, ∑ t ∈ range b, (∑ i ∈ range (blk (t + 1) - blk t), f (blk t + i)) = ∑ i ∈ range (blk b), f i := by
  intro b
  induction b with
  | zero => intro _; rw [h.1]; simp
  | succ b ih =>
    intro hb
    rw [sum_range_succ, ih (by omega)]
    exact sum_split (blk b) (blk (b + 1)) (h.2.2 b (by omega)) f

/-- All tasks together. -/
theorem sched_sum {n nblk nT : Nat} {blk : Nat → Nat} {s : List (Nat × Nat)} (h : Cuts n nblk blk) (hs : Sched nT nblk s) (f : Nat → K) :
    (s.map fun x => ∑ i ∈ range (blk (x.2 + 1) - blk x.2), f (blk x.2 + i)).sum = ∑ i ∈ range n, f i := by
  have e : (s.map fun x => ∑ i ∈ range (blk (x.2 + 1) - blk x.2), f (blk x.2 + i)) =
      (s.map Prod.snd).map (fun b => ∑ i ∈ range (blk (b + 1) - blk b), f (blk b + i)) := by
    rw [List.map_map]; rfl
  rw [e, (hs.1.map _).sum_eq, list_sum_range, cuts_mono h f nblk (le_refl _), h.2.1]

theorem cuts_lt {n nblk : Nat} {blk : Nat → Nat} (h : Cuts n nblk blk) {b i : Nat} (hb : b < nblk) (hi : i < blk (b + 1)) : i < n := by
  have : ∀ d, b + 1 + d ≤ nblk → blk (b + 1) ≤ blk (b + 1 + d) := by
    intro d
    induction d with
    | zero => intro _; exact le_refl _
    | succ d ih => intro hd; exact le_trans (ih (by omega)) (h.2.2 (b + 1 + d) (by omega))
  have := this (nblk - (b + 1)) (by omega)
  rw [show b + 1 + (nblk - (b + 1)) = nblk by omega, h.2.1] at this
  omega

/-- A schedule of adding tasks, seen through a sum of memory cells to which every task contributes the same
whoever executes it. -/
theorem sched_total {n nblk nT : Nat} {blk : Nat → Nat} {s : List (Nat × Nat)} (h : Cuts n nblk blk) (hs : Sched nT nblk s)
    (f : Nat → (ι → K) → Nat → (ι → K)) (d : Nat → Nat → ι → K)
    (hd : ∀ t < nT, ∀ i < n, ∀ mem l, f t mem i l = mem l + d t i l) {β : Type} (S : Finset β) (A : β → ι) (e : Nat → K)
    (he : ∀ t < nT, ∀ i < n, ∑ b ∈ S, d t i (A b) = e i) (mem : ι → K) :
    ∑ b ∈ S, (s.foldl (fun mem tb => taskBlock blk (f tb.1) mem tb.2) mem) (A b) = ∑ b ∈ S, mem (A b) + ∑ i ∈ range n, e i := by
  rw [← sched_sum h hs e]
  have hb : ∀ x ∈ s, x.1 < nT ∧ x.2 < nblk := by
    intro x hx
    refine ⟨hs.2 x hx, ?_⟩
    have := hs.1.mem_iff.1 (List.mem_map.2 ⟨x, hx, rfl⟩)
    exact List.mem_range.1 this
  clear hs
  induction s generalizing mem with
  | nil => simp
  | cons x s ih =>
    rw [List.foldl_cons, ih _ (fun y hy => hb y (List.mem_cons_of_mem _ hy)), List.map_cons, List.sum_cons, ← add_assoc]
    congr 1
    obtain ⟨h1, h2⟩ := hb x List.mem_cons_self
    unfold taskBlock
    have e1 : ∀ l, (List.range' (blk x.2) (blk (x.2 + 1) - blk x.2)).foldl (f x.1) mem l =
        mem l + ∑ i ∈ range (blk (x.2 + 1) - blk x.2), d x.1 (blk x.2 + i) l := by
      intro l
      rw [foldl_adds (f x.1) (d x.1) _ _ mem l, list_sum_range']
      intro y hy
      rw [List.mem_range'_1] at hy
      exact hd _ h1 _ (cuts_lt h h2 (by omega))
    simp only [e1]
    rw [sum_add_distrib, sum_comm]
    congr 1
    apply sum_congr rfl
    intro i hi
    rw [mem_range] at hi
    exact he _ h1 _ (cuts_lt h h2 (by omega))

/-- A cell no task writes to is unchanged. -/
theorem sched_same {n nblk nT : Nat} {blk : Nat → Nat} {s : List (Nat × Nat)} (h : Cuts n nblk blk) (hs : Sched nT nblk s)
    (f : Nat → (ι → K) → Nat → (ι → K)) (d : Nat → Nat → ι → K)
    (hd : ∀ t < nT, ∀ i < n, ∀ mem l, f t mem i l = mem l + d t i l) (a : ι)
    (he : ∀ t < nT, ∀ i < n, d t i a = 0) (mem : ι → K) :
    (s.foldl (fun mem tb => taskBlock blk (f tb.1) mem tb.2) mem) a = mem a := by
  have := sched_total h hs f d hd (Finset.range 1) (fun _ => a) (fun _ => 0) (by simpa using he) mem
  simpa using this

/-! ## Adding the thread rows -/

theorem mul_add_inj {n a b k c : Nat} (hk : k < n) (hc : c < n) (h : a * n + k = b * n + c) : a = b ∧ k = c := by
  have h1 : (a * n + k) / n = a := by rw [Nat.mul_comm, Nat.mul_add_div (by omega), Nat.div_eq_of_lt hk]; omega
  have h2 : (b * n + c) / n = b := by rw [Nat.mul_comm, Nat.mul_add_div (by omega), Nat.div_eq_of_lt hc]; omega
  rw [h] at h1
  have : a = b := by omega
  subst this
  exact ⟨rfl, by omega⟩

theorem sumRows_inner (ncol j : Nat) (hj : 1 ≤ j) (d : Nat → K) :
    ∀ n ≤ ncol, ∀ k, (List.range n).foldl (fun d k => Function.update d k (d k + d (j * ncol + k))) d k =
      if k < n then d k + d (j * ncol + k) else d k := by
  intro n
  induction n with
  | zero => intro _ k; simp
  | succ n ih =>
    intro hn k
    rw [List.range_succ, List.foldl_append]
    simp only [List.foldl_cons, List.foldl_nil]
    have hge : ¬ j * ncol + n < n := by
      have := Nat.mul_le_mul_right ncol hj; omega
    by_cases hk : k = n
    · subst hk
      rw [Function.update_self, ih (by omega), ih (by omega), if_neg (by omega), if_neg hge, if_pos (by omega)]
    · rw [Function.update_of_ne hk, ih (by omega)]
      by_cases h : k < n
      · rw [if_pos h, if_pos (by omega)]
      · rw [if_neg h, if_neg (by omega)]

theorem sumRows_eq (nT ncol : Nat) (hT : 0 < nT) (d : Nat → K) (k : Nat) (hk : k < ncol) :
    sumRows nT ncol d k = ∑ t ∈ range nT, d (t * ncol + k) := by
  have key : ∀ m, (∀ k < ncol, (List.range' 1 m).foldl (fun d j =>
      (List.range ncol).foldl (fun d k => Function.update d k (d k + d (j * ncol + k))) d) d k = ∑ t ∈ range (m + 1), d (t * ncol + k)) ∧
      ∀ k, ncol ≤ k → (List.range' 1 m).foldl (fun d j =>
        (List.range ncol).foldl (fun d k => Function.update d k (d k + d (j * ncol + k))) d) d k = d k := by
    intro m
    induction m with
    | zero => simp
    | succ m ih =>
      rw [List.range'_concat, Nat.one_mul]
      simp only [List.foldl_append, List.foldl_cons, List.foldl_nil]
      constructor
      · intro k hk
        rw [sumRows_inner ncol (1 + m) (by omega) _ ncol (le_refl _), if_pos hk, ih.1 k hk, ih.2 _ (by
          have := Nat.mul_le_mul_right ncol (show 1 ≤ 1 + m by omega); omega), sum_range_succ _ (m + 1), Nat.add_comm 1 m]
      · intro k hk
        rw [sumRows_inner ncol (1 + m) (by omega) _ ncol (le_refl _), if_neg (by omega), ih.2 k hk]
  unfold sumRows
  rw [(key (nT - 1)).1 k hk, show nT - 1 + 1 = nT by omega]

end
end H2Pack.MV
