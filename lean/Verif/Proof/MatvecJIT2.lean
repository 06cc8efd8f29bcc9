import Verif.Proof.MatvecJIT

/-! # Row-blocked evaluation of a kernel block (`H2P_krnl_eval_bimv`), also when the second output overlaps the matrix -/

set_option linter.unusedSectionVars false

namespace H2Pack.MV
open Finset (range sum_congr mul_sum sum_mul sum_comm sum_add_distrib sum_range_succ mem_range)

section
variable {K : Type} [CommRing K] {ι : Type} [DecidableEq ι]

/-- Output 0 is outside the matrix buffer; output `j` of output 1 is outside it or is cell `j` of it. -/
structure Outs (a0 a1 : Nat → ι ⊕ Nat) : Prop where
  out0 : ∀ i, ∃ l, a0 i = .inl l
  out1 : ∀ j, (∃ l, a1 j = .inl l) ∨ a1 j = .inr j

theorem biRow2M_spec {a0 a1 : Nat → ι ⊕ Nat} (h : Outs a0 a1) (ncol : Nat) (x0 x1 : Nat → K) (mem : ι ⊕ Nat → K) (i : Nat) (M : Nat → Nat → K)
    (hM : ∀ j < ncol, mem (.inr (i * ncol + j)) = M i j ∧ mem (.inr ((i + 1) * ncol + j)) = M (i + 1) j) :
    (∀ l, biRow2M ncol Sum.inr x0 x1 a0 a1 mem i (.inl l) = mem (.inl l) +
      (rowD ncol M x0 x1 a0 a1 i (.inl l) + rowD ncol M x0 x1 a0 a1 (i + 1) (.inl l))) ∧
    ∀ k, ncol ≤ k → biRow2M ncol Sum.inr x0 x1 a0 a1 mem i (.inr k) = mem (.inr k) := by
  have key : ∀ n, n ≤ ncol → ∃ m', (List.range n).foldl (fun (s : K × K × (ι ⊕ Nat → K)) j =>
      (s.1 + s.2.2 (Sum.inr ((i + 0) * ncol + j)) * x0 j, s.2.1 + s.2.2 (Sum.inr ((i + 1) * ncol + j)) * x0 j,
        addAt s.2.2 (a1 j) (x1 (i + 0) * s.2.2 (Sum.inr ((i + 0) * ncol + j)) + x1 (i + 1) * s.2.2 (Sum.inr ((i + 1) * ncol + j))))) (0, 0, mem) =
      (∑ j ∈ range n, M i j * x0 j, ∑ j ∈ range n, M (i + 1) j * x0 j, m') ∧
      (∀ l, m' (.inl l) = mem (.inl l) + ∑ j ∈ range n, if .inl l = a1 j then M i j * x1 i + M (i + 1) j * x1 (i + 1) else 0) ∧
      ∀ k, n ≤ k → m' (.inr k) = mem (.inr k) := by
    intro n
    induction n with
    | zero => intro _; exact ⟨mem, by simp, by simp, fun _ _ => rfl⟩
    | succ n ih =>
      intro hn
      obtain ⟨m', e, i1, i2⟩ := ih (by omega)
      have r0 : m' (.inr ((i + 0) * ncol + n)) = M i n := by
        rw [i2 _ (by omega), Nat.add_zero]; exact (hM n (by omega)).1
      have r1 : m' (.inr ((i + 1) * ncol + n)) = M (i + 1) n := by
        rw [i2 _ (by omega)]; exact (hM n (by omega)).2
      refine ⟨addAt m' (a1 n) (x1 (i + 0) * M i n + x1 (i + 1) * M (i + 1) n), ?_, ?_, ?_⟩
      · rw [List.range_succ, List.foldl_append, e]
        simp only [List.foldl_cons, List.foldl_nil, sum_range_succ]
        rw [r0, r1]
      · intro l
        rw [addAt_apply, i1, sum_range_succ, Nat.add_zero, add_assoc]
        congr 2
        split
        · ring
        · rfl
      · intro k hk
        rw [addAt_apply, i2 k (by omega), if_neg, add_zero]
        rcases h.out1 n with ⟨l, hl⟩ | hl
        · rw [hl]; simp
        · rw [hl]; simp; omega
  obtain ⟨m', e, i1, i2⟩ := key ncol (le_refl _)
  unfold biRow2M
  dsimp only
  rw [e]
  constructor
  · intro l
    rw [addAt_apply, addAt_apply]
    dsimp only
    rw [i1]
    unfold rowD
    have e2 : (∑ j ∈ range ncol, if Sum.inl l = a1 j then M i j * x1 i + M (i + 1) j * x1 (i + 1) else 0) =
        (∑ j ∈ range ncol, if Sum.inl l = a1 j then M i j * x1 i else 0) + ∑ j ∈ range ncol, if Sum.inl l = a1 j then M (i + 1) j * x1 (i + 1) else 0 := by
      rw [← sum_add_distrib]; apply sum_congr rfl; intro j _; split <;> ring
    rw [e2]
    simp only [Nat.add_zero]
    ring
  · intro k hk
    obtain ⟨l0, h0⟩ := h.out0 (i + 0)
    obtain ⟨l1, h1⟩ := h.out0 (i + 1)
    rw [addAt_apply, addAt_apply, h0, h1]
    simp [i2 k hk]

theorem biRow1M_spec {a0 a1 : Nat → ι ⊕ Nat} (h : Outs a0 a1) (ncol : Nat) (x0 x1 : Nat → K) (mem : ι ⊕ Nat → K) (i : Nat) (M : Nat → Nat → K)
    (hM : ∀ j < ncol, mem (.inr (i * ncol + j)) = M i j) :
    (∀ l, biRow1M ncol Sum.inr x0 x1 a0 a1 mem i (.inl l) = mem (.inl l) + rowD ncol M x0 x1 a0 a1 i (.inl l)) := by
  have key : ∀ n, n ≤ ncol → ∃ m', (List.range n).foldl (fun (s : K × (ι ⊕ Nat → K)) j =>
      (s.1 + s.2 (Sum.inr (i * ncol + j)) * x0 j, addAt s.2 (a1 j) (x1 i * s.2 (Sum.inr (i * ncol + j))))) (0, mem) =
      (∑ j ∈ range n, M i j * x0 j, m') ∧
      (∀ l, m' (.inl l) = mem (.inl l) + ∑ j ∈ range n, if .inl l = a1 j then M i j * x1 i else 0) ∧
      ∀ k, n ≤ k → m' (.inr k) = mem (.inr k) := by
    intro n
    induction n with
    | zero => intro _; exact ⟨mem, by simp, by simp, fun _ _ => rfl⟩
    | succ n ih =>
      intro hn
      obtain ⟨m', e, i1, i2⟩ := ih (by omega)
      have r0 : m' (.inr (i * ncol + n)) = M i n := by
        rw [i2 _ (by omega)]; exact hM n (by omega)
      refine ⟨addAt m' (a1 n) (x1 i * M i n), ?_, ?_, ?_⟩
      · rw [List.range_succ, List.foldl_append, e]
        simp only [List.foldl_cons, List.foldl_nil, sum_range_succ]
        rw [r0]
      · intro l
        rw [addAt_apply, i1, sum_range_succ]
        split <;> ring
      · intro k hk
        rw [addAt_apply, i2 k (by omega), if_neg, add_zero]
        rcases h.out1 n with ⟨l, hl⟩ | hl
        · rw [hl]; simp
        · rw [hl]; simp; omega
  obtain ⟨m', e, i1, i2⟩ := key ncol (le_refl _)
  intro l
  unfold biRow1M
  rw [e, addAt_apply]
  dsimp only
  rw [i1]
  unfold rowD
  ring

theorem biGemvM_spec {a0 a1 : Nat → ι ⊕ Nat} (h : Outs a0 a1) (nrow ncol : Nat) (x0 x1 : Nat → K) (mem : ι ⊕ Nat → K) (M : Nat → Nat → K)
    (hM : ∀ i < nrow, ∀ j < ncol, mem (.inr (i * ncol + j)) = M i j) (l : ι) :
    biGemvM nrow ncol Sum.inr x0 x1 a0 a1 mem (.inl l) = mem (.inl l) + biD nrow ncol M x0 x1 a0 a1 (.inl l) := by
  have key : ∀ n, 2 * n ≤ nrow → 
      (∀ l, (List.range n).foldl (fun mem t => biRow2M ncol Sum.inr x0 x1 a0 a1 mem (2 * t)) mem (.inl l) = mem (.inl l) +
        ∑ t ∈ range n, (rowD ncol M x0 x1 a0 a1 (2 * t) (.inl l) + rowD ncol M x0 x1 a0 a1 (2 * t + 1) (.inl l))) ∧
      ∀ i, 2 * n ≤ i → i < nrow → ∀ j < ncol, (List.range n).foldl (fun mem t => biRow2M ncol Sum.inr x0 x1 a0 a1 mem (2 * t)) mem (.inr (i * ncol + j)) = M i j := by
    intro n
    induction n with
    | zero => intro _; exact ⟨fun l => by simp, fun i _ hi j hj => hM i hi j hj⟩
    | succ n ih =>
      intro hn
      obtain ⟨i1, i2⟩ := ih (by omega)
      have q := biRow2M_spec h ncol x0 x1 ((List.range n).foldl (fun mem t => biRow2M ncol Sum.inr x0 x1 a0 a1 mem (2 * t)) mem) (2 * n) M
        (fun j hj => ⟨i2 _ (by omega) (by omega) j hj, i2 _ (by omega) (by omega) j hj⟩)
      simp only [List.range_succ, List.foldl_append, List.foldl_cons, List.foldl_nil]
      refine ⟨fun l => ?_, fun i h1 h2 j hj => ?_⟩
      · rw [q.1, i1, sum_range_succ, add_assoc]
      · rw [q.2, i2 i (by omega) h2 j hj]
        have := Nat.mul_le_mul_right ncol (show 1 ≤ i by omega)
        omega
  obtain ⟨k1, k2⟩ := key (nrow / 2) (by omega)
  have fin : ∀ m0 : ι ⊕ Nat → K, (∀ i, nrow / 2 * 2 ≤ i → i < nrow → ∀ j < ncol, m0 (.inr (i * ncol + j)) = M i j) →
      (List.range (nrow - nrow / 2 * 2)).foldl (fun mem t => biRow1M ncol Sum.inr x0 x1 a0 a1 mem (nrow / 2 * 2 + t)) m0 (.inl l) =
      m0 (.inl l) + ∑ t ∈ range (nrow - nrow / 2 * 2), rowD ncol M x0 x1 a0 a1 (nrow / 2 * 2 + t) (.inl l) := by
    intro m0 hm
    have hc : nrow - nrow / 2 * 2 = 0 ∨ nrow - nrow / 2 * 2 = 1 := by omega
    rcases hc with hc | hc
    · rw [hc]; simp
    · rw [hc]
      simp only [List.range_one, List.foldl_cons, List.foldl_nil, Finset.sum_range_one, Nat.add_zero]
      exact biRow1M_spec h ncol x0 x1 m0 _ M (fun j hj => hm _ (le_refl _) (by omega) j hj) l
  unfold biGemvM
  rw [fin _ (fun i h1 h2 j hj => k2 i (by omega) h2 j hj), k1, sum_pairs (nrow / 2) (fun i => rowD ncol M x0 x1 a0 a1 i (.inl l)), add_assoc,
    sum_split (nrow / 2 * 2) nrow (by omega) (fun i => rowD ncol M x0 x1 a0 a1 i (.inl l))]
  unfold rowD biD
  rw [sum_add_distrib]
  congr 2
  rw [sum_comm]
  apply sum_congr rfl
  intro j _
  split
  · rfl
  · simp

theorem biD_split (m n ncol : Nat) (a : Nat → Nat → K) (x0 x1 : Nat → K) (a0 a1 : Nat → ι) (l : ι) :
    biD (m + n) ncol a x0 x1 a0 a1 l = biD m ncol a x0 x1 a0 a1 l +
      biD n ncol (fun i j => a (m + i) j) x0 (fun k => x1 (m + k)) (fun k => a0 (m + k)) a1 l := by
  unfold biD
  rw [Finset.sum_range_add]
  have : (∑ j ∈ range ncol, if l = a1 j then ∑ i ∈ range (m + n), a i j * x1 i else 0) =
      (∑ j ∈ range ncol, if l = a1 j then ∑ i ∈ range m, a i j * x1 i else 0) +
      ∑ j ∈ range ncol, if l = a1 j then ∑ i ∈ range n, a (m + i) j * x1 (m + i) else 0 := by
    rw [← sum_add_distrib]
    apply sum_congr rfl; intro j _
    split
    · rw [Finset.sum_range_add]
    · ring
  rw [this]; ring

theorem kmat_shift (kern : (Nat → K) → (Nat → K) → Nat → Nat → K) {kd : Nat} (hk : 0 < kd) (p0 p1 : Nat → Nat → K) (s r c : Nat) :
    kmat kern kd (fun i => p0 (s + i)) p1 r c = kmat kern kd p0 p1 (s * kd + r) c := by
  unfold kmat
  rw [Nat.mul_comm s kd, Nat.mul_add_div hk, Nat.mul_add_mod]

theorem biD_mat_congr {m n : Nat} {a a' : Nat → Nat → K} (h : ∀ i < m, ∀ j < n, a i j = a' i j) (x0 x1 : Nat → K) (a0 a1 : Nat → ι) (l : ι) :
    biD m n a x0 x1 a0 a1 l = biD m n a' x0 x1 a0 a1 l := by
  unfold biD
  congr 1
  · apply sum_congr rfl; intro i hi
    split
    · apply sum_congr rfl; intro j hj; rw [h i (mem_range.1 hi) j (mem_range.1 hj)]
    · rfl
  · apply sum_congr rfl; intro j hj
    split
    · apply sum_congr rfl; intro i hi; rw [h i (mem_range.1 hi) j (mem_range.1 hj)]
    · rfl

/-- `H2P_krnl_eval_bimv` adds the products with the whole block. -/
theorem evalBimv_spec (kern : (Nat → K) → (Nat → K) → Nat → Nat → K) {kd n0 n1 blk : Nat} (hk : 0 < kd) (hb : 0 < blk)
    (p0 p1 : Nat → Nat → K) (x0 x1 : Nat → K) {a0 a1 : Nat → ι ⊕ Nat} (h : Outs a0 a1) :
    ∀ (fuel s : Nat) (mem : ι ⊕ Nat → K), n0 - s < fuel → ∃ m, evalBimv kern kd n0 n1 blk p0 p1 x0 x1 a0 a1 fuel s mem = .ok m ∧
      ∀ l, m (.inl l) = mem (.inl l) + biD ((n0 - s) * kd) (n1 * kd) (fun r c => kmat kern kd p0 p1 (s * kd + r) c) x0
        (fun k => x1 (s * kd + k)) (fun k => a0 (s * kd + k)) a1 (.inl l) := by
  intro fuel
  induction fuel with
  | zero => intro s mem hf; omega
  | succ fuel ih =>
    intro s mem hf
    unfold evalBimv
    by_cases hs : s < n0
    · rw [if_pos hs]
      dsimp only
      generalize hnpt : (if s + blk > n0 then n0 - s else blk) = npt
      have hn : npt = min blk (n0 - s) := by rw [← hnpt]; split <;> omega
      obtain ⟨m, e, hm⟩ := ih (s + blk) (biGemvM (npt * kd) (n1 * kd) Sum.inr x0 (fun k => x1 (s * kd + k)) (fun k => a0 (s * kd + k)) a1
        (krnlEval kern kd npt n1 (fun i => p0 (s + i)) p1 mem)) (by omega)
      refine ⟨m, e, fun l => ?_⟩
      rw [hm l]
      have ho : Outs (fun k => a0 (s * kd + k)) a1 := ⟨fun i => h.out0 _, h.out1⟩
      rw [biGemvM_spec ho (npt * kd) (n1 * kd) x0 (fun k => x1 (s * kd + k)) _ (fun r c => kmat kern kd p0 p1 (s * kd + r) c)]
      · have hl : krnlEval kern kd npt n1 (fun i => p0 (s + i)) p1 mem (.inl l) = mem (.inl l) := rfl
        rw [hl, add_assoc]
        congr 1
        have e1 : (n0 - s) * kd = npt * kd + (n0 - (s + blk)) * kd := by rw [← Nat.add_mul]; congr 1; omega
        rw [e1, biD_split]
        congr 1
        by_cases hle : s + blk ≤ n0
        · have : npt = blk := by omega
          rw [this]
          congr 1
          · funext r c; congr 1; ring
          · funext k; congr 1; ring
          · funext k; congr 1; ring
        · have : n0 - (s + blk) = 0 := by omega
          rw [this]; simp [biD]
      · intro i hi j hj
        unfold krnlEval
        dsimp only
        have hlt : i * (n1 * kd) + j < npt * kd * (n1 * kd) := idx_lt hi hj
        rw [if_pos hlt, kmat_shift kern hk]
        rw [Nat.mul_comm i, Nat.mul_add_div (by omega), Nat.div_eq_of_lt hj, Nat.mul_add_mod, Nat.mod_eq_of_lt hj, Nat.add_zero]
    · rw [if_neg hs]
      refine ⟨mem, rfl, fun l => ?_⟩
      have : n0 - s = 0 := by omega
      rw [this]; simp [biD]

/-- With row-block size zero the loop never ends. -/
theorem evalBimv_diverges (kern : (Nat → K) → (Nat → K) → Nat → Nat → K) {kd n0 n1 : Nat} (hn : 0 < n0)
    (p0 p1 : Nat → Nat → K) (x0 x1 : Nat → K) (a0 a1 : Nat → ι ⊕ Nat) :
    ∀ fuel mem, evalBimv kern kd n0 n1 0 p0 p1 x0 x1 a0 a1 fuel 0 mem = .diverge := by
  intro fuel
  induction fuel with
  | zero => intro mem; rfl
  | succ fuel ih =>
    intro mem
    unfold evalBimv
    rw [if_pos hn]
    exact ih _

/-! ## Folds of tasks that cannot fail -/

theorem foldlM_ok {α σ : Type} (f : σ → α → Res σ) (g : σ → α → σ) (L : List α) (h : ∀ x ∈ L, ∀ s, f s x = .ok (g s x)) (s : σ) :
    L.foldlM f s = .ok (L.foldl g s) := by
  induction L generalizing s with
  | nil => rfl
  | cons x L ih =>
    rw [List.foldlM_cons, h x List.mem_cons_self, Res.bind_ok, ih (fun y hy => h y (List.mem_cons_of_mem _ hy)), List.foldl_cons]

theorem foldlM_ok' {α σ : Type} (f : σ → α → Res σ) (g : σ → α → σ) (L : List α) (P : σ → Prop) (hP : ∀ x ∈ L, ∀ s, P s → P (g s x))
    (h : ∀ x ∈ L, ∀ s, P s → f s x = .ok (g s x)) (s : σ) (hs : P s) :
    L.foldlM f s = .ok (L.foldl g s) := by
  induction L generalizing s with
  | nil => rfl
  | cons x L ih =>
    rw [List.foldlM_cons, h x List.mem_cons_self s hs, Res.bind_ok, ih (fun y hy => hP y (List.mem_cons_of_mem _ hy))
      (fun y hy => h y (List.mem_cons_of_mem _ hy)) _ (hP x List.mem_cons_self s hs), List.foldl_cons]

end
end H2Pack.MV
