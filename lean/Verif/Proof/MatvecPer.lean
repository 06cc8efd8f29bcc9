import Verif.Spec.Periodic
import Verif.Props.Metadata

/-! # Periodic matvec: the calls for one block -/

set_option linter.unusedSectionVars false

namespace H2Pack.MV
open H2Pack.Part (Arr kids ClusterTree)
open Finset (range sum_congr mul_sum sum_mul sum_comm sum_add_distrib sum_range_succ mem_range)

section
variable {K : Type} [CommRing K]

/-! ## Shifted coordinates -/

theorem shiftCoord_eq (nrow n : Nat) (s : Nat → K) (sc : K) (c : Nat → K) {d i : Nat} (hd : d < nrow) (hi : i < n) :
    shiftCoord nrow n n s sc c (d * n + i) = c (d * n + i) + sc * s d := by
  have e : shiftCoord nrow n n s sc c (d * n + i) = c (d * n + i) + ∑ a ∈ range nrow, ∑ j ∈ range n,
      if d * n + i = a * n + j then sc * s a else 0 := foldl2_adds nrow n (fun a j => a * n + j) (fun a _ => sc * s a) c (d * n + i)
  rw [e]
  congr 1
  rw [Finset.sum_eq_single d]
  · rw [Finset.sum_eq_single i]
    · rw [if_pos rfl]
    · intro b _ hb; rw [if_neg (by omega)]
    · intro h; exact absurd (mem_range.2 hi) h
  · intro b _ hb
    apply Finset.sum_eq_zero
    intro j hj
    rw [if_neg]
    intro h
    exact hb (mul_add_inj hi (mem_range.1 hj) h).1.symm
  · intro h; exact absurd (mem_range.2 hd) h

theorem copyMatrix_at (nrow ncol : Nat) (src : Nat → K) (lds : Nat) (dst : Nat → K) {r c : Nat} (hr : r < nrow) (hc : c < ncol) :
    copyMatrix nrow ncol src lds dst ncol (r * ncol + c) = src (r * lds + c) := by
  have key : ∀ m, ∀ r < m, ∀ c < ncol, (List.range m).foldl (fun d r k => if r * ncol ≤ k ∧ k < r * ncol + ncol then src (r * lds + (k - r * ncol)) else d k) dst (r * ncol + c) = src (r * lds + c) := by
    intro m
    induction m with
    | zero => intro r hr; omega
    | succ m ih =>
      intro r hr c hc
      rw [List.range_succ, List.foldl_append]
      simp only [List.foldl_cons, List.foldl_nil]
      by_cases e : r = m
      · subst e
        rw [if_pos ⟨by omega, by omega⟩]
        congr 1; omega
      · have h1 : (r + 1) * ncol ≤ m * ncol := Nat.mul_le_mul_right _ (by omega)
        have h2 : (r + 1) * ncol = r * ncol + ncol := by ring
        rw [if_neg (by omega)]
        exact ih r (by omega) c hc
  exact key nrow r hr c hc

namespace Per
variable {P : Per K}

theorem shifted_point (q : (Nat → K) × Nat × Nat) {s : Nat → K} (hs : ∀ d, P.J.xdim ≤ d → s d = 0) (junk : Nat → K) {i : Nat} (hi : i < q.2.2) :
    point P.J.xdim (P.shifted q s junk).1 (P.shifted q s junk).2.1 i = fun d => point P.J.xdim q.1 q.2.1 i d + s d := by
  funext d
  unfold point
  by_cases hd : d < P.J.xdim
  · rw [if_pos hd, if_pos hd]
    show shiftCoord P.J.xdim q.2.2 q.2.2 s 1 _ (d * q.2.2 + i) = _
    rw [shiftCoord_eq _ _ _ _ _ hd hi, copyMatrix_at _ _ _ _ _ hd hi, one_mul]
  · rw [if_neg hd, if_neg hd, hs d (by omega), zero_add]

/-- The position of entry `c` in the layout used by the kernel matvec. -/
def lay (P : Per K) (ld c : Nat) : Nat := if P.needTrans then c % P.J.R.kdim * ld + c / P.J.R.kdim else c

theorem lay_pt (hk : 0 < P.J.R.kdim) (hm : P.mv ≠ none) (ld : Nat) {i a : Nat} (ha : a < P.J.R.kdim) : P.lay ld (i * P.J.R.kdim + a) = a * ld + i := by
  unfold lay needTrans
  obtain ⟨f, hf⟩ := Option.ne_none_iff_exists'.1 hm
  rw [hf]
  simp only [Option.isSome_some, Bool.true_and, decide_eq_true_eq]
  by_cases hk1 : P.J.R.kdim > 1
  · rw [if_pos hk1, (div_mod_row ha).1, (div_mod_row ha).2]
  · rw [if_neg hk1]
    have h1 : P.J.R.kdim = 1 := by omega
    have h0 : a = 0 := by omega
    rw [h0, h1]; omega

theorem lay_none (hm : P.mv = none) (ld c : Nat) : P.lay ld c = c := by
  unfold lay needTrans; rw [hm]; rfl

theorem lay_inj (hk : 0 < P.J.R.kdim) {ld c c' : Nat} (h : c < ld * P.J.R.kdim) (h' : c' < ld * P.J.R.kdim) : P.lay ld c = P.lay ld c' ↔ c = c' := by
  refine ⟨fun e => ?_, fun e => by rw [e]⟩
  cases hm : P.mv with
  | none => rw [lay_none hm, lay_none hm] at e; exact e
  | some f =>
    obtain ⟨i, hi, a, ha, rfl⟩ := row_split h
    obtain ⟨i', hi', a', ha', rfl⟩ := row_split h'
    rw [lay_pt hk (by rw [hm]; simp) ld ha, lay_pt hk (by rw [hm]; simp) ld ha'] at e
    obtain ⟨e1, e2⟩ := mul_add_inj hi hi' e
    rw [e1, e2]

theorem lay_lt (hk : 0 < P.J.R.kdim) {ld c : Nat} (h : c < ld * P.J.R.kdim) : P.lay ld c < ld * P.J.R.kdim := by
  cases hm : P.mv with
  | none => rw [lay_none hm]; exact h
  | some f =>
    obtain ⟨i, hi, a, ha, rfl⟩ := row_split h
    rw [lay_pt hk (by rw [hm]; simp) ld ha, Nat.mul_comm ld]
    exact row_lt ha hi

/-- What the call for one block adds to the memory. -/
theorem call_adds (hs : 0 < P.J.simd) (hmv : ∀ f, P.mv = some f → MvSpec P.J.simd P.J.xdim P.J.R.kdim P.J.kern f)
    {id nrow ncol : Nat} {p q : (Nat → K) × Nat × Nat} {s junk : Nat → K} (hsh : ∀ d, P.J.xdim ≤ d → s d = 0)
    {xm : Nat → K} {ldi : Nat} {am : Nat → Loc} {ldo : Nat} {xe : Nat → K} {ae : Nat → Loc} (X : Nat → K) (A : Nat → Loc)
    (hnone : P.mv = none → nrow = p.2.2 * P.J.R.kdim ∧ ncol = q.2.2 * P.J.R.kdim ∧ (∀ c < q.2.2 * P.J.R.kdim, xe c = X c) ∧
      ∀ c < p.2.2 * P.J.R.kdim, ae c = A c)
    (hsome : P.mv ≠ none → (∀ b < P.J.R.kdim, ∀ j < q.2.2, xm (b * ldi + j) = X (j * P.J.R.kdim + b)) ∧
      ∀ a < P.J.R.kdim, ∀ i < p.2.2, am (a * ldo + i) = A (i * P.J.R.kdim + a)) (mem : Loc → K) (l : Loc) :
    P.call id nrow ncol p (P.shifted q s junk) xm ldi am ldo xe ae mem l =
      mem l + ∑ c ∈ range (P.block p q s).nrow, if l = A c then ∑ d ∈ range (P.block p q s).ncol, (P.block p q s).e c d * X d else 0 := by
  have hq : (P.shifted q s junk).2.2 = q.2.2 := rfl
  show _ = mem l + ∑ c ∈ range (p.2.2 * P.J.R.kdim), if l = A c then ∑ d ∈ range (q.2.2 * P.J.R.kdim),
    kmat P.J.kern P.J.R.kdim (point P.J.xdim p.1 p.2.1) (fun j d => point P.J.xdim q.1 q.2.1 j d + s d) c d * X d else 0
  unfold call
  cases hm : P.mv with
  | some f =>
    obtain ⟨hx, ha⟩ := hsome (by rw [hm]; simp)
    dsimp only
    rw [extMv_adds hs _ (hmv f hm), sum_rows, sum_comm]
    congr 1
    apply sum_congr rfl; intro i hi
    rw [mem_range] at hi
    apply sum_congr rfl; intro a haa
    rw [mem_range] at haa
    rw [ha a haa i hi]
    split
    · rw [sum_rows, sum_comm]
      apply sum_congr rfl; intro j hj
      rw [mem_range] at hj
      apply sum_congr rfl; intro b hb
      rw [mem_range] at hb
      rw [kmat_at _ _ _ haa hb, shifted_point q hsh junk hj, hx b hb j hj]
    · rfl
  | none =>
    obtain ⟨hr, hc, hx, ha⟩ := hnone hm
    dsimp only
    by_cases h0 : nrow = 0 ∨ ncol = 0
    · rw [if_pos h0]
      rw [hr, hc] at h0
      rcases h0 with h0 | h0 <;> rw [h0] <;> simp
    · rw [if_neg h0, foldl_addAt_range]
      rw [← hr]
      congr 1
      apply sum_congr rfl; intro r hrr
      rw [mem_range] at hrr
      rw [ha r (by omega)]
      split
      · rw [← hc]
        apply sum_congr rfl; intro c hcc
        rw [mem_range] at hcc
        have hcq : c / P.J.R.kdim < q.2.2 := Nat.div_lt_of_lt_mul (by rw [Nat.mul_comm]; omega)
        have hlt : r * ncol + c < nrow * ncol := row_lt hrr hcc
        rw [evalAt_eq P.J p (P.shifted q s junk) 0 ncol (by rw [hq]; exact hc)]
        have e1 : (P.J.block p (P.shifted q s junk)).nrow = nrow := hr.symm
        have e2 : (P.J.block p (P.shifted q s junk)).ncol = ncol := hc.symm
        rw [e1, e2, if_pos ⟨Nat.zero_le _, by omega⟩, Nat.sub_zero, (div_mod_row hcc).1, (div_mod_row hcc).2]
        rw [hx c (by omega)]
        congr 1
        show kmat _ _ _ _ _ _ = _
        unfold kmat
        rw [shifted_point q hsh junk hcq]
      · rfl

end Per
end
end H2Pack.MV
