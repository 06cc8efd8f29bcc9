import Verif.Proof.CSRPlus3
import Mathlib.Algebra.Field.Rat
import Mathlib.Tactic.IntervalCases

/-!
# Parallel product of a sparse matrix and a vector (C96, C97)
-/

namespace H2Pack.CSRP
open Finset
open H2Pack.CSR (Mat COO cooToCSR)

variable {K : Type} [Field K]

theorem Desc.congr {nrow : Nat} {rp rq : Nat → Nat} (h : ∀ i ≤ nrow, rp i = rq i) {s t L : Nat} {B : Blk} (D : Desc nrow rp s t L B) : Desc nrow rq s t L B := by
  have h1 := D.range.le
  have h2 := D.range.lt
  have e1 := h B.first (by omega)
  have e2 := h (B.first + 1) (by omega)
  have e3 := h L (by omega)
  have e4 := h (L + 1) (by omega)
  have e5 := h nrow (le_refl _)
  have r := D.range
  refine ⟨⟨h1, h2, e1 ▸ r.first, fun j hj => h j (by omega) ▸ r.before j hj, e1 ▸ e2 ▸ r.start, e3 ▸ r.last, e4 ▸ r.stop⟩, D.pos, e5 ▸ D.top, D.spos, D.epos,
    e5 ▸ D.last, e1 ▸ D.fr, e4 ▸ D.lr⟩

theorem partition_spec {nrow nblk : Nat} {rp : Nat → Nat} (R : Rows nrow rp) (hb : 1 ≤ nblk) (hn : nblk ≤ rp nrow) (d0 : Nat → Nat) :
    ∃ P D L, Returns (partition nrow rp nblk d0) P ∧ Parts nrow nblk rp D L P := by
  have hD := partEqual_spec (rp nrow) nblk hb d0
  have hq : 1 ≤ rp nrow / nblk := Nat.div_pos hn hb
  have hlt : ∀ i < nblk, partEqual (rp nrow) nblk d0 i < partEqual (rp nrow) nblk d0 (i + 1) := by
    intro i hi
    rw [hD i (by omega), hD (i + 1) (by omega), Nat.add_mul, Nat.one_mul]
    omega
  have hstop : partEqual (rp nrow) nblk d0 nblk = rp nrow := by
    rw [hD nblk (le_refl _), Nat.min_eq_right (Nat.mod_lt _ hb).le]
    exact Nat.div_add_mod _ _
  have hstart : partEqual (rp nrow) nblk d0 0 = 0 := by rw [hD 0 (by omega)]; simp
  have hpart : partition nrow rp nblk d0 = fun fuel => (do
      let bs ← collect (fun i => partBlock nrow rp (partEqual (rp nrow) nblk d0 i) ((partEqual (rp nrow) nblk d0 (i + 1) : Int) - 1) fuel) (List.range nblk)
      .ok fun i => if i = nblk - 1 then { bs.getD i default with last := nrow - 1, epos := (rp nrow : Int) - 1 } else bs.getD i default) := by
    funext fuel
    unfold partition
    rw [if_neg (by omega)]
  rw [hpart]
  generalize partEqual (rp nrow) nblk d0 = D at *
  have hmono : ∀ i j, i ≤ j → j ≤ nblk → D i ≤ D j := by
    intro i j h1 h2
    obtain ⟨k, rfl⟩ := Nat.exists_eq_add_of_le h1
    clear h1
    induction k with
    | zero => exact le_refl _
    | succ k ih => exact (ih (by omega)).trans (hlt (i + k) (by omega)).le
  have hblk : ∀ i, ∃ FL : Nat × Nat, i < nblk → Range nrow rp (D i) (D (i + 1)) FL.1 FL.2 ∧ ∀ fuel, nrow ≤ fuel → partBlock nrow rp (D i) ((D (i + 1) : Int) - 1) fuel =
      .ok ⟨D i, (D (i + 1) : Int) - 1, FL.1, FL.2, if FL.1 < FL.2 ∧ D i = rp FL.1 then 1 else 0, if FL.1 < FL.2 then (if D (i + 1) = rp (FL.2 + 1) then 1 else 0) else -1⟩ := by
    intro i
    by_cases hi : i < nblk
    · obtain ⟨F, L, h⟩ := partBlock_spec R (hlt i hi) (hstop ▸ hmono (i + 1) nblk hi (le_refl _))
      exact ⟨(F, L), fun _ => h⟩
    · exact ⟨(0, 0), fun h => absurd h hi⟩
  choose FL hFL using hblk
  refine ⟨fun i => if i < nblk then ⟨D i, (D (i + 1) : Int) - 1, (FL i).1, if D (i + 1) = rp nrow then nrow - 1 else (FL i).2,
      if (FL i).1 < (FL i).2 ∧ D i = rp (FL i).1 then 1 else 0, if (FL i).1 < (FL i).2 then (if D (i + 1) = rp ((FL i).2 + 1) then 1 else 0) else -1⟩ else
        (if i = nblk - 1 then { (default : Blk) with last := nrow - 1, epos := (rp nrow : Int) - 1 } else default), D, fun i => (FL i).2,
      ⟨nrow, fun fuel hf => ?_⟩, ⟨R, hb, hstart, hstop, hmono, fun i hi => ?_⟩⟩
  · dsimp only
    rw [collect_ok (List.range nblk) fun i hi => (hFL i (List.mem_range.1 hi)).2 fuel hf]
    simp only [Res.bind_ok]
    congr 1
    funext i
    by_cases hi : i < nblk
    · rw [if_pos hi]
      have : ((List.range nblk).map fun i => (⟨D i, (D (i + 1) : Int) - 1, (FL i).1, (FL i).2, if (FL i).1 < (FL i).2 ∧ D i = rp (FL i).1 then 1 else 0,
          if (FL i).1 < (FL i).2 then (if D (i + 1) = rp ((FL i).2 + 1) then 1 else 0) else -1⟩ : Blk)).getD i default =
          ⟨D i, (D (i + 1) : Int) - 1, (FL i).1, (FL i).2, if (FL i).1 < (FL i).2 ∧ D i = rp (FL i).1 then 1 else 0,
            if (FL i).1 < (FL i).2 then (if D (i + 1) = rp ((FL i).2 + 1) then 1 else 0) else -1⟩ := by
        rw [List.getD_eq_getElem?_getD]
        simp [hi]
      rw [this]
      by_cases hl : i = nblk - 1
      · have : D (i + 1) = rp nrow := by rw [hl, show nblk - 1 + 1 = nblk by omega, hstop]
        rw [if_pos hl, if_pos this, this]
      · have h1 := hmono (i + 2) nblk (by omega) (le_refl _)
        have h2 := hlt (i + 1) (by omega)
        have h3 : ¬ D (i + 1) = rp nrow := by
          have : D (i + 2) = D (i + 1 + 1) := rfl
          omega
        rw [if_neg hl, if_neg h3]
    · rw [if_neg hi, List.getD_eq_getElem?_getD, List.getElem?_eq_none (by simp; omega)]
      rfl
  · dsimp only
    rw [if_pos hi]
    obtain ⟨r, -⟩ := hFL i hi
    refine ⟨r, hlt i hi, hstop ▸ hmono (i + 1) nblk hi (le_refl _), rfl, rfl, rfl, ?_, ?_⟩
    · dsimp only
      by_cases h : (FL i).1 < (FL i).2 ∧ D i = rp (FL i).1
      · rw [if_pos h]; exact ⟨fun e => absurd e (by decide), fun e => absurd h e⟩
      · rw [if_neg h]; exact ⟨fun _ => h, fun _ => rfl⟩
    · dsimp only
      by_cases h : (FL i).1 < (FL i).2
      · rw [if_pos h]
        by_cases h2 : D (i + 1) = rp ((FL i).2 + 1)
        · rw [if_pos h2]; exact ⟨fun e => absurd e (by decide), fun e => absurd h2 e.2⟩
        · rw [if_neg h2]; exact ⟨fun _ => ⟨h, h2⟩, fun _ => rfl⟩
      · rw [if_neg h]; exact ⟨fun e => absurd e (by decide), fun e => absurd e.1 h⟩

omit [Field K] in
theorem optimize_spec (nrow : Nat) (M : Mat K) (P : Nat → Blk) (J : Mat K) : ∀ order : List Nat,
    (∀ i ≤ nrow, (optimize nrow M P order J).rp i = M.rp i) ∧
    ∀ k : Nat, (∃ i ∈ order, (P i).spos ≤ (k : Int) ∧ (k : Int) ≤ (P i).epos) → (optimize nrow M P order J).col k = M.col k ∧ (optimize nrow M P order J).val k = M.val k := by
  intro order
  unfold optimize
  induction order using List.reverseRecOn with
  | nil =>
    refine ⟨fun i hi => ?_, fun k ⟨i, hi, _⟩ => absurd hi (by simp)⟩
    exact if_pos (by omega)
  | append_singleton l a ih =>
    obtain ⟨i1, i2⟩ := ih
    rw [List.foldl_append, List.foldl_cons, List.foldl_nil]
    refine ⟨i1, fun k ⟨i, hi, hk⟩ => ?_⟩
    dsimp only
    by_cases ha : (P a).spos ≤ (k : Int) ∧ (k : Int) ≤ (P a).epos
    · rw [if_pos ha, if_pos ha]; exact ⟨rfl, rfl⟩
    · rw [if_neg ha, if_neg ha]
      refine i2 k ⟨i, ?_, hk⟩
      rcases List.mem_append.1 hi with hi | hi
      · exact hi
      · rw [List.mem_singleton] at hi
        subst hi
        exact absurd hk ha

theorem Parts.mem {nrow nblk : Nat} {rp D L : Nat → Nat} {P : Nat → Blk} (H : Parts nrow nblk rp D L P) {k : Nat} (hk : k < rp nrow) :
    ∃ i < nblk, (P i).spos ≤ (k : Int) ∧ (k : Int) ≤ (P i).epos := by
  have : ∀ n ≤ nblk, k < D n → ∃ i < nblk, D i ≤ k ∧ k < D (i + 1) := by
    intro n
    induction n with
    | zero => intro _ h; rw [H.start] at h; omega
    | succ n ih =>
      intro hn h
      by_cases hc : k < D n
      · exact ih (by omega) hc
      · exact ⟨n, by omega, by omega, h⟩
  obtain ⟨i, hi, h1, h2⟩ := this nblk (le_refl _) (by rw [H.stop]; exact hk)
  have d := H.desc i hi
  exact ⟨i, hi, by rw [d.spos]; omega, by rw [d.epos]; omega⟩

theorem sum_list (f : Nat → K) (n : Nat) : ((List.range n).map f).sum = ∑ k ∈ range n, f k := by
  induction n with
  | zero => simp
  | succ n ih => rw [List.range_succ, List.map_append, List.sum_append, ih, sum_range_succ]; simp

theorem sum_coo {A : COO K} {M : Mat K} (r : Nat) (hp : (M.rowEntries r).Perm (A.rowEntries r)) (x : Nat → K) :
    ∑ k ∈ Ico (M.rp r) (M.rp (r + 1)), prod M x k = ∑ k ∈ range A.nnz, if A.row k = r then A.val k * x (A.col k).toNat else 0 := by
  have e1 : ∑ k ∈ Ico (M.rp r) (M.rp (r + 1)), prod M x k = ((M.rowEntries r).map fun e => e.2 * x e.1.toNat).sum := by
    unfold Mat.rowEntries
    rw [List.map_map, Finset.sum_Ico_eq_sum_range, List.range'_eq_map_range, List.map_map, sum_list]
    rfl
  have e2 : ((A.rowEntries r).map fun e => e.2 * x e.1.toNat).sum = ∑ k ∈ range A.nnz, if A.row k = r then A.val k * x (A.col k).toNat else 0 := by
    unfold COO.rowEntries
    rw [List.map_map, ← sum_list]
    generalize List.range A.nnz = l
    induction l with
    | nil => rfl
    | cons a l ih =>
      rw [List.filter_cons]
      by_cases h : A.row a = r
      · simp [h, ih]
      · simp [h, ih]
  rw [e1, (hp.map _).sum_eq, e2]

/-- **C96**.  For every matrix in coordinate format with at least one entry, every number of blocks between 1 and the number of entries, every order of the
parallel iterations and every previous contents of the arrays, the conversion and the partition terminate without undefined behaviour, and so does the
product with every vector, with the arrays as they are or copied by `CSRP_optimize_NUMA`; whatever the order in which the writes of the threads reach the
memory, the result is the product with the matrix (entries with the same position are added), and nothing after the result is changed. -/
theorem C96_parallel_spmv (A : COO K) (hrow : ∀ k < A.nnz, A.row k < A.nrow) (nblk : Nat) (hb : 1 ≤ nblk) (hn : nblk ≤ A.nnz)
    (col0 : Nat → Int) (val0 : Nat → K) (d0 : Nat → Nat) (order : List Nat) (ho : order.Perm (List.range A.nrow)) :
    ∃ M P, Returns (cooToCSR A col0 val0 order) M ∧ Returns (partition A.nrow M.rp nblk d0) P ∧
      ∀ M', (M' = M ∨ ∃ (order : List Nat) (J : Mat K), order.Perm (List.range nblk) ∧ M' = optimize A.nrow M P order J) →
        ∀ (x fr0 lr0 y0 : Nat → K) (merge : List (List (Nat × K)) → List (Nat × K)), (∀ l, (merge l).Perm l.flatten) →
          ∃ y, spmv A.nrow nblk M' P x merge fr0 lr0 y0 = .ok y ∧
            (∀ i < A.nrow, y i = ∑ k ∈ range A.nnz, if A.row k = i then A.val k * x (A.col k).toNat else 0) ∧ ∀ i, A.nrow ≤ i → y i = y0 i := by
  obtain ⟨M, hM, m0, m1, m2, m3⟩ := H2Pack.CSR.C04_coo_to_csr A hrow (by omega) col0 val0 order ho
  have R : Rows A.nrow M.rp := ⟨m0, m2⟩
  obtain ⟨P, D, L, hP, H⟩ := partition_spec R hb (by omega) d0
  refine ⟨M, P, hM, hP, fun M' hM' x fr0 lr0 y0 merge hm => ?_⟩
  obtain ⟨a1, a2⟩ : (∀ i ≤ A.nrow, M'.rp i = M.rp i) ∧ ∀ k < M.rp A.nrow, M'.col k = M.col k ∧ M'.val k = M.val k := by
    rcases hM' with rfl | ⟨od, J, hod, rfl⟩
    · exact ⟨fun _ _ => rfl, fun _ _ => ⟨rfl, rfl⟩⟩
    · obtain ⟨b1, b2⟩ := optimize_spec A.nrow M P J od
      refine ⟨b1, fun k hk => b2 k ?_⟩
      obtain ⟨i, hi, h⟩ := H.mem hk
      exact ⟨i, hod.mem_iff.2 (List.mem_range.2 hi), h⟩
  have H' : Parts A.nrow nblk M'.rp D L P := by
    refine ⟨⟨(a1 0 (by omega)).trans m0, fun i j h1 h2 => by rw [a1 i (by omega), a1 j h2]; exact m2 i j h1 h2⟩, hb, H.start, H.stop.trans (a1 _ (le_refl _)).symm,
      H.mono, fun i hi => (H.desc i hi).congr fun j hj => (a1 j hj).symm⟩
  obtain ⟨y, hy, y1, y2⟩ := H'.spmv x merge hm fr0 lr0 y0
  refine ⟨y, hy, fun i hi => ?_, y2⟩
  rw [y1 i hi, a1 i (by omega), a1 (i + 1) (by omega), ← sum_coo i (m3 i hi).1 x]
  refine Finset.sum_congr rfl fun k hk => ?_
  have hk := (Finset.mem_Ico.1 hk).2
  have := m2 (i + 1) A.nrow (by omega) (le_refl _)
  obtain ⟨c1, c2⟩ := a2 k (by omega)
  unfold prod
  rw [c1, c2]

theorem skip_lt {nrow : Nat} {rp : Nat → Nat} : ∀ (fuel e L : Nat), skipEmpty nrow rp fuel e = .ok L → L < nrow := by
  intro fuel
  induction fuel with
  | zero => intro e L h; cases h
  | succ f ih =>
    intro e L h
    unfold skipEmpty at h
    by_cases h1 : nrow < e + 1
    · rw [if_pos h1] at h; cases h
    · rw [if_neg h1] at h
      by_cases h2 : rp e = rp (e + 1)
      · rw [if_pos h2] at h; exact ih _ _ h
      · rw [if_neg h2] at h
        cases h; omega

theorem collect_inv {α : Type} {f : Nat → Res α} : ∀ (l : List Nat) (bs : List α), collect f l = .ok bs → ∀ (i a : Nat), l[i]? = some a → ∃ b, f a = .ok b ∧ bs[i]? = some b
  | [], _, _, i, a, ha => by simp at ha
  | c :: l, bs, h, i, a, ha => by
    unfold collect at h
    cases hc : f c with
    | ub => rw [hc] at h; cases h
    | diverge => rw [hc] at h; cases h
    | ok b =>
      rw [hc] at h
      simp only [Res.bind_ok] at h
      cases hl : collect f l with
      | ub => rw [hl] at h; cases h
      | diverge => rw [hl] at h; cases h
      | ok bs' =>
        rw [hl] at h
        simp only [Res.bind_ok] at h
        cases h
        rcases i with _ | i
        · simp only [List.getElem?_cons_zero, Option.some.injEq] at ha
          subst ha
          exact ⟨b, hc, rfl⟩
        · exact collect_inv l bs' hl i a (by simpa using ha)

theorem collect_ub {α : Type} {f : Nat → Res α} : ∀ l : List Nat, (∀ i ∈ l, f i ≠ .diverge) → (∃ i ∈ l, f i = .ub) → collect f l = .ub
  | [], _, h => by obtain ⟨i, hi, _⟩ := h; simp at hi
  | c :: l, hd, h => by
    unfold collect
    cases hc : f c with
    | ub => rfl
    | diverge => exact absurd hc (hd c (by simp))
    | ok b =>
      simp only [Res.bind_ok]
      rw [collect_ub l (fun i hi => hd i (by simp [hi]))]
      · rfl
      · obtain ⟨i, hi, hu⟩ := h
        rcases List.mem_cons.1 hi with rfl | hi
        · rw [hc] at hu; cases hu
        · exact ⟨i, hi, hu⟩

theorem seg_ne (M : Mat K) (nnz : Nat) (x : Nat → K) (s len : Int) : seg M nnz x s len ≠ .diverge := by
  unfold seg
  split_ifs <;> simp

theorem blockOut_ne (nrow : Nat) (M : Mat K) (B : Blk) (x : Nat → K) : blockOut nrow M B x ≠ .diverge := by
  have hseg : ∀ (s len : Int) (β : Type) (g : K → Res β), (∀ a, g a ≠ .diverge) → (seg M (M.rp nrow) x s len >>= g) ≠ .diverge := by
    intro s len β g hg
    cases h : seg M (M.rp nrow) x s len with
    | ub => simp
    | diverge => exact absurd h (seg_ne _ _ _ _ _)
    | ok a => exact hg a
  have h1 : firstSeg nrow M B x ≠ .diverge := by
    unfold firstSeg
    split_ifs
    · simp
    · exact hseg _ _ _ _ fun a => by simp
    · simp
  have h2 : lastSeg nrow M B x ≠ .diverge := by
    unfold lastSeg
    split_ifs
    · simp
    · exact hseg _ _ _ _ fun a => by simp
    · simp
  unfold blockOut
  split_ifs
  · simp
  · exact hseg _ _ _ _ fun a => by simp
  · cases h : firstSeg nrow M B x with
    | ub => simp
    | diverge => exact absurd h h1
    | ok a =>
      cases h' : lastSeg nrow M B x with
      | ub => simp
      | diverge => exact absurd h' h2
      | ok b =>
        simp only [Res.bind_ok]
        split_ifs <;> simp

/-- **C97**.  The limits: without entries, and with no blocks, the partition has undefined behaviour; with more blocks than entries every product with a
matrix whose last row is not empty has undefined behaviour, whatever the partition returned. -/
theorem C97_spmv_limits (nrow nblk : Nat) (M : Mat K) (d0 : Nat → Nat) (h0 : M.rp 0 = 0) (hmono : ∀ i j, i ≤ j → j ≤ nrow → M.rp i ≤ M.rp j) :
    (nblk = 0 ∨ M.rp nrow = 0 → ∀ fuel, partition nrow M.rp nblk d0 fuel = .ub) ∧
    (M.rp nrow < nblk → M.rp (nrow - 1) < M.rp nrow → ∀ fuel P, partition nrow M.rp nblk d0 fuel = .ok P →
      ∀ (x fr0 lr0 y0 : Nat → K) (merge : List (List (Nat × K)) → List (Nat × K)), spmv nrow nblk M P x merge fr0 lr0 y0 = .ub) := by
  constructor
  · intro h fuel
    unfold partition
    by_cases hb : nblk = 0
    · rw [if_pos hb]
    · have hz : M.rp nrow = 0 := by tauto
      rw [if_neg hb, hz]
      have hD := partEqual_spec 0 nblk (by omega) d0
      have d1 := hD 0 (by omega)
      have d2 := hD 1 (by omega)
      simp only [Nat.zero_div, Nat.mul_zero, Nat.zero_mod, Nat.min_zero, Nat.add_zero] at d1 d2
      obtain ⟨n, rfl⟩ : ∃ n, nblk = n + 1 := ⟨nblk - 1, by omega⟩
      dsimp only
      rw [List.range_succ_eq_map]
      unfold collect
      have hub : partBlock nrow M.rp (partEqual 0 (n + 1) d0 0) ((partEqual 0 (n + 1) d0 (0 + 1) : Int) - 1) fuel = .ub := by
        rw [d1, Nat.zero_add, d2]
        have hl : ∀ x : Int, x ≤ 0 → lowerBound M.rp x 0 (nrow + 1) = 0 := by
          intro x hx
          obtain ⟨-, p2, -⟩ := lowerBound_spec (a := M.rp) (x := x) (n := nrow + 1) (fun i j h1 h2 => hmono i j h1 (by omega)) (nrow + 1) 0 (nrow + 1) (by omega) (by omega)
            (le_refl _) (by intro j hj; omega) (by intro j h1 h2; omega)
          by_contra hc
          have := p2 0 (by omega)
          omega
        unfold partBlock
        rw [hl _ (by simp), hl _ (by simp)]
        simp [stepBack, h0]
      rw [hub]
      rfl
  · intro hlt hlast fuel P hP x fr0 lr0 y0 merge
    have hn0 : nrow ≠ 0 := by
      intro e
      rw [e] at hlast
      exact lt_irrefl _ hlast
    unfold partition at hP
    rw [if_neg (by omega)] at hP
    have hD := partEqual_spec (M.rp nrow) nblk (by omega) d0
    have q0 : M.rp nrow / nblk = 0 := Nat.div_eq_of_lt hlt
    have q1 : M.rp nrow % nblk = M.rp nrow := Nat.mod_eq_of_lt hlt
    rw [q0, q1] at hD
    have d1 := hD (nblk - 1) (by omega)
    have d2 := hD nblk (le_refl _)
    rw [Nat.min_eq_right (by omega)] at d1 d2
    simp only [Nat.mul_zero, Nat.zero_add] at d1 d2
    have hfirst : ∀ B, partBlock nrow M.rp (M.rp nrow) ((M.rp nrow : Int) - 1) fuel = .ok B → B.first = nrow ∧ B.fr = 0 := by
      intro B hB
      obtain ⟨-, p2, p3⟩ := lowerBound_spec (a := M.rp) (x := (M.rp nrow : Nat)) (n := nrow + 1) (fun i j h1 h2 => hmono i j h1 (by omega)) (nrow + 1) 0 (nrow + 1) (by omega) (by omega)
            (le_refl _) (by intro j hj; omega) (by intro j h1 h2; omega)
      unfold partBlock at hB
      generalize lowerBound M.rp (M.rp nrow : Nat) 0 (nrow + 1) = p at *
      have hp : p = nrow := by
        by_contra hc
        rcases Nat.lt_or_gt_of_ne hc with h | h
        · have := p3 (nrow - 1) (by omega) (by omega)
          omega
        · have := p2 nrow h
          omega
      rw [hp] at hB
      have hs : stepBack nrow M.rp (M.rp nrow : Nat) nrow = .ok nrow := by
        unfold stepBack
        rw [if_neg (by omega), if_neg (by omega)]
      rw [hs] at hB
      simp only [Res.bind_ok] at hB
      cases h1 : stepBack nrow M.rp ((M.rp nrow : Int) - 1) (lowerBound M.rp ((M.rp nrow : Int) - 1) 0 (nrow + 1)) with
      | ub => rw [h1] at hB; cases hB
      | diverge => rw [h1] at hB; cases hB
      | ok er =>
        rw [h1] at hB
        simp only [Res.bind_ok] at hB
        cases h2 : skipEmpty nrow M.rp fuel er with
        | ub => rw [h2] at hB; cases hB
        | diverge => rw [h2] at hB; cases hB
        | ok e =>
          rw [h2] at hB
          simp only [Res.bind_ok] at hB
          have := skip_lt fuel er e h2
          rw [if_neg (by omega)] at hB
          cases hB
          exact ⟨rfl, rfl⟩
    dsimp only at hP
    cases hc : collect (fun i => partBlock nrow M.rp (partEqual (M.rp nrow) nblk d0 i) ((partEqual (M.rp nrow) nblk d0 (i + 1) : Int) - 1) fuel) (List.range nblk) with
    | ub => rw [hc] at hP; cases hP
    | diverge => rw [hc] at hP; cases hP
    | ok bs =>
      rw [hc] at hP
      simp only [Res.bind_ok] at hP
      cases hP
      obtain ⟨B, hB1, hB2⟩ := collect_inv _ _ hc (nblk - 1) (nblk - 1) (by rw [List.getElem?_range (by omega)])
      rw [d1, show nblk - 1 + 1 = nblk by omega, d2] at hB1
      obtain ⟨f1, f2⟩ := hfirst B hB1
      unfold spmv
      rw [collect_ub]
      · rfl
      · exact fun i _ => blockOut_ne _ _ _ _
      · refine ⟨nblk - 1, List.mem_range.2 (by omega), ?_⟩
        simp only [if_true]
        have : bs.getD (nblk - 1) default = B := by
          rw [List.getD_eq_getElem?_getD, hB2]; rfl
        rw [this]
        unfold blockOut
        dsimp only
        rw [f1, if_neg (by omega)]
        unfold firstSeg
        dsimp only
        rw [f2, if_pos rfl, if_pos (by omega)]
        rfl

/-- The hypotheses of C97 are met: one row with one entry and two blocks. -/
example : ∃ P, partition 1 (fun i => if i = 0 then 0 else 1) 2 (fun _ => 0) 5 = .ok P := by
  have h : (match partition 1 (fun i => if i = 0 then 0 else 1) 2 (fun _ => 0) 5 with | .ok _ => true | _ => false) = true := by decide +kernel
  cases hp : partition 1 (fun i => if i = 0 then 0 else 1) 2 (fun _ => 0) 5 with
  | ok P => exact ⟨P, rfl⟩
  | ub => rw [hp] at h; cases h
  | diverge => rw [hp] at h; cases h

/-- Three rows, the middle one empty, the last one shared by the two blocks. -/
def testCOO : COO ℚ := ⟨3, 5, fun k => if k < 2 then 0 else 2, fun k => k % 3, fun k => k + 1⟩

/-- The hypotheses of C96 are met. -/
example : (∀ k < testCOO.nnz, testCOO.row k < testCOO.nrow) ∧ 2 ≤ testCOO.nnz ∧ ∀ l : List (List (Nat × ℚ)), (l.flatten).Perm l.flatten := by
  refine ⟨?_, by decide, fun l => List.Perm.refl _⟩
  intro k hk
  show (if k < 2 then 0 else 2) < 3
  split_ifs <;> omega

end H2Pack.CSRP
