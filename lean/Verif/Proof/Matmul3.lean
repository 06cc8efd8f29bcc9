import Verif.Proof.Matmul2
import Verif.Props.Matvec

/-! # H2 matmul: backward transformation, dense multiplication, one block of columns -/

set_option linter.unusedSectionVars false

namespace H2Pack.MV
open H2Pack.Part (Arr kids ClusterTree)
open Finset (range sum_congr mul_sum sum_mul sum_comm sum_add_distrib sum_range_succ mem_range)

section
variable {K : Type} [CommRing K]

theorem foldl_two (n m : Nat) (a : Nat → Nat → Nat) (f : Nat → Nat → K) (d : Nat → K) (p : Nat) :
    (List.range n).foldl (fun d i => (List.range m).foldl (fun d j => addAt d (a i j) (f i j)) d) d p =
      d p + ∑ i ∈ range n, ∑ j ∈ range m, if p = a i j then f i j else 0 := by
  rw [foldl_obs (fun d i => (List.range m).foldl (fun d j => addAt d (a i j) (f i j)) d) (fun d => d p)
    (fun i => ∑ j ∈ range m, if p = a i j then f i j else 0) _ (fun i _ d => foldl_addAt_range m (a i) (f i) d p)]
  rw [list_sum_range]

theorem sum_pick2 (n m p : Nat) (a : Nat → Nat → Nat) (f : Nat → Nat → K) (i0 j0 : Nat) (hi : i0 < n) (hj : j0 < m)
    (h : ∀ i < n, ∀ j < m, p = a i j ↔ i = i0 ∧ j = j0) : (∑ i ∈ range n, ∑ j ∈ range m, if p = a i j then f i j else 0) = f i0 j0 := by
  rw [Finset.sum_eq_single i0]
  · rw [Finset.sum_eq_single j0]
    · rw [if_pos ((h i0 hi j0 hj).2 ⟨rfl, rfl⟩)]
    · intro j hj' hne
      rw [if_neg]
      intro e
      exact hne ((h i0 hi j (mem_range.1 hj')).1 e).2
    · intro hh; exact absurd (mem_range.2 hj) hh
  · intro i hi' hne
    apply Finset.sum_eq_zero
    intro j hj'
    rw [if_neg]
    intro e
    exact hne ((h i (mem_range.1 hi') j (mem_range.1 hj')).1 e).1
  · intro hh; exact absurd (mem_range.2 hi) hh

theorem sum_none2 (n m p : Nat) (a : Nat → Nat → Nat) (f : Nat → Nat → K) (h : ∀ i < n, ∀ j < m, p ≠ a i j) :
    (∑ i ∈ range n, ∑ j ∈ range m, if p = a i j then f i j else 0) = 0 := by
  apply Finset.sum_eq_zero; intro i hi
  apply Finset.sum_eq_zero; intro j hj
  rw [if_neg (h i (mem_range.1 hi) j (mem_range.1 hj))]

/-! ## Backward transformation -/

/-- Column `l` of the matrix algorithm and a state of the vector algorithm. -/
structure ColSim (R : Rep K) (V : View) (nv l : Nat) (s : MMBwd K) (t : BwdSt K) : Prop where
  ld : ∀ v, s.ld v = 0 ∨ s.ld v = nv
  zero : ∀ v, s.ld v = 0 ↔ t.ld v = 0
  y1 : ∀ v, ∀ k < (R.U v).ncol, s.y1 v (k * nv + l) = t.mem (.y1 v k)
  y : ∀ r < R.size, s.y (V.cell r l) = t.mem (.y r)

/-- The environment of the vector algorithm for column `l`. -/
def colEnv (E : MMEnv K) (nv l : Nat) : Env K := { anyEnv E.bwdOrd with junkT := fun v k => E.junkT v (k * nv + l) }

theorem mmPush_sim {R : Rep K} {V : View} (E : MMEnv K) {nv l : Nat} (hl : l < nv) (tmp tmp' : Nat → K) (ht : ∀ j, tmp (j * nv + l) = tmp' j) :
    ∀ (cs : List Nat) (idx : Nat) (s : MMBwd K) (t : BwdSt K), ColSim R V nv l s t →
      ColSim R V nv l (mmPush R E nv tmp cs idx s) (pushKids R (colEnv E nv l) tmp' cs idx t) := by
  intro cs
  induction cs with
  | nil => intro idx s t h; exact h
  | cons c cs ih =>
    intro idx s t h
    rw [mmPush, pushKids]
    apply ih
    have e : ∀ k, tmp (idx * nv + (k * nv + l)) = tmp' (idx + k) := by
      intro k
      rw [← ht]; congr 1; ring
    by_cases h0 : s.ld c = 0
    · rw [if_pos h0, if_pos ((h.zero c).1 h0)]
      refine ⟨fun v => ?_, fun v => ?_, fun v k hk => ?_, h.y⟩
      · dsimp only
        by_cases hv : v = c
        · subst hv; rw [Function.update_self]; right; rfl
        · rw [Function.update_of_ne hv]; exact h.ld v
      · dsimp only
        by_cases hv : v = c
        · subst hv; rw [Function.update_self, Function.update_self]; omega
        · rw [Function.update_of_ne hv, Function.update_of_ne hv]; exact h.zero v
      · dsimp only
        by_cases hv : v = c
        · subst hv
          rw [Function.update_self, if_pos rfl, if_pos hk, copyMatrix_eq _ _ _ _ k hk l hl]
          exact e k
        · rw [Function.update_of_ne hv, if_neg hv]; exact h.y1 v k hk
    · rw [if_neg h0, if_neg (fun hh => h0 ((h.zero c).2 hh))]
      have hld : s.ld c = nv := (h.ld c).resolve_left h0
      refine ⟨h.ld, h.zero, fun v k hk => ?_, fun r hr => ?_⟩
      · dsimp only
        rw [foldl_addAt_range]
        by_cases hv : v = c
        · subst hv
          rw [Function.update_self, foldl_two, h.y1 v k hk, hld]
          congr 1
          rw [sum_pick2 (R.U v).ncol nv _ _ _ k l hk hl, Finset.sum_eq_single k]
          · rw [if_pos rfl]; exact e k
          · intro b _ hb; rw [if_neg]; simp only [Loc.y1.injEq, true_and]; omega
          · intro hh; exact absurd (mem_range.2 hk) hh
          · intro i _ j hj
            constructor
            · intro hh
              have := mul_add_inj hl hj hh
              exact ⟨this.1.symm, this.2.symm⟩
            · rintro ⟨rfl, rfl⟩; rfl
        · rw [Function.update_of_ne hv, h.y1 v k hk]
          rw [Finset.sum_eq_zero, add_zero]
          intro b _; rw [if_neg]; simp [hv]
      · dsimp only
        rw [foldl_addAt_range, h.y r hr]
        simp

theorem mmBwdNode_sim {R : Rep K} (h : WF R) (E : MMEnv K) {V : View} {nv l : Nat} (hV : V.Good R.size nv) (hl : l < nv) (s : MMBwd K) (t : BwdSt K)
    (hs : ColSim R V nv l s t) {v : Nat} (hv : v < R.arr.nNode) (hlv : R.minAdm ≤ R.arr.level v) :
    ColSim R V nv l (mmBwdNode R E V nv s v) (bwdNode R (colEnv E nv l) t v) := by
  unfold mmBwdNode bwdNode
  by_cases h0 : s.ld v = 0
  · rw [if_pos h0, if_pos ((hs.zero v).1 h0)]; exact hs
  · rw [if_neg h0, if_neg (fun hh => h0 ((hs.zero v).2 hh))]
    have hld : s.ld v = nv := (hs.ld v).resolve_left h0
    rw [hld]
    have hn := nrow_pos h hv hlv
    have hr := h.rank v hv hlv
    have ht : ∀ j, gemm (R.U v).nrow nv (R.U v).ncol (R.U v).e (opAt false nv (s.y1 v)) false (E.junkT v) 0 nv (j * nv + l) =
        gemvN (R.U v).nrow (R.U v).ncol (R.U v).e (fun k => t.mem (.y1 v k)) false ((colEnv E nv l).junkT v) j := by
      intro j
      rw [gemm_cell _ _ _ _ _ _ _ hl]
      by_cases hj : j < (R.U v).nrow
      · rw [if_pos hj, gemvN_eq hn hr _ _ _ _ hj, add_comm]
        congr 1
        apply sum_congr rfl; intro k hk
        rw [← hs.y1 v k (mem_range.1 hk)]
        simp [opAt]
      · rw [if_neg hj]
        unfold gemvN
        rw [if_neg (by omega)]
        simp only [if_neg hj]
        rfl
    dsimp only
    generalize gemm (R.U v).nrow nv (R.U v).ncol (R.U v).e (opAt false nv (s.y1 v)) false (E.junkT v) 0 nv = tmp at *
    generalize gemvN (R.U v).nrow (R.U v).ncol (R.U v).e (fun k => t.mem (.y1 v k)) false ((colEnv E nv l).junkT v) = tmp' at *
    by_cases hc : R.arr.nChild v = 0
    · rw [if_pos hc, if_pos hc]
      have hse := rowS_lt_rowE h hv
      have hsz := rowE_le_size h hv
      have hy : ∀ r < R.size, (t.mem (.y r) + ∑ k ∈ range (R.rowE v - R.rowS v), if Loc.y r = Loc.y (R.rowS v + k) then tmp' k else 0) =
          t.mem (.y r) + if R.rowS v ≤ r ∧ r < R.rowE v then tmp' (r - R.rowS v) else 0 := by
        intro r _
        congr 1
        have := pick_sum (R.rowE v - R.rowS v) (R.rowS v) r tmp'
        rw [show R.rowS v + (R.rowE v - R.rowS v) = R.rowE v by omega] at this
        rw [← this]
        apply sum_congr rfl; intro k _; simp
      cases htr : V.tr
      · have hg := hV.1 htr
        simp only [if_true]
        refine ⟨hs.ld, hs.zero, fun u k hk => ?_, fun r hr' => ?_⟩
        · dsimp only
          rw [foldl_addAt_range]
          simp [hs.y1 u k hk]
        · dsimp only
          rw [foldl_addAt_range, hy r hr', foldl_two, hs.y r hr']
          congr 1
          by_cases hrow : R.rowS v ≤ r ∧ r < R.rowE v
          · rw [if_pos hrow, sum_pick2 _ _ _ _ _ (r - R.rowS v) l (by omega) hl]
            · exact ht _
            · intro i _ j hj
              unfold View.cell
              rw [htr]
              simp only [Bool.false_eq_true, if_false]
              constructor
              · intro hh
                have := mul_add_inj (by omega) (by omega) hh
                omega
              · rintro ⟨rfl, rfl⟩
                rw [show R.rowS v + (r - R.rowS v) = r by omega]
          · rw [if_neg hrow, sum_none2]
            intro i hi j hj hh
            unfold View.cell at hh
            rw [htr] at hh
            simp only [Bool.false_eq_true, if_false] at hh
            have := mul_add_inj (by omega) (by omega) hh
            omega
      · have hg := hV.2 htr
        simp only [Bool.true_eq_false, if_false]
        refine ⟨hs.ld, hs.zero, fun u k hk => ?_, fun r hr' => ?_⟩
        · dsimp only
          rw [foldl_addAt_range]
          simp [hs.y1 u k hk]
        · dsimp only
          rw [foldl_addAt_range, hy r hr', foldl_two, hs.y r hr']
          congr 1
          by_cases hrow : R.rowS v ≤ r ∧ r < R.rowE v
          · rw [if_pos hrow, sum_pick2 _ _ _ _ _ l (r - R.rowS v) hl (by omega)]
            · rw [← ht]; congr 1; omega
            · intro i _ j hj
              unfold View.cell
              rw [htr]
              simp only [if_true]
              constructor
              · intro hh
                have := mul_add_inj (by omega) (by omega) hh
                omega
              · rintro ⟨rfl, rfl⟩
                rw [show R.rowS v + (r - R.rowS v) = r by omega]
          · rw [if_neg hrow, sum_none2]
            intro i hi j hj hh
            unfold View.cell at hh
            rw [htr] at hh
            simp only [if_true] at hh
            have := mul_add_inj (by omega) (by omega) hh
            omega
    · rw [if_neg hc, if_neg hc]
      exact mmPush_sim E hl tmp tmp' ht _ _ _ _ hs

theorem mmBwd_spec {R : Rep K} (h : WF R) {W : Nat → Nat → Nat → K} (hW : Nested R W) (E : MMEnv K) (hE : ∀ l, (E.bwdOrd l).Perm (R.levelList l))
    {V : View} {nv l : Nat} (hV : V.Good R.size nv) (hl : l < nv) (s : MMBwd K) (hld : ∀ v, s.ld v = 0 ∨ s.ld v = nv) (r : Nat) (hr : r < R.size) :
    (mmBwd R E V nv s).y (V.cell r l) = s.y (V.cell r l) +
      ∑ v ∈ deep R R.minAdm, if s.ld v ≠ 0 then ∑ c ∈ range (R.U v).ncol, W v r c * s.y1 v (c * nv + l) else 0 := by
  let t : BwdSt K := ⟨s.ld, fun a => match a with
    | .y1 v k => s.y1 v (k * nv + l)
    | .y r => s.y (V.cell r l)
    | _ => 0⟩
  have hsim : ColSim R V nv l s t := ⟨hld, fun v => Iff.rfl, fun v k _ => rfl, fun r _ => rfl⟩
  have fin : ColSim R V nv l (mmBwd R E V nv s) (bwdTransform R (colEnv E nv l) t) := by
    unfold mmBwd bwdTransform
    have hmem : ∀ v ∈ (List.range' R.minAdm (R.arr.maxLevel + 1 - R.minAdm)).flatMap E.bwdOrd, v < R.arr.nNode ∧ R.minAdm ≤ R.arr.level v := by
      intro v hv
      rw [List.mem_flatMap] at hv
      obtain ⟨lv, hlv, hv⟩ := hv
      rw [List.mem_range'_1] at hlv
      have := (mem_levelList h).1 ((hE lv).mem_iff.1 hv)
      exact ⟨this.1, by omega⟩
    have : (colEnv E nv l).bwdOrd = E.bwdOrd := rfl
    rw [this]
    revert hmem
    generalize (List.range' R.minAdm (R.arr.maxLevel + 1 - R.minAdm)).flatMap E.bwdOrd = L
    intro hmem
    clear_value t
    induction L generalizing s t with
    | nil => exact hsim
    | cons a L ih =>
      rw [List.foldl_cons, List.foldl_cons]
      have hs1 := mmBwdNode_sim h E hV hl s t hsim (hmem a List.mem_cons_self).1 (hmem a List.mem_cons_self).2
      exact ih _ hs1.ld _ hs1 (fun v hv => hmem v (List.mem_cons_of_mem _ hv))
  rw [fin.y r hr, bwd_spec h hW (colEnv E nv l) hE t r]
  rfl

/-! ## Dense multiplication -/

/-- Row `i` of the block for `(n0, n1)` times the rows of `n1`. -/
def prodD (R : Rep K) (xc : Nat → K) (get : Nat → Nat → Blk K) (n0 n1 i : Nat) : K :=
  ∑ t ∈ range (get n0 n1).use.2.1, opAt (get n0 n1).use.2.2.2 (get n0 n1).use.2.2.1 (get n0 n1).data i t * xc (R.rowS n1 + t)

structure TableD (R : Rep K) (M : Meta) (get : Nat → Nat → Blk K) : Prop where
  sum : ∀ r < R.arr.nNode, ∀ f : Nat → Nat → K, ((rowCols M r).map (f r)).sum =
    (∑ i ∈ range R.arr.nLeaf, if R.leaf i = r then f (R.leaf i) (R.leaf i) else 0) + ∑ i ∈ range R.inadm.length,
      ((if (R.inadm.getD i (0, 0)).1 = r then f (R.inadm.getD i (0, 0)).1 (R.inadm.getD i (0, 0)).2 else 0) +
       (if (R.inadm.getD i (0, 0)).2 = r then f (R.inadm.getD i (0, 0)).2 (R.inadm.getD i (0, 0)).1 else 0))
  fits : ∀ r < R.arr.nNode, ∀ c ∈ rowCols M r, (get r c).use.1 = R.rowE r - R.rowS r
  leafLt : ∀ i < R.arr.nLeaf, R.leaf i < R.arr.nNode
  leaf : ∀ i < R.arr.nLeaf, ∀ xc, ∀ k < (R.D i).nrow, prodD R xc get (R.leaf i) (R.leaf i) k =
    ∑ d ∈ range (R.D i).ncol, (R.D i).e k d * xc (R.rowS (R.leaf i) + d)
  row : ∀ i (h : i < R.inadm.length), ∀ xc, ∀ k < (R.D (R.arr.nLeaf + i)).nrow, prodD R xc get R.inadm[i].1 R.inadm[i].2 k =
    ∑ d ∈ range (R.D (R.arr.nLeaf + i)).ncol, (R.D (R.arr.nLeaf + i)).e k d * xc (R.rowS R.inadm[i].2 + d)
  col : ∀ i (h : i < R.inadm.length), ∀ xc, ∀ k < (R.D (R.arr.nLeaf + i)).ncol, prodD R xc get R.inadm[i].2 R.inadm[i].1 k =
    ∑ d ∈ range (R.D (R.arr.nLeaf + i)).nrow, (R.D (R.arr.nLeaf + i)).e d k * xc (R.rowS R.inadm[i].1 + d)

theorem mmDense_spec {R : Rep K} (h : WF R) (E : MMEnv K) (hE : E.ordD.Perm (List.range R.arr.nNode)) {V : View} {nv : Nat} (hV : V.Good R.size nv)
    (x : Nat → K) {M : Meta} {get : Nat → Nat → Blk K} (hT : TableD R M get) (y : Nat → K) {r l : Nat} (hr : r < R.size) (hl : l < nv) :
    (E.ordD.foldl (fun y n0 => (rowCols M n0).foldl (mmDensePair R V nv x get n0) y) y) (V.cell r l) = y (V.cell r l) +
      ((∑ i ∈ range R.arr.nLeaf, ∑ q ∈ range R.size, blockEntry R (R.leaf i) (R.leaf i) (R.D i) r q * x (V.cell q l)) +
       ∑ i ∈ range R.inadm.length, ∑ q ∈ range R.size, (inadmEntry R i r q + inadmEntry R i q r) * x (V.cell q l)) := by
  have hlt : ∀ n0 ∈ E.ordD, n0 < R.arr.nNode := fun n0 hn => List.mem_range.1 (hE.mem_iff.1 hn)
  set f : Nat → Nat → K := fun a b =>
    if R.rowS a ≤ r ∧ r < R.rowE a then prodD R (fun r => x (V.cell r l)) get a b (r - R.rowS a) else 0 with hf
  have step : ∀ n0 < R.arr.nNode, ∀ c ∈ rowCols M n0, ∀ y : Nat → K, mmDensePair R V nv x get n0 y c (V.cell r l) = y (V.cell r l) + f n0 c := by
    intro n0 h0 c hc y
    have hm := hT.fits n0 h0 c hc
    have hse := rowS_lt_rowE h h0
    have hsz : R.rowS n0 + (get n0 c).use.1 ≤ R.size := by rw [hm]; have := rowE_le_size h h0; omega
    unfold mmDensePair
    rw [rowsAdd_cell hV hsz _ _ _ _ _ _ (fun t l => x (V.cell (R.rowS c + t) l)) (fun ht t _ l _ => by
        have := opAt_view hV x (R.rowS c) t l
        rw [ht] at this; exact this) (fun ht t _ l _ => by
        have := opAt_view hV x (R.rowS c) t l
        rw [ht] at this
        rw [← this]; simp [opAt]) _ hr hl, hm]
    rw [show R.rowS n0 + (R.rowE n0 - R.rowS n0) = R.rowE n0 by omega]
    rfl
  rw [foldl_obs (fun y n0 => (rowCols M n0).foldl (mmDensePair R V nv x get n0) y) (fun y => y (V.cell r l)) (fun a => ((rowCols M a).map (f a)).sum) _
    (fun n0 hn y => foldl_obs (mmDensePair R V nv x get n0) (fun y => y (V.cell r l)) (f n0) _ (step n0 (hlt n0 hn)) y)]
  congr 1
  rw [(hE.map _).sum_eq, list_sum_range, sum_congr rfl (fun a ha => hT.sum a (mem_range.1 ha) f), sum_add_distrib, sum_comm, sum_comm (s := range R.arr.nNode) (t := range R.inadm.length)]
  congr 1
  · apply sum_congr rfl
    intro i hi
    rw [mem_range] at hi
    have hn := hT.leafLt i hi
    have hd := h.d0 i hi
    have hse := rowS_lt_rowE h hn
    rw [Finset.sum_ite_eq (range R.arr.nNode) (R.leaf i) (fun _ => f (R.leaf i) (R.leaf i)), if_pos (mem_range.2 hn),
      ← block_row hd.1 hd.2 (le_of_lt hse) (rowE_le_size h hn) (fun q => x (V.cell q l)) r, pick_sum, hd.1,
      show R.rowS (R.leaf i) + (R.rowE (R.leaf i) - R.rowS (R.leaf i)) = R.rowE (R.leaf i) by omega, hf]
    dsimp only
    split
    · rw [hT.leaf i hi _ _ (by rw [hd.1]; omega)]
    · rfl
  · apply sum_congr rfl
    intro i hi
    rw [mem_range] at hi
    have hn := h.inadmNode _ (List.getElem_mem hi)
    have hd := h.d1 i hi
    have hr' := hT.row i hi (fun r => x (V.cell r l))
    have hc' := hT.col i hi (fun r => x (V.cell r l))
    simp only [add_mul]
    unfold inadmEntry
    rw [sum_add_distrib, sum_add_distrib, getD_inadm hi]
    generalize R.inadm[i] = p at *
    obtain ⟨n0, n1⟩ := p
    simp only at *
    have hS0 := rowS_lt_rowE h hn.1
    have hS1 := rowS_lt_rowE h hn.2
    rw [Finset.sum_ite_eq (range R.arr.nNode) n0 (fun _ => f n0 n1), Finset.sum_ite_eq (range R.arr.nNode) n1 (fun _ => f n1 n0),
      if_pos (mem_range.2 hn.1), if_pos (mem_range.2 hn.2)]
    congr 1
    · rw [← block_row hd.1 hd.2 (le_of_lt hS1) (rowE_le_size h hn.2) (fun q => x (V.cell q l)) r, pick_sum, hd.1,
        show R.rowS n0 + (R.rowE n0 - R.rowS n0) = R.rowE n0 by omega, hf]
      dsimp only
      split
      · rw [hr' _ (by rw [hd.1]; omega)]
      · rfl
    · rw [← block_col hd.1 hd.2 (le_of_lt hS0) (rowE_le_size h hn.1) (fun q => x (V.cell q l)) r, pick_sum, hd.2,
        show R.rowS n1 + (R.rowE n1 - R.rowS n1) = R.rowE n1 by omega, hf]
      dsimp only
      split
      · rw [hc' _ (by rw [hd.2]; omega)]
      · rfl

/-! ## One block of columns -/

/-- The orders are permutations of the iterations. -/
structure MMEnv.Valid (E : MMEnv K) (R : Rep K) : Prop where
  fwd : ∀ l, (E.fwdOrd l).Perm (R.levelList l)
  bwd : ∀ l, (E.bwdOrd l).Perm (R.levelList l)
  ordB : E.ordB.Perm (List.range R.arr.nNode)
  ordD : E.ordD.Perm (List.range R.arr.nNode)

/-- The core of a block with the block tables abstracted. -/
def coreOf (R : Rep K) (MB MD : Meta) (getB getD : Nat → Nat → Blk K) (E : MMEnv K) (V : View) (nv : Nat) (px py : Nat → K) : Nat → K :=
  let y0 := mmFwd R E V nv px
  let s := E.ordB.foldl (intmdLoop R MB E V nv px y0 getB) ⟨E.junk1, py⟩
  let s := mmBwd R E V nv ⟨mmLd R nv, s.y1, s.y⟩
  E.ordD.foldl (fun y n0 => (rowCols MD n0).foldl (mmDensePair R V nv px getD n0) y) s.y

theorem core_spec {R : Rep K} (h : WF R) {W : Nat → Nat → Nat → K} (hW : Nested R W) (E : MMEnv K) (hE : E.Valid R)
    {V : View} {nv : Nat} (hV : V.Good R.size nv) {MB MD : Meta} {getB getD : Nat → Nat → Blk K} (hB : TableB R MB getB) (hD : TableD R MD getD)
    (px py : Nat → K) {r l : Nat} (hr : r < R.size) (hl : l < nv) (h0 : py (V.cell r l) = 0) :
    coreOf R MB MD getB getD E V nv px py (V.cell r l) = ∑ q ∈ range R.size, entry R W r q * px (V.cell q l) := by
  unfold coreOf
  have hy := mmFwd_spec h hW E hE.fwd hV px
  generalize mmFwd R E V nv px = y0 at *
  obtain ⟨i1, i2⟩ := intmd_spec h E hE.ordB hV px y0 hy hB ⟨E.junk1, py⟩
  generalize E.ordB.foldl (intmdLoop R MB E V nv px y0 getB) ⟨E.junk1, py⟩ = s at *
  have hld : ∀ v, mmLd R nv v = 0 ∨ mmLd R nv v = nv := by
    intro v; unfold mmLd; split <;> simp
  rw [mmDense_spec h E hE.ordD hV px hD _ hr hl, mmBwd_spec h hW E hE.bwd hV hl _ hld r hr]
  dsimp only
  rw [i2 r hr l hl]
  dsimp only
  rw [h0, zero_add]
  have hterm : ∀ v ∈ deep R R.minAdm, (if mmLd R nv v ≠ 0 then ∑ c ∈ range (R.U v).ncol, W v r c * s.y1 v (c * nv + l) else 0) =
      ∑ i ∈ range R.adm.length, ∑ c ∈ range (R.U v).ncol, W v r c * y1Part R W (fun r => px (V.cell r l)) v c i := by
    intro v hv
    unfold deep at hv
    rw [Finset.mem_filter, mem_range] at hv
    rw [sum_comm]
    unfold mmLd
    by_cases hm : R.mark v = 0
    · rw [if_neg (by simp [hm])]
      symm
      apply Finset.sum_eq_zero; intro c _
      apply Finset.sum_eq_zero; intro i hi
      rw [y1Part_unmarked h W _ hm c (mem_range.1 hi), mul_zero]
    · rw [if_pos (by rw [if_pos hm]; omega)]
      apply sum_congr rfl
      intro c hc
      rw [i1 v hv.1 hm c (mem_range.1 hc) l hl, mul_sum]
  rw [sum_congr rfl hterm, sum_comm, ← sum_add_distrib]
  have hadm : ∑ i ∈ range R.adm.length, (tyPart R W (fun r => px (V.cell r l)) r i +
      ∑ v ∈ deep R R.minAdm, ∑ c ∈ range (R.U v).ncol, W v r c * y1Part R W (fun r => px (V.cell r l)) v c i) =
      ∑ i ∈ range R.adm.length, ∑ q ∈ range R.size, (admEntry R W i r q + admEntry R W i q r) * px (V.cell q l) := by
    apply sum_congr rfl
    intro i hi
    rw [add_comm]
    exact pair_total h W _ r (mem_range.1 hi)
  rw [hadm]
  unfold entry
  simp only [add_mul, sum_mul, sum_add_distrib]
  rw [sum_comm (s := range R.size) (t := range R.adm.length), sum_comm (s := range R.size) (t := range R.adm.length),
    sum_comm (s := range R.size) (t := range R.arr.nLeaf), sum_comm (s := range R.size) (t := range R.inadm.length),
    sum_comm (s := range R.size) (t := range R.inadm.length)]
  ring

end
end H2Pack.MV
