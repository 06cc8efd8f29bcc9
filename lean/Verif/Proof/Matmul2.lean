import Verif.Proof.Matmul

/-! # H2 matmul: intermediate and dense multiplication -/

set_option linter.unusedSectionVars false

namespace H2Pack.MV
open H2Pack.Part (Arr kids ClusterTree)
open Finset (range sum_congr mul_sum sum_mul sum_comm sum_add_distrib sum_range_succ mem_range)

section
variable {K : Type} [CommRing K]

theorem isBlock_use {b : Option (Blk K)} {B : Mat K} {t : Bool} (h : IsBlock b B t) (st : Blk K) (hp : 0 < B.ncol) :
    (b.getD st).use.1 = (if t then B.ncol else B.nrow) ∧ (b.getD st).use.2.1 = (if t then B.nrow else B.ncol) ∧
    ∀ i < (if t then B.ncol else B.nrow), ∀ j < (if t then B.nrow else B.ncol),
      opAt (b.getD st).use.2.2.2 (b.getD st).use.2.2.1 (b.getD st).data i j = if t then B.e j i else B.e i j := by
  obtain ⟨d, e, hd⟩ := h
  subst e
  cases t
  · have hu : (Blk.mk B.nrow B.ncol (B.ncol : Int) d).use = (B.nrow, B.ncol, B.ncol, false) := by
      unfold Blk.use
      rw [if_pos (by show (B.ncol : Int) > 0; omega)]
      simp
    simp only [Bool.false_eq_true, if_false, Option.getD_some, hu, true_and]
    intro i hi j hj
    unfold opAt
    simp only [Bool.false_eq_true, if_false]
    exact hd i hi j hj
  · have hu : (Blk.mk B.nrow B.ncol (-(B.ncol : Int)) d).use = (B.ncol, B.nrow, B.ncol, true) := by
      unfold Blk.use
      rw [if_neg (by show ¬ -(B.ncol : Int) > 0; omega)]
      simp
    simp only [if_true, Option.getD_some, hu, true_and]
    intro i hi j hj
    unfold opAt
    simp only [if_true]
    exact hd j hj i hi

/-- Observations that every step changes by a fixed amount. -/
theorem foldl_obs {σ α : Type} (f : σ → α → σ) (obs : σ → K) (d : α → K) : ∀ (L : List α), (∀ a ∈ L, ∀ s, obs (f s a) = obs s + d a) →
    ∀ s, obs (L.foldl f s) = obs s + (L.map d).sum := by
  intro L
  induction L with
  | nil => intro _ s; simp
  | cons a L ih =>
    intro h s
    rw [List.foldl_cons, ih (fun b hb => h b (List.mem_cons_of_mem _ hb)), h a List.mem_cons_self, List.map_cons, List.sum_cons, add_assoc]

/-- An observation that only step `v` sets. -/
theorem foldl_set {σ β : Type} (f : σ → Nat → σ) (obs : σ → β) (v : Nat) (val : β) : ∀ (L : List Nat),
    (∀ a ∈ L, a ≠ v → ∀ s, obs (f s a) = obs s) → (∀ s, obs (f s v) = val) → v ∈ L → ∀ s, obs (L.foldl f s) = val := by
  intro L
  induction L with
  | nil => intro _ _ h; simp at h
  | cons a L ih =>
    intro h1 h2 hv s
    rw [List.foldl_cons]
    by_cases hL : v ∈ L
    · exact ih (fun b hb => h1 b (List.mem_cons_of_mem _ hb)) h2 hL _
    · have ha : v = a := by simpa [hL] using hv
      subst ha
      have keep : ∀ (L : List Nat), (∀ a ∈ L, a ≠ v → ∀ s, obs (f s a) = obs s) → v ∉ L → ∀ s, obs (L.foldl f s) = obs s := by
        intro L
        induction L with
        | nil => intro _ _ s; rfl
        | cons b L ih =>
          intro h hn s
          rw [List.mem_cons, not_or] at hn
          rw [List.foldl_cons, ih (fun c hc => h c (List.mem_cons_of_mem _ hc)) hn.2, h b List.mem_cons_self (fun e => hn.1 e.symm)]
      rw [keep L (fun b hb => h1 b (List.mem_cons_of_mem _ hb)) hL, h2]

theorem pick_sum (m s r : Nat) (F : Nat → K) :
    (∑ c ∈ range m, if r = s + c then F c else 0) = if s ≤ r ∧ r < s + m then F (r - s) else 0 := by
  by_cases h : s ≤ r ∧ r < s + m
  · rw [if_pos h, Finset.sum_eq_single (r - s)]
    · rw [if_pos (by omega)]
    · intro b _ hb; rw [if_neg (by omega)]
    · intro hh; exact absurd (mem_range.2 (by omega)) hh
  · rw [if_neg h]
    apply Finset.sum_eq_zero
    intro c hc
    rw [mem_range] at hc
    rw [if_neg (by omega)]

/-! ## Row sums -/

theorem sum_filter_map {α : Type} (p : α → Bool) (g : α → K) (L : List α) : ((L.filter p).map g).sum = (L.map fun x => if p x then g x else 0).sum := by
  induction L with
  | nil => rfl
  | cons a L ih =>
    rw [List.filter_cons, List.map_cons, List.sum_cons]
    cases h : p a <;> simp [ih]

theorem sum_flatMap_range {α : Type} (g : α → K) (n : Nat) (f : Nat → List α) :
    (((List.range n).flatMap f).map g).sum = ∑ i ∈ range n, ((f i).map g).sum := by
  induction n with
  | zero => simp
  | succ n ih =>
    rw [List.range_succ, List.flatMap_append, List.map_append, List.sum_append, ih, sum_range_succ]
    simp

theorem rowCols_eq (M : Meta) (r : Nat) : rowCols M r = (M.csr.rowEntries r).map fun e => e.1.toNat := by
  unfold rowCols H2Pack.CSR.Mat.rowEntries
  rw [List.map_map]
  rfl

/-- Sum over the entries of row `r` of the pair table. -/
theorem rowB_sum {R : Rep K} {M : Meta} {r : Nat} (hrow : (M.csr.rowEntries r).Perm
        ((((List.range R.adm.length).flatMap fun i => [((R.adm.getD i (0, 0)).1, ((R.adm.getD i (0, 0)).2 : Int), (i : Int) + 1),
          ((R.adm.getD i (0, 0)).2, ((R.adm.getD i (0, 0)).1 : Int), -((i : Int) + 1))]).filter (fun x => x.1 = r)).map Prod.snd)) (f : Nat → Nat → K) :
    ((rowCols M r).map (f r)).sum = ∑ i ∈ range R.adm.length,
      ((if (R.adm.getD i (0, 0)).1 = r then f (R.adm.getD i (0, 0)).1 (R.adm.getD i (0, 0)).2 else 0) +
       (if (R.adm.getD i (0, 0)).2 = r then f (R.adm.getD i (0, 0)).2 (R.adm.getD i (0, 0)).1 else 0)) := by
  rw [rowCols_eq, List.map_map, (hrow.map _).sum_eq, List.map_map, sum_filter_map, sum_flatMap_range]
  apply sum_congr rfl
  intro i _
  simp only [List.map_cons, List.map_nil, List.sum_cons, List.sum_nil, add_zero, Function.comp, decide_eq_true_eq, Int.toNat_natCast]
  congr 1
  · split
    · next h => rw [h]
    · rfl
  · split
    · next h => rw [h]
    · rfl

theorem rowD_sum {R : Rep K} {M : Meta} {r : Nat} (hrow : (M.csr.rowEntries r).Perm
        (((((List.range R.arr.nLeaf).map fun i => (R.leaf i, (R.leaf i : Int), (i : Int) + 1)) ++
          (List.range R.inadm.length).flatMap fun i =>
            [((R.inadm.getD i (0, 0)).1, ((R.inadm.getD i (0, 0)).2 : Int), ((R.arr.nLeaf + i : Nat) : Int) + 1),
             ((R.inadm.getD i (0, 0)).2, ((R.inadm.getD i (0, 0)).1 : Int), -(((R.arr.nLeaf + i : Nat) : Int) + 1))]).filter (fun x => x.1 = r)).map Prod.snd))
    (f : Nat → Nat → K) :
    ((rowCols M r).map (f r)).sum = (∑ i ∈ range R.arr.nLeaf, if R.leaf i = r then f (R.leaf i) (R.leaf i) else 0) + ∑ i ∈ range R.inadm.length,
      ((if (R.inadm.getD i (0, 0)).1 = r then f (R.inadm.getD i (0, 0)).1 (R.inadm.getD i (0, 0)).2 else 0) +
       (if (R.inadm.getD i (0, 0)).2 = r then f (R.inadm.getD i (0, 0)).2 (R.inadm.getD i (0, 0)).1 else 0)) := by
  rw [rowCols_eq, List.map_map, (hrow.map _).sum_eq, List.map_map, sum_filter_map, List.map_append, List.sum_append, sum_flatMap_range, List.map_map]
  congr 1
  · rw [list_sum_range]
    apply sum_congr rfl
    intro i _
    simp only [Function.comp, decide_eq_true_eq, Int.toNat_natCast]
    split
    · next h => rw [h]
    · rfl
  · apply sum_congr rfl
    intro i _
    simp only [List.map_cons, List.map_nil, List.sum_cons, List.sum_nil, add_zero, Function.comp, decide_eq_true_eq, Int.toNat_natCast]
    congr 1
    · split
      · next h => rw [h]
      · rfl
    · split
      · next h => rw [h]
      · rfl

/-! ## One entry of the intermediate multiplication -/

/-- Row `i` of the block for `(n0, n1)` times the vector on the side of `n1`. -/
def prodB (R : Rep K) (W : Nat → Nat → Nat → K) (xc : Nat → K) (get : Nat → Nat → Blk K) (n0 n1 i : Nat) : K :=
  ∑ t ∈ range (get n0 n1).use.2.1, opAt (get n0 n1).use.2.2.2 (get n0 n1).use.2.2.1 (get n0 n1).data i t * zSide R W xc n1 n0 t

/-- Sizes of the block for `(n0, n1)`. -/
def Fits (R : Rep K) (n0 n1 : Nat) (b : Blk K) : Prop :=
  n0 < R.arr.nNode ∧ n1 < R.arr.nNode ∧ R.minAdm ≤ max (R.arr.level n0) (R.arr.level n1) ∧
  b.use.1 = (if R.arr.level n1 ≤ R.arr.level n0 then (R.U n0).ncol else R.rowE n0 - R.rowS n0) ∧
  b.use.2.1 = (if R.arr.level n0 ≤ R.arr.level n1 then (R.U n1).ncol else R.rowE n1 - R.rowS n1)

theorem mmPair_spec {R : Rep K} (h : WF R) {W : Nat → Nat → Nat → K} {V : View} {nv : Nat} (hV : V.Good R.size nv) (x : Nat → K) (y0 : Y0 K)
    (hy : ∀ v < R.arr.nNode, R.minAdm ≤ R.arr.level v → ∀ l < nv, FwdDone R W (fun r => x (V.cell r l)) (col0 nv l y0) v)
    (get : Nat → Nat → Blk K) {n0 n1 : Nat} (hf : Fits R n0 n1 (get n0 n1)) (s : MMSt K) :
    (∀ k < (R.U n0).ncol, ∀ l < nv, (mmPair R V nv x y0 get n0 s n1).y1 n0 (k * nv + l) = s.y1 n0 (k * nv + l) +
      if R.arr.level n1 ≤ R.arr.level n0 then prodB R W (fun r => x (V.cell r l)) get n0 n1 k else 0) ∧
    (∀ v, v ≠ n0 → (mmPair R V nv x y0 get n0 s n1).y1 v = s.y1 v) ∧
    ∀ r < R.size, ∀ l < nv, (mmPair R V nv x y0 get n0 s n1).y (V.cell r l) = s.y (V.cell r l) +
      if R.arr.level n1 ≤ R.arr.level n0 then 0 else
        if R.rowS n0 ≤ r ∧ r < R.rowE n0 then prodB R W (fun r => x (V.cell r l)) get n0 n1 (r - R.rowS n0) else 0 := by
  obtain ⟨h0, h1, hlv, hm, hk⟩ := hf
  unfold mmPair
  dsimp only
  rcases Nat.lt_trichotomy (R.arr.level n0) (R.arr.level n1) with hl | hl | hl
  · rw [if_neg (show ¬ R.arr.level n0 = R.arr.level n1 by omega), if_neg (show ¬ R.arr.level n0 > R.arr.level n1 by omega), if_pos hl]
    rw [if_neg (by omega)] at hm
    rw [if_pos (by omega)] at hk
    refine ⟨?_, fun v _ => rfl, ?_⟩
    · intro k _ l _; rw [if_neg (by omega), add_zero]
    · intro r hr l hlv'
      rw [if_neg (by omega)]
      have hE := rowS_lt_rowE h h0
      dsimp only
      have hsz : R.rowS n0 + (get n0 n1).use.1 ≤ R.size := by rw [hm]; have := rowE_le_size h h0; omega
      rw [rowsAdd_cell hV hsz _ _ _ _ (opAt false nv (y0 n1).2) (opAt true nv (y0 n1).2)
        (fun t l => (y0 n1).2 (t * nv + l)) (fun _ t _ l _ => by simp [opAt]) (fun _ t _ l _ => by simp [opAt]) _ hr hlv', hm]
      rw [show R.rowS n0 + (R.rowE n0 - R.rowS n0) = R.rowE n0 by omega]
      congr 1
      split
      · unfold prodB
        apply sum_congr rfl
        intro t ht
        rw [mem_range, hk] at ht
        rw [← zSide_basis (hy n1 h1 (by omega) l hlv') (by omega) ht]
        rfl
      · rfl
  · rw [if_pos hl, if_neg (show ¬ R.arr.level n0 > R.arr.level n1 by omega), if_neg (show ¬ R.arr.level n0 < R.arr.level n1 by omega)]
    rw [if_pos (by omega)] at hm hk
    refine ⟨?_, fun v hv => ?_, ?_⟩
    · intro k hk' l hlv'
      rw [if_pos (by omega)]
      dsimp only
      rw [Function.update_self, gemm_cell _ _ _ _ _ _ _ hlv', if_pos (by omega), if_pos rfl]
      congr 1
      unfold prodB
      apply sum_congr rfl
      intro t ht
      rw [mem_range, hk] at ht
      rw [← zSide_basis (hy n1 h1 (by omega) l hlv') (by omega) ht]
      rfl
    · dsimp only; rw [Function.update_of_ne hv]
    · intro r _ l _; rw [if_pos (by omega), add_zero]
  · rw [if_neg (show ¬ R.arr.level n0 = R.arr.level n1 by omega), if_pos (show R.arr.level n0 > R.arr.level n1 from hl), if_neg (show ¬ R.arr.level n0 < R.arr.level n1 by omega)]
    rw [if_pos (by omega)] at hm
    rw [if_neg (by omega)] at hk
    refine ⟨?_, fun v hv => ?_, ?_⟩
    · intro k hk' l hlv'
      rw [if_pos (by omega)]
      dsimp only
      rw [Function.update_self, gemm_cell _ _ _ _ _ _ _ hlv', if_pos (by omega), if_pos rfl]
      congr 1
      unfold prodB
      apply sum_congr rfl
      intro t ht
      rw [mem_range, hk] at ht
      rw [opAt_view hV, ← zSide_direct h (x := fun r => x (V.cell r l)) h1 hl ht]
    · dsimp only; rw [Function.update_of_ne hv]
    · intro r _ l _; rw [if_pos (by omega), add_zero]

/-! ## The intermediate multiplication -/

/-- The effect of the block table: every pair is found with its block, every entry of a row belongs to a pair. -/
structure TableB (R : Rep K) (M : Meta) (get : Nat → Nat → Blk K) : Prop where
  sum : ∀ r < R.arr.nNode, ∀ f : Nat → Nat → K, ((rowCols M r).map (f r)).sum = ∑ i ∈ range R.adm.length,
      ((if (R.adm.getD i (0, 0)).1 = r then f (R.adm.getD i (0, 0)).1 (R.adm.getD i (0, 0)).2 else 0) +
       (if (R.adm.getD i (0, 0)).2 = r then f (R.adm.getD i (0, 0)).2 (R.adm.getD i (0, 0)).1 else 0))
  fits : ∀ r < R.arr.nNode, ∀ c ∈ rowCols M r, Fits R r c (get r c)
  row : ∀ i (h : i < R.adm.length), ∀ W xc, ∀ k < (R.B i).nrow, prodB R W xc get R.adm[i].1 R.adm[i].2 k =
    ∑ d ∈ range (R.B i).ncol, (R.B i).e k d * zSide R W xc R.adm[i].2 R.adm[i].1 d
  col : ∀ i (h : i < R.adm.length), ∀ W xc, ∀ k < (R.B i).ncol, prodB R W xc get R.adm[i].2 R.adm[i].1 k =
    ∑ d ∈ range (R.B i).nrow, (R.B i).e d k * zSide R W xc R.adm[i].1 R.adm[i].2 d

/-- The loop over `node0` with the table abstracted. -/
def intmdLoop (R : Rep K) (M : Meta) (E : MMEnv K) (V : View) (nv : Nat) (x : Nat → K) (y0 : Y0 K) (get : Nat → Nat → Blk K) (s : MMSt K) (n0 : Nat) : MMSt K :=
  (rowCols M n0).foldl (mmPair R V nv x y0 get n0)
    { s with y1 := Function.update s.y1 n0 (fun k => if k < (if R.mark n0 ≠ 0 then (R.U n0).ncol * nv else E.hdr1 n0) then 0 else s.y1 n0 k) }

theorem intmd_spec {R : Rep K} (h : WF R) {W : Nat → Nat → Nat → K} (E : MMEnv K) (hE : E.ordB.Perm (List.range R.arr.nNode))
    {V : View} {nv : Nat} (hV : V.Good R.size nv) (x : Nat → K) (y0 : Y0 K)
    (hy : ∀ v < R.arr.nNode, R.minAdm ≤ R.arr.level v → ∀ l < nv, FwdDone R W (fun r => x (V.cell r l)) (col0 nv l y0) v)
    {M : Meta} {get : Nat → Nat → Blk K} (hT : TableB R M get) (s : MMSt K) :
    (∀ v < R.arr.nNode, R.mark v ≠ 0 → ∀ k < (R.U v).ncol, ∀ l < nv,
      (E.ordB.foldl (intmdLoop R M E V nv x y0 get) s).y1 v (k * nv + l) = ∑ i ∈ range R.adm.length, y1Part R W (fun r => x (V.cell r l)) v k i) ∧
    ∀ r < R.size, ∀ l < nv, (E.ordB.foldl (intmdLoop R M E V nv x y0 get) s).y (V.cell r l) = s.y (V.cell r l) +
      ∑ i ∈ range R.adm.length, tyPart R W (fun r => x (V.cell r l)) r i := by
  have hlt : ∀ n0 ∈ E.ordB, n0 < R.arr.nNode := fun n0 hn => List.mem_range.1 (hE.mem_iff.1 hn)
  constructor
  · intro v hv hm k hk l hl
    have hval := hT.sum v hv (fun a b => if R.arr.level b ≤ R.arr.level a then prodB R W (fun r => x (V.cell r l)) get a b k else 0)
    apply foldl_set (intmdLoop R M E V nv x y0 get) (fun s => s.y1 v (k * nv + l)) v _ E.ordB
    · intro a ha hav s
      show ((intmdLoop R M E V nv x y0 get s a).y1 v) (k * nv + l) = s.y1 v (k * nv + l)
      have : ∀ L : List Nat, (∀ c ∈ L, Fits R a c (get a c)) → ∀ s : MMSt K, (L.foldl (mmPair R V nv x y0 get a) s).y1 v = s.y1 v := by
        intro L
        induction L with
        | nil => intro _ s; rfl
        | cons c L ih =>
          intro hL s
          rw [List.foldl_cons, ih (fun b hb => hL b (List.mem_cons_of_mem _ hb)),
            (mmPair_spec h hV x y0 hy get (hL c List.mem_cons_self) s).2.1 v (fun e => hav e.symm)]
      unfold intmdLoop
      rw [this _ (hT.fits a (hlt a ha))]
      dsimp only
      rw [Function.update_of_ne (fun e => hav e.symm)]
    · intro s
      show ((intmdLoop R M E V nv x y0 get s v).y1 v) (k * nv + l) = _
      unfold intmdLoop
      rw [foldl_obs (mmPair R V nv x y0 get v) (fun s => s.y1 v (k * nv + l))
        (fun b => if R.arr.level b ≤ R.arr.level v then prodB R W (fun r => x (V.cell r l)) get v b k else 0) _
        (fun c hc s => (mmPair_spec h hV x y0 hy get (hT.fits v hv c hc) s).1 k hk l hl)]
      dsimp only
      rw [Function.update_self, if_pos hm, if_pos, zero_add, hval]
      · apply sum_congr rfl
        intro i hi
        rw [mem_range] at hi
        have hbr := h.bRow i hi
        have hbc := h.bCol i hi
        have hr := hT.row i hi W (fun r => x (V.cell r l)) k
        have hc := hT.col i hi W (fun r => x (V.cell r l)) k
        unfold y1Part
        rw [getD_adm hi]
        generalize R.adm[i] = p at *
        obtain ⟨n0, n1⟩ := p
        simp only at *
        congr 1
        · by_cases e : n0 = v
          · subst e
            rw [if_pos rfl]
            by_cases hl' : R.arr.level n1 ≤ R.arr.level n0
            · rw [if_pos hl', if_pos hl', if_pos rfl, hr (by rw [hbr, if_pos hl']; exact hk)]
            · rw [if_neg hl', if_neg hl']
          · rw [if_neg e, if_neg (show ¬ v = n0 from fun e' => e e'.symm)]; simp
        · by_cases e : n1 = v
          · subst e
            rw [if_pos rfl]
            by_cases hl' : R.arr.level n0 ≤ R.arr.level n1
            · rw [if_pos hl', if_pos hl', if_pos rfl, hc (by rw [hbc, if_pos hl']; exact hk)]
            · rw [if_neg hl', if_neg hl']
          · rw [if_neg e, if_neg (show ¬ v = n1 from fun e' => e e'.symm)]; simp
      · calc k * nv + l < k * nv + nv := by omega
          _ = (k + 1) * nv := by ring
          _ ≤ (R.U v).ncol * nv := Nat.mul_le_mul_right _ hk
    · exact hE.mem_iff.2 (List.mem_range.2 hv)
  · intro r hr l hl
    set f : Nat → Nat → K := fun a b => if R.arr.level b ≤ R.arr.level a then 0 else
        if R.rowS a ≤ r ∧ r < R.rowE a then prodB R W (fun r => x (V.cell r l)) get a b (r - R.rowS a) else 0 with hf
    rw [foldl_obs (intmdLoop R M E V nv x y0 get) (fun s => s.y (V.cell r l)) (fun a => ((rowCols M a).map (f a)).sum)]
    · congr 1
      rw [(hE.map _).sum_eq, list_sum_range, sum_congr rfl (fun a ha => hT.sum a (mem_range.1 ha) f), sum_comm]
      apply sum_congr rfl
      intro i hi
      rw [mem_range] at hi
      have hn := h.admNode _ (List.getElem_mem hi)
      have hbr := h.bRow i hi
      have hbc := h.bCol i hi
      have hr' := hT.row i hi W (fun r => x (V.cell r l))
      have hc' := hT.col i hi W (fun r => x (V.cell r l))
      unfold tyPart
      rw [sum_add_distrib, getD_adm hi]
      generalize R.adm[i] = p at *
      obtain ⟨n0, n1⟩ := p
      simp only at *
      rw [Finset.sum_ite_eq (range R.arr.nNode) n0 (fun _ => f n0 n1), Finset.sum_ite_eq (range R.arr.nNode) n1 (fun _ => f n1 n0),
        if_pos (mem_range.2 hn.1), if_pos (mem_range.2 hn.2)]
      have hS0 := rowS_lt_rowE h hn.1
      have hS1 := rowS_lt_rowE h hn.2
      congr 1
      · rw [hf]
        dsimp only
        split
        · rfl
        · next hl' =>
          rw [if_neg hl'] at hbr
          rw [pick_sum, hbr, show R.rowS n0 + (R.rowE n0 - R.rowS n0) = R.rowE n0 by omega]
          split
          · rw [hr' _ (by omega)]
          · rfl
      · rw [hf]
        dsimp only
        split
        · rfl
        · next hl' =>
          rw [if_neg hl'] at hbc
          rw [pick_sum, hbc, show R.rowS n1 + (R.rowE n1 - R.rowS n1) = R.rowE n1 by omega]
          split
          · rw [hc' _ (by omega)]
          · rfl
    · intro a ha s
      unfold intmdLoop
      rw [foldl_obs (mmPair R V nv x y0 get a) (fun s => s.y (V.cell r l)) (f a) _
        (fun c hc s => (mmPair_spec h hV x y0 hy get (hT.fits a (hlt a ha) c hc) s).2.2 r hr l hl)]

end
end H2Pack.MV
