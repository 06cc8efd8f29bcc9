import Verif.Proof.Matmul3
import Verif.Props.Entries

/-!
# C25: H2 matmul

`pos col ld r l` is where the caller stores entry `(r, l)` of a matrix with leading dimension `ld`.
-/

set_option linter.unusedSectionVars false

namespace H2Pack.MV
open H2Pack.Part (Arr kids ClusterTree)
open Finset (range sum_congr mul_sum sum_mul sum_comm sum_add_distrib sum_range_succ mem_range)

section
variable {K : Type} [CommRing K]

/-- Position of entry `(r, l)`: column-major or row-major storage. -/
def pos (col : Bool) (ld r l : Nat) : Nat := if col then l * ld + r else r * ld + l

/-! ## The block tables -/

theorem returns_unique {α : Type} {p : Nat → Res α} {a b : α} (ha : Returns p a) (hb : Returns p b) : a = b := by
  obtain ⟨A, hA⟩ := ha
  obtain ⟨B, hB⟩ := hb
  have h1 := hA (max A B) (by omega)
  rw [hB (max A B) (by omega)] at h1
  exact (Res.ok.inj h1).symm

theorem mem_rowB {R : Rep K} {M : Meta} {r c : Nat} (hrow : (M.csr.rowEntries r).Perm
        ((((List.range R.adm.length).flatMap fun i => [((R.adm.getD i (0, 0)).1, ((R.adm.getD i (0, 0)).2 : Int), (i : Int) + 1),
          ((R.adm.getD i (0, 0)).2, ((R.adm.getD i (0, 0)).1 : Int), -((i : Int) + 1))]).filter (fun x => x.1 = r)).map Prod.snd))
    (hc : c ∈ rowCols M r) : ∃ i, ∃ h : i < R.adm.length, (r = R.adm[i].1 ∧ c = R.adm[i].2) ∨ (r = R.adm[i].2 ∧ c = R.adm[i].1) := by
  rw [rowCols_eq, List.mem_map] at hc
  obtain ⟨e, he, rfl⟩ := hc
  rw [hrow.mem_iff, List.mem_map] at he
  obtain ⟨t, ht, rfl⟩ := he
  rw [List.mem_filter, List.mem_flatMap] at ht
  obtain ⟨⟨i, hi, ht⟩, hr⟩ := ht
  rw [List.mem_range] at hi
  rw [getD_adm hi] at ht
  refine ⟨i, hi, ?_⟩
  simp only [decide_eq_true_eq] at hr
  simp only [List.mem_cons, List.not_mem_nil, or_false] at ht
  rcases ht with rfl | rfl
  · left; exact ⟨hr.symm, by simp⟩
  · right; exact ⟨hr.symm, by simp⟩

theorem mem_rowD {R : Rep K} {M : Meta} {r c : Nat} (hrow : (M.csr.rowEntries r).Perm
        (((((List.range R.arr.nLeaf).map fun i => (R.leaf i, (R.leaf i : Int), (i : Int) + 1)) ++
          (List.range R.inadm.length).flatMap fun i =>
            [((R.inadm.getD i (0, 0)).1, ((R.inadm.getD i (0, 0)).2 : Int), ((R.arr.nLeaf + i : Nat) : Int) + 1),
             ((R.inadm.getD i (0, 0)).2, ((R.inadm.getD i (0, 0)).1 : Int), -(((R.arr.nLeaf + i : Nat) : Int) + 1))]).filter (fun x => x.1 = r)).map Prod.snd))
    (hc : c ∈ rowCols M r) : (∃ i < R.arr.nLeaf, r = R.leaf i ∧ c = R.leaf i) ∨
      ∃ i, ∃ h : i < R.inadm.length, (r = R.inadm[i].1 ∧ c = R.inadm[i].2) ∨ (r = R.inadm[i].2 ∧ c = R.inadm[i].1) := by
  rw [rowCols_eq, List.mem_map] at hc
  obtain ⟨e, he, rfl⟩ := hc
  rw [hrow.mem_iff, List.mem_map] at he
  obtain ⟨t, ht, rfl⟩ := he
  rw [List.mem_filter, List.mem_append] at ht
  obtain ⟨ht, hr⟩ := ht
  simp only [decide_eq_true_eq] at hr
  rcases ht with ht | ht
  · rw [List.mem_map] at ht
    obtain ⟨i, hi, rfl⟩ := ht
    left
    exact ⟨i, List.mem_range.1 hi, hr.symm, by simp⟩
  · rw [List.mem_flatMap] at ht
    obtain ⟨i, hi, ht⟩ := ht
    rw [List.mem_range] at hi
    rw [getD_inadm hi] at ht
    right
    refine ⟨i, hi, ?_⟩
    simp only [List.mem_cons, List.not_mem_nil, or_false] at ht
    rcases ht with rfl | rfl
    · left; exact ⟨hr.symm, by simp⟩
    · right; exact ⟨hr.symm, by simp⟩

theorem tableB {R : Rep K} (h : WF R) {M : Meta} {get : Nat → Nat → Blk K} (hrow : ∀ r < R.arr.nNode, (M.csr.rowEntries r).Perm
        ((((List.range R.adm.length).flatMap fun i => [((R.adm.getD i (0, 0)).1, ((R.adm.getD i (0, 0)).2 : Int), (i : Int) + 1),
          ((R.adm.getD i (0, 0)).2, ((R.adm.getD i (0, 0)).1 : Int), -((i : Int) + 1))]).filter (fun x => x.1 = r)).map Prod.snd))
    (hg : ∀ i (hi : i < R.adm.length), ∀ t : Bool, (get (if t then R.adm[i].2 else R.adm[i].1) (if t then R.adm[i].1 else R.adm[i].2)).use.1 = (if t then (R.B i).ncol else (R.B i).nrow) ∧
      (get (if t then R.adm[i].2 else R.adm[i].1) (if t then R.adm[i].1 else R.adm[i].2)).use.2.1 = (if t then (R.B i).nrow else (R.B i).ncol) ∧
      ∀ a < (if t then (R.B i).ncol else (R.B i).nrow), ∀ b < (if t then (R.B i).nrow else (R.B i).ncol),
        opAt (get (if t then R.adm[i].2 else R.adm[i].1) (if t then R.adm[i].1 else R.adm[i].2)).use.2.2.2
          (get (if t then R.adm[i].2 else R.adm[i].1) (if t then R.adm[i].1 else R.adm[i].2)).use.2.2.1
          (get (if t then R.adm[i].2 else R.adm[i].1) (if t then R.adm[i].1 else R.adm[i].2)).data a b = if t then (R.B i).e b a else (R.B i).e a b) :
    TableB R M get := by
  refine ⟨fun r hr f => rowB_sum (hrow r hr) f, ?_, ?_, ?_⟩
  · intro r hr c hc
    obtain ⟨i, hi, hh⟩ := mem_rowB (hrow r hr) hc
    have hn := h.admNode _ (List.getElem_mem hi)
    have hlv := h.admLevel _ (List.getElem_mem hi)
    have hbr := h.bRow i hi
    have hbc := h.bCol i hi
    rcases hh with ⟨rfl, rfl⟩ | ⟨rfl, rfl⟩
    · have := hg i hi false
      simp only [Bool.false_eq_true, if_false] at this
      exact ⟨hn.1, hn.2, hlv, by rw [this.1, hbr], by rw [this.2.1, hbc]⟩
    · have := hg i hi true
      simp only [if_true] at this
      exact ⟨hn.2, hn.1, by rw [max_comm]; exact hlv, by rw [this.1, hbc], by rw [this.2.1, hbr]⟩
  · intro i hi W xc k hk
    have := hg i hi false
    simp only [Bool.false_eq_true, if_false] at this
    unfold prodB
    rw [this.2.1]
    apply sum_congr rfl
    intro d hd
    rw [this.2.2 k hk d (mem_range.1 hd)]
  · intro i hi W xc k hk
    have := hg i hi true
    simp only [if_true] at this
    unfold prodB
    rw [this.2.1]
    apply sum_congr rfl
    intro d hd
    rw [this.2.2 k hk d (mem_range.1 hd)]

theorem tableD {R : Rep K} (h : WF R) {M : Meta} {get : Nat → Nat → Blk K} (hlf : ∀ i < R.arr.nLeaf, R.leaf i < R.arr.nNode)
    (hrow : ∀ r < R.arr.nNode, (M.csr.rowEntries r).Perm
        (((((List.range R.arr.nLeaf).map fun i => (R.leaf i, (R.leaf i : Int), (i : Int) + 1)) ++
          (List.range R.inadm.length).flatMap fun i =>
            [((R.inadm.getD i (0, 0)).1, ((R.inadm.getD i (0, 0)).2 : Int), ((R.arr.nLeaf + i : Nat) : Int) + 1),
             ((R.inadm.getD i (0, 0)).2, ((R.inadm.getD i (0, 0)).1 : Int), -(((R.arr.nLeaf + i : Nat) : Int) + 1))]).filter (fun x => x.1 = r)).map Prod.snd))
    (hg0 : ∀ i < R.arr.nLeaf, (get (R.leaf i) (R.leaf i)).use.1 = (R.D i).nrow ∧ (get (R.leaf i) (R.leaf i)).use.2.1 = (R.D i).ncol ∧
      ∀ a < (R.D i).nrow, ∀ b < (R.D i).ncol,
        opAt (get (R.leaf i) (R.leaf i)).use.2.2.2 (get (R.leaf i) (R.leaf i)).use.2.2.1 (get (R.leaf i) (R.leaf i)).data a b = (R.D i).e a b)
    (hg : ∀ i (hi : i < R.inadm.length), ∀ t : Bool, (get (if t then R.inadm[i].2 else R.inadm[i].1) (if t then R.inadm[i].1 else R.inadm[i].2)).use.1 =
        (if t then (R.D (R.arr.nLeaf + i)).ncol else (R.D (R.arr.nLeaf + i)).nrow) ∧
      (get (if t then R.inadm[i].2 else R.inadm[i].1) (if t then R.inadm[i].1 else R.inadm[i].2)).use.2.1 =
        (if t then (R.D (R.arr.nLeaf + i)).nrow else (R.D (R.arr.nLeaf + i)).ncol) ∧
      ∀ a < (if t then (R.D (R.arr.nLeaf + i)).ncol else (R.D (R.arr.nLeaf + i)).nrow), ∀ b < (if t then (R.D (R.arr.nLeaf + i)).nrow else (R.D (R.arr.nLeaf + i)).ncol),
        opAt (get (if t then R.inadm[i].2 else R.inadm[i].1) (if t then R.inadm[i].1 else R.inadm[i].2)).use.2.2.2
          (get (if t then R.inadm[i].2 else R.inadm[i].1) (if t then R.inadm[i].1 else R.inadm[i].2)).use.2.2.1
          (get (if t then R.inadm[i].2 else R.inadm[i].1) (if t then R.inadm[i].1 else R.inadm[i].2)).data a b =
          if t then (R.D (R.arr.nLeaf + i)).e b a else (R.D (R.arr.nLeaf + i)).e a b) :
    TableD R M get := by
  refine ⟨fun r hr f => rowD_sum (hrow r hr) f, ?_, hlf, ?_, ?_, ?_⟩
  · intro r hr c hc
    rcases mem_rowD (hrow r hr) hc with ⟨i, hi, rfl, rfl⟩ | ⟨i, hi, hh⟩
    · rw [(hg0 i hi).1, (h.d0 i hi).1]
    · have hd := h.d1 i hi
      rcases hh with ⟨rfl, rfl⟩ | ⟨rfl, rfl⟩
      · have := hg i hi false
        simp only [Bool.false_eq_true, if_false] at this
        rw [this.1, hd.1]
      · have := hg i hi true
        simp only [if_true] at this
        rw [this.1, hd.2]
  · intro i hi xc k hk
    have := hg0 i hi
    unfold prodD
    rw [this.2.1]
    apply sum_congr rfl
    intro d hd
    rw [this.2.2 k hk d (mem_range.1 hd)]
  · intro i hi xc k hk
    have := hg i hi false
    simp only [Bool.false_eq_true, if_false] at this
    unfold prodD
    rw [this.2.1]
    apply sum_congr rfl
    intro d hd
    rw [this.2.2 k hk d (mem_range.1 hd)]
  · intro i hi xc k hk
    have := hg i hi true
    simp only [if_true] at this
    unfold prodD
    rw [this.2.1]
    apply sum_congr rfl
    intro d hd
    rw [this.2.2 k hk d (mem_range.1 hd)]

/-! ## Permutation and clearing on cells -/

theorem gatherRows_pos (idx : Nat → Nat) (src : Nat → K) (lds ldd ncol : Nat) (h : ncol ≤ ldd) (dst : Nat → K) : ∀ n,
    (∀ r < n, ∀ l < ncol, gatherRows n ncol idx src lds dst ldd (r * ldd + l) = src (idx r * lds + l)) ∧
    ∀ p, (∀ r < n, ∀ l < ncol, p ≠ r * ldd + l) → gatherRows n ncol idx src lds dst ldd p = dst p := by
  intro n
  induction n with
  | zero => exact ⟨fun r hr => by omega, fun p _ => rfl⟩
  | succ n ih =>
    have hs : gatherRows (n + 1) ncol idx src lds dst ldd = fun k => if n * ldd ≤ k ∧ k < n * ldd + ncol then src (idx n * lds + (k - n * ldd)) else
        gatherRows n ncol idx src lds dst ldd k := by
      unfold gatherRows
      rw [List.range_succ, List.foldl_append]
      rfl
    rw [hs]
    constructor
    · intro r hr l hl
      dsimp only
      by_cases e : r = n
      · subst e
        rw [if_pos ⟨by omega, by omega⟩]
        congr 1; omega
      · rw [if_neg, ih.1 r (by omega) l hl]
        have := Nat.mul_le_mul_right ldd (show r + 1 ≤ n by omega)
        rw [Nat.add_mul] at this
        omega
    · intro p hp
      dsimp only
      rw [if_neg, ih.2 p (fun r hr => hp r (by omega))]
      rintro ⟨h1, h2⟩
      exact hp n (by omega) (p - n * ldd) (by omega) (by omega)

theorem gatherCols_pos (idx : Nat → Nat) (src : Nat → K) (lds ldd ncol : Nat) (h : ncol ≤ ldd) (dst : Nat → K) : ∀ n,
    (∀ l < n, ∀ r < ncol, gatherCols n ncol idx src lds dst ldd (l * ldd + r) = src (l * lds + idx r)) ∧
    ∀ p, (∀ l < n, ∀ r < ncol, p ≠ l * ldd + r) → gatherCols n ncol idx src lds dst ldd p = dst p := by
  intro n
  induction n with
  | zero => exact ⟨fun r hr => by omega, fun p _ => rfl⟩
  | succ n ih =>
    have hs : gatherCols (n + 1) ncol idx src lds dst ldd = fun k => if n * ldd ≤ k then
        gather ncol idx (fun t => src (n * lds + t)) (fun t => gatherCols n ncol idx src lds dst ldd (n * ldd + t)) (k - n * ldd) else
        gatherCols n ncol idx src lds dst ldd k := by
      unfold gatherCols
      rw [List.range_succ, List.foldl_append]
      rfl
    rw [hs]
    constructor
    · intro l hl r hr
      dsimp only
      by_cases e : l = n
      · subst e
        rw [if_pos (by omega), gather_eq, if_pos (by omega)]
        rw [show l * ldd + r - l * ldd = r by omega]
      · rw [if_neg, ih.1 l (by omega) r hr]
        have := Nat.mul_le_mul_right ldd (show l + 1 ≤ n by omega)
        rw [Nat.add_mul] at this
        omega
    · intro p hp
      dsimp only
      have ih' := ih.2 p (fun r hr => hp r (by omega))
      split
      · next hle =>
        rw [gather_eq, if_neg]
        · rw [show n * ldd + (p - n * ldd) = p by omega, ih']
        · intro hlt
          exact hp n (by omega) (p - n * ldd) hlt (by omega)
      · exact ih'

/-- Permutation of the rows of a matrix. -/
theorem mmPermute_pos (R : Rep K) (col : Bool) (nv : Nat) (idx : Nat → Nat) (src : Nat → K) (lds : Nat) (dst : Nat → K) (ldd : Nat)
    (h : if col then R.size ≤ ldd else nv ≤ ldd) :
    (∀ r < R.size, ∀ l < nv, mmPermute R col nv idx src lds dst ldd (pos col ldd r l) = src (pos col lds (idx r) l)) ∧
    ∀ p, (∀ r < R.size, ∀ l < nv, p ≠ pos col ldd r l) → mmPermute R col nv idx src lds dst ldd p = dst p := by
  unfold mmPermute pos
  cases col
  · simp only [Bool.false_eq_true, if_false, if_true] at h ⊢
    exact gatherRows_pos idx src lds ldd nv h dst R.size
  · simp only [if_true, Bool.true_eq_false, if_false] at h ⊢
    have := gatherCols_pos idx src lds ldd R.size h dst nv
    exact ⟨fun r hr l hl => this.1 l hl r hr, fun p hp => this.2 p (fun l hl r hr => hp r hr l hl)⟩

theorem mmClear_pos (R : Rep K) (col : Bool) (nv ld : Nat) (y : Nat → K) {r l : Nat} (hr : r < R.size) (hl : l < nv) :
    mmClear R col nv ld y (pos col ld r l) = 0 := by
  unfold mmClear pos
  cases col
  · simp only [Bool.false_eq_true, if_false, if_true]
    have : ∀ n, r < n → (List.range n).foldl (fun y i k => if i * ld ≤ k ∧ k < i * ld + nv then 0 else y k) y (r * ld + l) = 0 := by
      intro n
      induction n with
      | zero => intro h; omega
      | succ n ih =>
        intro h
        rw [List.range_succ, List.foldl_append]
        simp only [List.foldl_cons, List.foldl_nil]
        split
        · rfl
        · next hh =>
          apply ih
          by_contra hn
          have : r = n := by omega
          subst this
          exact hh ⟨by omega, by omega⟩
    exact this _ hr
  · simp only [if_true, Bool.true_eq_false, if_false]
    have inner : ∀ m (i : Nat) (y : Nat → K) (p : Nat), (List.range m).foldl (fun y j => Function.update y (i * ld + j) 0) y p =
        if i * ld ≤ p ∧ p < i * ld + m then 0 else y p := by
      intro m
      induction m with
      | zero => intro i y p; rw [if_neg (by omega)]; rfl
      | succ m ih =>
        intro i y p
        rw [List.range_succ, List.foldl_append]
        simp only [List.foldl_cons, List.foldl_nil]
        by_cases e : p = i * ld + m
        · subst e; rw [Function.update_self, if_pos (by omega)]
        · rw [Function.update_of_ne e, ih]
          by_cases h : i * ld ≤ p ∧ p < i * ld + m
          · rw [if_pos h, if_pos (by omega)]
          · rw [if_neg h, if_neg (by omega)]
    have : ∀ n, l < n → (List.range n).foldl (fun y i => (List.range R.size).foldl (fun y j => Function.update y (i * ld + j) 0) y) y (l * ld + r) = 0 := by
      intro n
      induction n with
      | zero => intro h; omega
      | succ n ih =>
        intro h
        rw [List.range_succ, List.foldl_append]
        simp only [List.foldl_cons, List.foldl_nil]
        rw [inner]
        split
        · rfl
        · next hh =>
          apply ih
          by_contra hn
          have : l = n := by omega
          subst this
          exact hh ⟨by omega, by omega⟩
    exact this _ hl

/-! ## The loop over blocks of columns -/

/-- `P r l` (in the tree order) from the blocks, for the columns from `i` on. -/
theorem mmLoop_spec {R R0 : Rep K} {P : Nat → Nat → K} (hR : R0.size = R.size) (core : Nat → View → Nat → (Nat → K) → (Nat → K) → Nat → K) (pf pb : Nat → Nat) (gx gy : Nat → Nat → K)
    (col : Bool) {mm nvec : Nat} (hmm : 0 < mm) (X : Nat → K) (ldx ldy : Nat) (hld : if col then R.size ≤ ldy else nvec ≤ ldy)
    (hpb : ∀ r < R.size, pb r < R.size)
    (hcore : ∀ i < nvec, ∀ nv, nv ≤ mm → nv ≤ nvec - i → ∀ px py, (∀ r < R.size, ∀ l < nv, px (pos col (mmView R0 col mm).ld r l) = X (pos col ldx (pf r) (i + l))) →
      (∀ r < R.size, ∀ l < nv, py (pos col (mmView R0 col mm).ld r l) = 0) →
      ∀ r < R.size, ∀ l < nv, core i (mmView R0 col mm) nv px py (pos col (mmView R0 col mm).ld r l) = P r (i + l)) :
    ∀ fuel i Y, nvec - i < fuel → ∃ Y', mmLoop R0 core pf pb gx gy col mm nvec X ldx ldy fuel i Y = .ok Y' ∧
      (∀ r < R.size, ∀ l < nvec, Y' (pos col ldy r l) = if i ≤ l then P (pb r) l else Y (pos col ldy r l)) ∧
      ∀ p, (∀ r < R.size, ∀ l < nvec, p ≠ pos col ldy r l) → Y' p = Y p := by
  intro fuel
  induction fuel with
  | zero => intro i Y h; omega
  | succ fuel ih =>
    intro i Y hf
    by_cases hi : i < nvec
    · rw [mmLoop, if_pos hi]
      set cur := if i + mm ≤ nvec then mm else nvec - i with hcur
      have c1 : cur ≤ mm := by rw [hcur]; split <;> omega
      have c2 : cur ≤ nvec - i := by rw [hcur]; split <;> omega
      have c3 : i + cur = min (i + mm) nvec := by rw [hcur]; split <;> omega
      have hvl : if col then R0.size ≤ (mmView R0 col mm).ld else cur ≤ (mmView R0 col mm).ld := by
        unfold mmView; cases col <;> simp [c1]
      have off : ∀ ld q l, i * (if col = false then 1 else ld) + pos col ld q l = pos col ld q (i + l) := by
        intro ld q l
        unfold pos
        cases col
        · simp only [if_true, Bool.false_eq_true, if_false]; omega
        · simp only [if_true, Bool.true_eq_false, if_false]; ring
      have hp := mmPermute_pos R0 col cur pf (fun k => X (i * (if col = false then 1 else ldx) + k)) ldx (gx i) (mmView R0 col mm).ld hvl
      have hc := hcore i hi cur c1 c2 (mmPermute R0 col cur pf (fun k => X (i * (if col = false then 1 else ldx) + k)) ldx (gx i) (mmView R0 col mm).ld)
        (mmClear R0 col cur (mmView R0 col mm).ld (gy i))
        (fun r hr l hl => by rw [hp.1 r (by omega) l hl, off])
        (fun r hr l hl => mmClear_pos R0 col cur _ _ (by omega) hl)
      dsimp only
      generalize core i (mmView R0 col mm) cur (mmPermute R0 col cur pf (fun k => X (i * (if col = false then 1 else ldx) + k)) ldx (gx i) (mmView R0 col mm).ld)
        (mmClear R0 col cur (mmView R0 col mm).ld (gy i)) = py at *
      have hq := mmPermute_pos R0 col cur pb py (mmView R0 col mm).ld (fun t => Y (i * (if col = false then 1 else ldy) + t)) ldy (by
        rw [hR]
        cases col
        · simp only [Bool.false_eq_true, if_false] at hld ⊢; omega
        · simp only [if_true] at hld ⊢; exact hld)
      set Y1 : Nat → K := fun k => if i * (if col = false then 1 else ldy) ≤ k then
        mmPermute R0 col cur pb py (mmView R0 col mm).ld (fun t => Y (i * (if col = false then 1 else ldy) + t)) ldy (k - i * (if col = false then 1 else ldy)) else Y k with hY1
      have y1a : ∀ r < R.size, ∀ l < cur, Y1 (pos col ldy r (i + l)) = P (pb r) (i + l) := by
        intro r hr l hl
        rw [hY1]
        dsimp only
        rw [← off, if_pos (by omega), show i * (if col = false then 1 else ldy) + pos col ldy r l - i * (if col = false then 1 else ldy) = pos col ldy r l by omega,
          hq.1 r (by omega) l hl]
        exact hc (pb r) (hpb r hr) l hl
      have y1b : ∀ p, (∀ r < R.size, ∀ l < cur, p ≠ pos col ldy r (i + l)) → Y1 p = Y p := by
        intro p hpp
        rw [hY1]
        beta_reduce
        by_cases hle : i * (if col = false then 1 else ldy) ≤ p
        · rw [if_pos hle, hq.2]
          · congr 1; omega
          · intro r hr l hl he
            apply hpp r (by omega) l hl
            rw [← off, ← he]; omega
        · rw [if_neg hle]
      have inj : ∀ r < R.size, ∀ l < nvec, ∀ r' < R.size, ∀ l' < nvec, pos col ldy r l = pos col ldy r' l' → r = r' ∧ l = l' := by
        intro r hr l hl r' hr' l' hl' he
        unfold pos at he
        cases col
        · simp only [Bool.false_eq_true, if_false] at he hld
          exact mul_add_inj (by omega) (by omega) he
        · simp only [if_true] at he hld
          exact (mul_add_inj (by omega) (by omega) he).symm
      obtain ⟨Y', e, g1, g2⟩ := ih (i + mm) Y1 (by omega)
      refine ⟨Y', e, ?_, ?_⟩
      · intro r hr l hl
        rw [g1 r hr l hl]
        by_cases h1 : i + mm ≤ l
        · rw [if_pos h1, if_pos (by omega)]
        · rw [if_neg h1]
          by_cases h2 : i ≤ l
          · rw [if_pos h2]
            have := y1a r hr (l - i) (by omega)
            rw [show i + (l - i) = l by omega] at this
            exact this
          · rw [if_neg h2]
            apply y1b
            intro r' hr' l' hl' he
            have := (inj r hr l hl r' hr' (i + l') (by omega) he).2
            omega
      · intro p hpp
        rw [g2 p hpp]
        exact y1b p (fun r hr l hl => hpp r hr (i + l) (by omega))
    · rw [mmLoop, if_neg hi]
      refine ⟨Y, rfl, fun r hr l hl => ?_, fun p _ => rfl⟩
      rw [if_neg (by omega)]

/-! ## C25 -/

theorem mmFwd_aot (J : JIT K) (E : MMEnv K) (V : View) (nv : Nat) (x : Nat → K) : mmFwd J.aot E V nv x = mmFwd J.R E V nv x := rfl
theorem mmBwd_aot (J : JIT K) (E : MMEnv K) (V : View) (nv : Nat) (s : MMBwd K) : mmBwd J.aot E V nv s = mmBwd J.R E V nv s := by
  have : ∀ s v, mmBwdNode J.aot E V nv s v = mmBwdNode J.R E V nv s v := by
    intro s v
    have hp : ∀ tmp l i s, mmPush J.aot E nv tmp l i s = mmPush J.R E nv tmp l i s := by
      intro tmp l
      induction l with
      | nil => intro i s; rfl
      | cons c cs ih => intro i s; exact ih _ _
    unfold mmBwdNode
    simp only [hp]
    rfl
  unfold mmBwd
  rw [show mmBwdNode J.aot E V nv = mmBwdNode J.R E V nv from funext fun s => funext fun v => this s v]
  rfl

theorem core_aot (J : JIT K) (MB MD : Meta) (dB dD : Nat → K) (jit : Bool) (E : MMEnv K) (V : View) (nv : Nat) (px py : Nat → K) :
    mmCore J ⟨MB, MD, dB, dD, jit⟩ E V nv px py =
      coreOf J.aot MB MD (fun a b => (getBij J MB jit dB (E.dstB a b) a b).getD (E.staleB a b))
        (fun a b => (getDij J MD jit dD (E.dstD a b) a b).getD (E.staleD a b)) E V nv px py := by
  unfold mmCore coreOf
  simp only [mmFwd_aot, mmBwd_aot]
  rfl

/-- **C25.**  `H2P_matmul` on a representation built with any metadata run (tasks, interleaving of the block construction, AOT or
JIT mode), for every number of vectors, every block width `mm_max_n_vec ≥ 1`, both layouts, every leading dimension of the input and
every sufficient leading dimension of the output, every order of the parallel iterations and all buffer contents: it terminates,
column `l` of the output is the H2 matrix times column `l` of the input (rows in the user's order), and no other position of the
output array is changed. -/
theorem C25_matmul {J : JIT K} (h : WF J.aot) {W : Nat → Nat → Nat → K} (hW : Nested J.aot W) (EB ED : MetaEnv)
    (hEB : EB.Valid J.R.arr.nNode) (hED : ED.Valid J.R.arr.nNode) (hdB : DistinctPairs J.R.arr.nNode J.R.adm) (hne : J.R.adm ≠ [])
    (hdD : DistinctPairs J.R.arr.nNode J.R.inadm) :
    ∃ MB MD, Returns (generateB J false EB) MB ∧ Returns (generateD J false ED) MD ∧
    ∀ (wB wD : List Nat), H2Pack.Utils.Interleaving EB.nTask (worksB MB) wB → H2Pack.Utils.Interleaving ED.nTask (worksD J.R.arr.nLeaf MD) wD →
    ∀ (b0 d0 : Nat → K) (jit : Bool) (E : Nat → MMEnv K), (∀ i, (E i).Valid J.R) →
    ∀ (g : (Nat → Nat) × (Nat → Nat)) (gx gy : Nat → Nat → K) (col : Bool) (mm nvec : Nat) (X : Nat → K) (ldx : Nat) (Y : Nat → K) (ldy : Nat),
      0 < mm → (if col then J.R.nPoint * J.R.kdim ≤ ldy else nvec ≤ ldy) →
      ∃ Y', Returns (fun fuel => matmul J ⟨MB, MD, runB J MB wB b0, runD J MD wD d0, jit⟩ E g gx gy col mm nvec X ldx Y ldy fuel) Y' ∧
        (∀ l < nvec, ∀ i < J.R.nPoint, ∀ a < J.R.kdim, Y' (pos col ldy (J.R.coordIdx i * J.R.kdim + a) l) =
          ∑ j ∈ range J.R.nPoint, ∑ b ∈ range J.R.kdim, entry J.aot W (i * J.R.kdim + a) (j * J.R.kdim + b) * X (pos col ldx (J.R.coordIdx j * J.R.kdim + b) l)) ∧
        ∀ p, (∀ r < J.R.nPoint * J.R.kdim, ∀ l < nvec, p ≠ pos col ldy r l) → Y' p = Y p := by
  have T : ClusterTree J.R.arr J.R.nPoint := h.tree
  obtain ⟨l1, l2, l3⟩ := H2Pack.Part.leaf_inj T
  have hlf : ∀ i < J.R.arr.nLeaf, J.R.leaf i < J.R.arr.nNode := fun i hi => (l2 i hi).1
  obtain ⟨MB, hMB, _, _, _, _, _, hrowB⟩ := C27_B_metadata J EB hEB hdB hne
  obtain ⟨MB', hMB', hgB⟩ := C27_get_Bij J EB hEB hdB hne
  obtain ⟨MD, hMD, _, _, _, _, _, _, hrowD⟩ := C27_D_metadata J ED hED hlf l3 l1 hdD
  obtain ⟨MD', hMD', hgD⟩ := C27_get_Dij J ED hED hlf l3 l1 hdD
  obtain rfl := returns_unique hMB hMB'
  obtain rfl := returns_unique hMD hMD'
  refine ⟨MB, MD, hMB, hMD, ?_⟩
  intro wB wD hwB hwD b0 d0 jit E hE g gx gy col mm nvec X ldx Y ldy hmm hld
  have hp : ((List.range J.R.nPoint).map J.R.coordIdx).Perm (List.range J.R.nPoint) := h.perm
  have P := pmtIdx_pair J.R hp g
  -- the block tables
  have hTB : ∀ E : MMEnv K, TableB J.aot MB (fun a b => (getBij J MB jit (runB J MB wB b0) (E.dstB a b) a b).getD (E.staleB a b)) := by
    intro E
    refine tableB h hrowB ?_
    intro i hi t
    have hi' : i < J.R.adm.length := hi
    have hb := hgB wB hwB b0
    have hcp : 0 < (J.aot.B i).ncol := by
      have hn := h.admNode _ (List.getElem_mem hi)
      have hlv := h.admLevel _ (List.getElem_mem hi)
      rw [h.bCol i hi]
      split
      · next hl => exact h.rank _ hn.2 (by omega)
      · have := rowS_lt_rowE h hn.2; omega
    cases t
    · exact isBlock_use ((hb _ jit).1 i hi').1 _ hcp
    · exact isBlock_use ((hb _ jit).1 i hi').2 _ hcp
  have hTD : ∀ E : MMEnv K, TableD J.aot MD (fun a b => (getDij J MD jit (runD J MD wD d0) (E.dstD a b) a b).getD (E.staleD a b)) := by
    intro E
    refine tableD h hlf hrowD ?_ ?_
    · intro i hi
      have hcp : 0 < (J.aot.D i).ncol := by
        rw [(h.d0 i hi).2]; have : J.aot.rowS (J.aot.leaf i) < J.aot.rowE (J.aot.leaf i) := rowS_lt_rowE h (hlf i hi); omega
      exact isBlock_use ((hgD wD hwD d0 _ jit).1 i hi) _ hcp
    · intro i hi t
      have hi' : i < J.R.inadm.length := hi
      have hcp : 0 < (J.aot.D (J.aot.arr.nLeaf + i)).ncol := by
        rw [(h.d1 i hi).2]; have := rowS_lt_rowE h (h.inadmNode _ (List.getElem_mem hi)).2; omega
      cases t
      · exact isBlock_use ((hgD wD hwD d0 _ jit).2.1 i hi').1 _ hcp
      · exact isBlock_use ((hgD wD hwD d0 _ jit).2.1 i hi').2 _ hcp
  -- the loop
  have hpos : ∀ (r l : Nat), pos col (mmView J.R col mm).ld r l = (mmView J.R col mm).cell r l := by
    intro r l
    unfold pos View.cell mmView
    cases col <;> rfl
  have hpb : ∀ r < J.aot.size, (pmtIdx J.R g).2 r < J.aot.size := by
    intro r hr
    obtain ⟨p, hp', a, ha, rfl⟩ := row_split (show r < J.R.nPoint * J.R.kdim from hr)
    obtain ⟨i, hi, rfl⟩ := perm_surj hp hp'
    rw [P.bwd i hi a ha]
    exact row_lt hi ha
  have key := mmLoop_spec (R := J.aot) (R0 := J.R) (P := fun r l => ∑ q ∈ range J.aot.size, entry J.aot W r q * X (pos col ldx ((pmtIdx J.R g).1 q) l)) rfl
    (fun i => mmCore J ⟨MB, MD, runB J MB wB b0, runD J MD wD d0, jit⟩ (E i)) (pmtIdx J.R g).1 (pmtIdx J.R g).2 gx gy col hmm X ldx ldy hld hpb (by
      intro i hi nv hnv _ px py hpx hpy r hr l hl
      have hV : (mmView J.R col mm).Good J.aot.size nv := mmView_good J.R col hnv
      have hc := core_spec h hW (E i) (by exact ⟨(hE i).fwd, (hE i).bwd, (hE i).ordB, (hE i).ordD⟩) hV (hTB (E i)) (hTD (E i)) px py hr hl
        (by rw [← hpos]; exact hpy r hr l hl)
      rw [hpos]
      have hcore : mmCore J ⟨MB, MD, runB J MB wB b0, runD J MD wD d0, jit⟩ (E i) (mmView J.R col mm) nv px py =
          coreOf J.aot MB MD (fun a b => (getBij J MB jit (runB J MB wB b0) ((E i).dstB a b) a b).getD ((E i).staleB a b))
            (fun a b => (getDij J MD jit (runD J MD wD d0) ((E i).dstD a b) a b).getD ((E i).staleD a b)) (E i)
            (mmView J.R col mm) nv px py := core_aot _ _ _ _ _ _ _ _ _ _ _
      rw [hcore]
      refine Eq.trans hc (sum_congr rfl fun q hq => ?_)
      rw [← hpx q (mem_range.1 hq) l hl, hpos])
  obtain ⟨Y', e, g1, g2⟩ := key (nvec + 1) 0 Y (by omega)
  refine ⟨Y', ⟨nvec + 1, fun fuel hf => ?_⟩, ?_, g2⟩
  · obtain ⟨Y'', e'', q1, q2⟩ := key fuel 0 Y (by omega)
    show mmLoop _ _ _ _ _ _ _ _ _ _ _ _ _ _ _ = _
    rw [e'']
    congr 1
    funext p
    by_cases hpp : ∀ r < J.aot.size, ∀ l < nvec, p ≠ pos col ldy r l
    · rw [q2 p hpp, g2 p hpp]
    · push Not at hpp
      obtain ⟨r, hr, l, hl, rfl⟩ := hpp
      rw [q1 r hr l hl, g1 r hr l hl]
  · intro l hl i hi a ha
    have hrr : J.R.coordIdx i * J.R.kdim + a < J.aot.size := row_lt (perm_lt hp hi) ha
    rw [g1 _ hrr l hl, if_pos (Nat.zero_le _), P.bwd i hi a ha]
    show ∑ q ∈ range (J.R.nPoint * J.R.kdim), _ = _
    rw [sum_rows]
    apply sum_congr rfl; intro j hj
    apply sum_congr rfl; intro b hb
    rw [P.fwd j (mem_range.1 hj) b (mem_range.1 hb)]

/-- **C25.**  Column `l` of the output of `H2P_matmul` is what `H2P_matvec` (any threads, schedule, buffers) gives on column `l` of the
input. -/
theorem C25_eq_matvec {J : JIT K} (h : WF J.aot) (EB ED : MetaEnv)
    (hEB : EB.Valid J.R.arr.nNode) (hED : ED.Valid J.R.arr.nNode) (hdB : DistinctPairs J.R.arr.nNode J.R.adm) (hne : J.R.adm ≠ [])
    (hdD : DistinctPairs J.R.arr.nNode J.R.inadm) :
    ∃ MB MD, Returns (generateB J false EB) MB ∧ Returns (generateD J false ED) MD ∧
    ∀ (wB wD : List Nat), H2Pack.Utils.Interleaving EB.nTask (worksB MB) wB → H2Pack.Utils.Interleaving ED.nTask (worksD J.R.arr.nLeaf MD) wD →
    ∀ (b0 d0 : Nat → K) (jit : Bool) (E : Nat → MMEnv K), (∀ i, (E i).Valid J.R) →
    ∀ (g : (Nat → Nat) × (Nat → Nat)) (gx gy : Nat → Nat → K) (col : Bool) (mm nvec : Nat) (X : Nat → K) (ldx : Nat) (Y : Nat → K) (ldy : Nat),
      0 < mm → (if col then J.R.nPoint * J.R.kdim ≤ ldy else nvec ≤ ldy) →
      ∃ Y', Returns (fun fuel => matmul J ⟨MB, MD, runB J MB wB b0, runD J MD wD d0, jit⟩ E g gx gy col mm nvec X ldx Y ldy fuel) Y' ∧
        ∀ l < nvec, ∀ r < J.R.nPoint * J.R.kdim, ∀ (E0 : Env K), E0.Valid J.aot → ∀ g' dx dy,
          Y' (pos col ldy r l) = matvec J.aot E0 g' dx dy (fun q => X (pos col ldx q l)) r := by
  obtain ⟨MB, MD, h1, h2, h3⟩ := C25_matmul h (basis_nested h) EB ED hEB hED hdB hne hdD
  refine ⟨MB, MD, h1, h2, ?_⟩
  intro wB wD hwB hwD b0 d0 jit E hE g gx gy col mm nvec X ldx Y ldy hmm hld
  obtain ⟨Y', q1, q2, _⟩ := h3 wB wD hwB hwD b0 d0 jit E hE g gx gy col mm nvec X ldx Y ldy hmm hld
  refine ⟨Y', q1, ?_⟩
  intro l hl r hr E0 hE0 g' dx dy
  have hp : ((List.range J.R.nPoint).map J.R.coordIdx).Perm (List.range J.R.nPoint) := h.perm
  obtain ⟨p, hp', a, ha, rfl⟩ := row_split hr
  obtain ⟨i, hi, rfl⟩ := perm_surj hp hp'
  rw [q2 l hl i hi a ha]
  exact ((C20_matvec h (basis_nested h) E0 hE0 g' dx dy (fun q => X (pos col ldx q l))).1 i hi a ha).symm

end

/-- The hypotheses of C25 are met: six points on a line, kernel dimension 2, seven admissible pairs (two between different levels), three
metadata tasks, environments whose parallel loops run backwards. -/
example : ∃ J : JIT ℚ, ∃ EB : MetaEnv, ∃ E : MMEnv ℚ, ∃ E0 : Env ℚ, WF J.aot ∧ EB.Valid J.R.arr.nNode ∧ DistinctPairs J.R.arr.nNode J.R.adm ∧
    J.R.adm.length = 7 ∧ DistinctPairs J.R.arr.nNode J.R.inadm ∧ J.R.inadm.length = 4 ∧ E.Valid J.R ∧ E0.Valid J.aot ∧ EB.nTask = 3 := by
  obtain ⟨J, pv, MB, MD, hn, h6, ha, hi, _, _, _, h, hv⟩ := demo_build'
  have e1 : (J.withMark MB.nAdm).R.adm = pv.adm := h.adm
  have e2 : (J.withMark MB.nAdm).R.inadm = pv.inadm := h.inadm
  have e3 : (J.withMark MB.nAdm).R.arr.nNode = 12 := hn
  refine ⟨J.withMark MB.nAdm, ⟨3, 2, 2, fun _ => 0, fun _ => 0, List.range 12⟩,
    ⟨fun l => (J.R.levelList l).reverse, fun l => (J.R.levelList l).reverse, (List.range 12).reverse, (List.range 12).reverse, fun _ _ => 5, fun _ _ => 6,
      fun _ _ => 7, fun _ _ => 8, fun _ => 0, fun _ => 0, fun _ _ _ => 9, fun _ _ _ => 10, fun _ _ => ⟨0, 0, 0, fun _ => 0⟩, fun _ _ => ⟨0, 0, 0, fun _ => 0⟩⟩,
    _, h.wf, ⟨by show 1 ≤ 3; omega, ?_⟩, ?_, by rw [e1, ha]; rfl, ?_, by rw [e2, hi]; rfl,
    ⟨fun l => List.reverse_perm _, fun l => List.reverse_perm _, ?_, ?_⟩, hv, rfl⟩
  · rw [e3]
  · rw [e3, e1, ha]; unfold DistinctPairs; decide
  · rw [e3, e2, hi]; unfold DistinctPairs; decide
  · rw [e3]; exact List.reverse_perm _
  · rw [e3]; exact List.reverse_perm _

end H2Pack.MV
