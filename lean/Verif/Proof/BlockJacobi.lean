import Verif.Model.BlockJacobi
import Verif.Proof.LeafOrder
import Verif.Props.Entries

/-! # Layout and contents of the block Jacobi preconditioner -/

namespace H2Pack.BJ
open H2Pack.MV H2Pack.Part Finset

variable {K : Type} [Field K]

/-- Size of block `i`. -/
def sz (J : JIT K) (i : Nat) : Nat := (J.aot.D i).nrow

structure Lay (J : JIT K) (k : Nat) (P : Precond K) : Prop where
  nBlock : P.nBlock = J.R.arr.nLeaf
  sizes : ∀ i < k, P.sizes i = sz J i
  displs : ∀ i ≤ k, P.displs i = ∑ j ∈ range i, sz J j
  ptr : ∀ i < k, P.ptr i = ∑ j ∈ range i, sz J j * sz J j
  total : P.total = ∑ j ∈ range k, sz J j * sz J j

theorem layout_spec (J : JIT K) (junk : Precond K) : Lay J J.R.arr.nLeaf (layout J junk) := by
  unfold layout
  generalize hN : J.R.arr.nLeaf = N
  have key : ∀ k, Lay J k ((List.range k).foldl (fun P i =>
    { P with
      sizes := Function.update P.sizes i (J.aot.D i).nrow
      ptr := Function.update P.ptr i P.total
      displs := Function.update P.displs (i + 1) (P.displs i + (J.aot.D i).nrow)
      total := P.total + (J.aot.D i).nrow * (J.aot.D i).nrow })
    { junk with nBlock := N, displs := Function.update junk.displs 0 0, total := 0 }) := by
    intro k
    induction k with
    | zero =>
      refine ⟨hN.symm, by intro i h; omega, ?_, by intro i h; omega, by simp⟩
      intro i h
      have h0 : i = 0 := by omega
      subst h0
      simp
    | succ k ih =>
      rw [List.range_succ, List.foldl_append]
      generalize (List.range k).foldl _ _ = P at ih
      obtain ⟨h1, h2, h3, h4, h5⟩ := ih
      refine ⟨h1, ?_, ?_, ?_, ?_⟩ <;> dsimp only [List.foldl_cons, List.foldl_nil]
      · intro i hi
        rw [Function.update_apply]
        split
        · rename_i e; rw [e]; rfl
        · exact h2 i (by omega)
      · intro i hi
        rw [Function.update_apply]
        split
        · rename_i e; rw [e, sum_range_succ, h3 k (le_refl _)]; rfl
        · exact h3 i (by omega)
      · intro i hi
        rw [Function.update_apply]
        split
        · rename_i e; rw [e, h5]
        · exact h4 i (by omega)
      · rw [h5, sum_range_succ]; rfl
  exact key N

/-- Tiles: position of the `i`-th range. -/
theorem tiles_pos : ∀ (L : List (Nat × Nat)) (a b : Nat), Tiles a b L →
    (∀ i < L.length, a + ∑ j ∈ range i, ((L.getD j (0,0)).2 - (L.getD j (0,0)).1 + 1) = (L.getD i (0,0)).1) ∧
    a + ∑ j ∈ range L.length, ((L.getD j (0,0)).2 - (L.getD j (0,0)).1 + 1) = b := by
  intro L
  induction L with
  | nil => intro a b h; have : a = b := h; simp [this]
  | cons x L ih =>
    rintro a b ⟨h1, h2, h3⟩
    obtain ⟨i1, i2⟩ := ih _ _ h3
    constructor
    · intro i hi
      cases i with
      | zero => simp [h1]
      | succ i =>
        rw [sum_range_succ']
        simp only [List.getD_cons_succ, List.getD_cons_zero]
        rw [← i1 i (by simpa using hi)]
        omega
    · rw [List.length_cons, sum_range_succ']
      simp only [List.getD_cons_succ, List.getD_cons_zero]
      rw [← i2]
      omega

/-- What the preconditioner needs from the partitioning. -/
structure Ready (J : JIT K) : Prop where
  tree : ClusterTree J.R.arr J.R.nPoint
  kdim : 0 < J.R.kdim
  perm : ((List.range J.R.nPoint).map J.R.coordIdx).Perm (List.range J.R.nPoint)
  tiles : Tiles 0 J.R.nPoint ((leaves J.R.arr).map fun v => (J.R.arr.ptS v, J.R.arr.ptE v))

theorem sz_eq (J : JIT K) {i : Nat} (hi : i < J.R.arr.nLeaf) : sz J i = J.npt (J.R.leaf i) * J.R.kdim := by
  unfold sz
  have hD : J.aot.D i = J.block (J.cPts (J.R.leaf i)) (J.cPts (J.R.leaf i)) := by
    show (if i < J.R.arr.nLeaf then _ else _) = _
    rw [if_pos hi]
  rw [hD]; rfl

theorem leaf_mem {J : JIT K} (h : Ready J) {i : Nat} (hi : i < J.R.arr.nLeaf) : J.R.leaf i < J.R.arr.nNode ∧ J.R.arr.nChild (J.R.leaf i) = 0 := by
  have := leaf_list h.tree
  have hm : J.R.leaf i ∈ leaves J.R.arr := by
    rw [← this]; exact List.mem_map_of_mem (List.mem_range.2 hi)
  unfold leaves at hm
  rw [List.mem_filter] at hm
  exact ⟨List.mem_range.1 hm.1, by simpa using hm.2⟩

theorem leaf_ex {J : JIT K} (h : Ready J) {v : Nat} (hv : v < J.R.arr.nNode) (h0 : J.R.arr.nChild v = 0) : ∃ i < J.R.arr.nLeaf, J.R.leaf i = v := by
  have hm : v ∈ leaves J.R.arr := by
    unfold leaves
    rw [List.mem_filter]; exact ⟨List.mem_range.2 hv, by simpa using h0⟩
  rw [← leaf_list h.tree, List.mem_map] at hm
  obtain ⟨i, hi, e⟩ := hm
  exact ⟨i, List.mem_range.1 hi, e⟩

theorem pos_eq {J : JIT K} (h : Ready J) : (∀ i < J.R.arr.nLeaf, (∑ j ∈ range i, sz J j) = J.R.arr.ptS (J.R.leaf i) * J.R.kdim) ∧
    (∑ j ∈ range J.R.arr.nLeaf, sz J j) = J.R.nPoint * J.R.kdim := by
  have hl := leaf_list h.tree
  have hlen : (leaves J.R.arr).length = J.R.arr.nLeaf := by rw [← hl]; simp
  have hg : ∀ i < J.R.arr.nLeaf, ((leaves J.R.arr).map fun v => (J.R.arr.ptS v, J.R.arr.ptE v)).getD i (0,0) =
      (J.R.arr.ptS (J.R.leaf i), J.R.arr.ptE (J.R.leaf i)) := by
    intro i hi
    rw [← hl]
    simp [List.getD, hi, Rep.leaf]
  obtain ⟨t1, t2⟩ := tiles_pos _ _ _ h.tiles
  rw [List.length_map, hlen] at t1 t2
  have hs : ∀ i ≤ J.R.arr.nLeaf, (∑ j ∈ range i, sz J j) =
      (∑ j ∈ range i, ((((leaves J.R.arr).map fun v => (J.R.arr.ptS v, J.R.arr.ptE v)).getD j (0,0)).2 -
        (((leaves J.R.arr).map fun v => (J.R.arr.ptS v, J.R.arr.ptE v)).getD j (0,0)).1 + 1)) * J.R.kdim := by
    intro i hi
    rw [sum_mul]
    apply sum_congr rfl
    intro j hj
    rw [mem_range] at hj
    rw [hg j (by omega), sz_eq J (by omega)]
    rfl
  constructor
  · intro i hi
    rw [hs i (by omega)]
    have := t1 i hi
    rw [hg i hi] at this
    rw [Nat.zero_add] at this
    rw [this]
  · rw [hs _ (le_refl _)]
    rw [Nat.zero_add] at t2
    rw [t2]

/-- Prefix sums are separated. -/
theorem prefix_sep (f : Nat → Nat) {i j : Nat} (h : i < j) : (∑ t ∈ range i, f t) + f i ≤ ∑ t ∈ range j, f t := by
  rw [← sum_range_succ]
  exact sum_le_sum_of_subset (fun t ht => by rw [mem_range] at *; omega)

theorem prefix_disj (f : Nat → Nat) {i j k : Nat} (h : i ≠ j) (h1 : (∑ t ∈ range i, f t) ≤ k) (h2 : k < (∑ t ∈ range i, f t) + f i) :
    ¬ ((∑ t ∈ range j, f t) ≤ k ∧ k < (∑ t ∈ range j, f t) + f j) := by
  rintro ⟨h3, h4⟩
  rcases Nat.lt_or_gt_of_ne h with h | h
  · have := prefix_sep f h; omega
  · have := prefix_sep f h; omega

/-- The matrix of block `i` before inversion. -/
def diag (J : JIT K) (shift : K) (i r c : Nat) : K :=
  (J.block (J.cPts (J.R.leaf i)) (J.cPts (J.R.leaf i))).e r c + if r = c then shift else 0

theorem addShift_spec (d pos : Nat) (shift : K) (mem : Nat → K) (k : Nat) : addShift d pos shift mem k =
    mem k + if ∃ j < d, k = pos + (j * d + j) then shift else 0 := by
  unfold addShift
  have key : ∀ n ≤ d, (List.range n).foldl (fun m j => Function.update m (pos + (j * d + j)) (m (pos + (j * d + j)) + shift)) mem k =
      mem k + if ∃ j < n, k = pos + (j * d + j) then shift else 0 := by
    intro n
    induction n with
    | zero => intro _; simp
    | succ n ih =>
      intro hn
      rw [List.range_succ, List.foldl_append]
      have ih := ih (by omega)
      generalize (List.range n).foldl _ _ = m at ih
      simp only [List.foldl_cons, List.foldl_nil]
      rw [Function.update_apply]
      split
      · rename_i e
        rw [← e, ih, if_neg, if_pos ⟨n, by omega, e⟩, add_zero]
        rintro ⟨j, hj, e'⟩
        have : j * d + j < n * d + n := by
          have := Nat.mul_le_mul_right d (le_of_lt hj); omega
        omega
      · rename_i e
        rw [ih]
        congr 1
        by_cases hx : ∃ j < n, k = pos + (j * d + j)
        · rw [if_pos hx, if_pos]; obtain ⟨j, hj, e'⟩ := hx; exact ⟨j, by omega, e'⟩
        · rw [if_neg hx, if_neg]
          rintro ⟨j, hj, e'⟩
          rcases Nat.lt_or_ge j n with h | h
          · exact hx ⟨j, h, e'⟩
          · have : j = n := by omega
            subst this; exact e e'
  exact key d (le_refl _)

theorem filled (J : JIT K) (shift : K) {i : Nat} (hi : i < J.R.arr.nLeaf) (pos : Nat) (mem : Nat → K) :
    (∀ r < sz J i, ∀ c < sz J i, addShift (sz J i) pos shift (evalDiag J (J.R.leaf i) pos mem) (pos + (r * sz J i + c)) = diag J shift i r c) ∧
    (∀ k, ¬ (pos ≤ k ∧ k < pos + sz J i * sz J i) → addShift (sz J i) pos shift (evalDiag J (J.R.leaf i) pos mem) k = mem k) := by
  have hsz := sz_eq J hi
  constructor
  · intro r hr c hc
    rw [addShift_spec]
    unfold evalDiag diag
    dsimp only
    rw [← hsz]
    have hlt := row_lt hr hc
    rw [if_pos ⟨by omega, by omega⟩, Nat.add_sub_cancel_left, (div_mod_row hc).1, (div_mod_row hc).2]
    congr 1
    by_cases e : r = c
    · rw [if_pos e, if_pos ⟨r, hr, by rw [e]⟩]
    · rw [if_neg e, if_neg]
      rintro ⟨j, hj, e'⟩
      have e1 : r * sz J i + c = j * sz J i + j := by omega
      have a1 := (div_mod_row (r := r) hc)
      have a2 := (div_mod_row (r := j) hj)
      rw [e1] at a1
      exact e (by rw [← a1.1, a2.1, ← a1.2, a2.2])
  · intro k hk
    rw [addShift_spec, if_neg, add_zero]
    · unfold evalDiag
      dsimp only
      rw [← hsz, if_neg hk]
    · rintro ⟨j, hj, e⟩
      have := row_lt hj hj
      exact hk ⟨by omega, by omega⟩

/-- The contract of the two LAPACK calls. -/
structure Inverse.Correct (inverse : Inverse K) : Prop where
  /-- the arguments outside the matrix play no role -/
  congr : ∀ d a a', (∀ i < d, ∀ j < d, a i j = a' i j) → inverse d a = inverse d a'
  ok : ∀ d a X, inverse d a = some X → ∀ i < d, ∀ j < d, ∑ t ∈ range d, a i t * X t j = if i = j then 1 else 0
  fail : ∀ d a, inverse d a = none → ¬ ∃ X : Nat → Nat → K, ∀ i < d, ∀ j < d, ∑ t ∈ range d, a i t * X t j = if i = j then 1 else 0

/-- The preconditioner after the blocks in `l`. -/
structure Built (inverse : Inverse K) (J : JIT K) (shift : K) (l : List Nat) (P : Precond K) : Prop where
  lay : Lay J J.R.arr.nLeaf P
  inv : ∀ i ∈ l, i < J.R.arr.nLeaf → ∃ X, inverse (sz J i) (diag J shift i) = some X ∧
    ∀ r < sz J i, ∀ c < sz J i, P.inv (P.ptr i + (r * sz J i + c)) = X r c

theorem buildBlock_spec {inverse : Inverse K} (hI : inverse.Correct) {J : JIT K} (h : Ready J) (shift : K) {l : List Nat} {P : Precond K} {i : Nat}
    (hi : i < J.R.arr.nLeaf) (hB : Built inverse J shift l P) :
    match buildBlock inverse J shift P i with
    | none => inverse (sz J i) (diag J shift i) = none
    | some P' => Built inverse J shift (i :: l) P' ∧ inverse (sz J i) (diag J shift i) ≠ none := by
  unfold buildBlock
  dsimp only
  rw [hB.lay.sizes i hi]
  have hpos : 0 < sz J i := by
    rw [sz_eq J hi]
    exact Nat.mul_pos (by unfold JIT.npt; omega) h.kdim
  rw [if_neg (by omega)]
  obtain ⟨f1, f2⟩ := filled J shift hi (P.ptr i) P.inv
  have hc : inverse (sz J i) (fun r c => addShift (sz J i) (P.ptr i) shift (evalDiag J (J.R.leaf i) (P.ptr i) P.inv) (P.ptr i + (r * sz J i + c))) =
      inverse (sz J i) (diag J shift i) := hI.congr _ _ _ f1
  rw [hc]
  cases hX : inverse (sz J i) (diag J shift i) with
  | none => rfl
  | some X =>
    refine ⟨⟨⟨hB.lay.nBlock, hB.lay.sizes, hB.lay.displs, hB.lay.ptr, hB.lay.total⟩, ?_⟩, by simp⟩
    dsimp only
    intro j hj hjn
    by_cases e : j = i
    · subst e
      refine ⟨X, hX, fun r hr c hc => ?_⟩
      have hlt := row_lt hr hc
      rw [if_pos ⟨by omega, by omega⟩, Nat.add_sub_cancel_left, (div_mod_row hc).1, (div_mod_row hc).2]
    · rcases List.mem_cons.1 hj with e' | hj
      · exact absurd e' e
      · obtain ⟨Y, hY1, hY2⟩ := hB.inv j hj hjn
        refine ⟨Y, hY1, fun r hr c hc => ?_⟩
        have hlt := row_lt hr hc
        have hn : ¬ (P.ptr i ≤ P.ptr j + (r * sz J j + c) ∧ P.ptr j + (r * sz J j + c) < P.ptr i + sz J i * sz J i) := by
          rw [hB.lay.ptr i hi, hB.lay.ptr j hjn]
          exact prefix_disj (fun t => sz J t * sz J t) e (by omega) (by omega)
        rw [if_neg hn, f2 _ hn]
        exact hY2 r hr c hc

theorem build_spec {inverse : Inverse K} (hI : inverse.Correct) {J : JIT K} (h : Ready J) (shift : K) : ∀ (order done : List Nat) (P : Precond K),
    (∀ i ∈ order, i < J.R.arr.nLeaf) → Built inverse J shift done P →
    match order.foldlM (buildBlock inverse J shift) P with
    | none => ∃ i ∈ order, inverse (sz J i) (diag J shift i) = none
    | some P' => Built inverse J shift (order.reverse ++ done) P' ∧ ∀ i ∈ order, inverse (sz J i) (diag J shift i) ≠ none := by
  intro order
  induction order with
  | nil => intro done P _ hB; exact ⟨hB, by simp⟩
  | cons i order ih =>
    intro done P ho hB
    rw [List.foldlM_cons]
    have hb := buildBlock_spec hI h shift (ho i List.mem_cons_self) hB
    cases hP : buildBlock inverse J shift P i with
    | none => rw [hP] at hb; exact ⟨i, List.mem_cons_self, hb⟩
    | some P1 =>
      rw [hP] at hb
      have := ih (i :: done) P1 (fun j hj => ho j (List.mem_cons_of_mem _ hj)) hb.1
      show match (order.foldlM (buildBlock inverse J shift) P1) with | none => _ | some P' => _
      cases hQ : order.foldlM (buildBlock inverse J shift) P1 with
      | none =>
        rw [hQ] at this
        obtain ⟨j, hj, e⟩ := this
        exact ⟨j, List.mem_cons_of_mem _ hj, e⟩
      | some P2 =>
        rw [hQ] at this
        refine ⟨?_, ?_⟩
        · have e : (i :: order).reverse ++ done = order.reverse ++ (i :: done) := by simp
          rw [e]; exact this.1
        · intro j hj
          rcases List.mem_cons.1 hj with rfl | hj
          · exact hb.2
          · exact this.2 j hj

/-- The product of one block at a position it owns. -/
theorem apply_fold (J : JIT K) {P : Precond K} (hL : Lay J J.R.arr.nLeaf P) (pb : Nat → K) {i k : Nat} (hi : i < J.R.arr.nLeaf)
    (h1 : P.displs i ≤ k) (h2 : k < P.displs i + P.sizes i) : ∀ (order : List Nat) (px : Nat → K), (∀ j ∈ order, j < J.R.arr.nLeaf) → 
    ((i ∈ order ∨ px k = ∑ c ∈ range (P.sizes i), P.inv (P.ptr i + ((k - P.displs i) * P.sizes i + c)) * pb (P.displs i + c))) →
    order.foldl (applyBlock P pb) px k = ∑ c ∈ range (P.sizes i), P.inv (P.ptr i + ((k - P.displs i) * P.sizes i + c)) * pb (P.displs i + c) := by
  intro order
  induction order with
  | nil => intro px _ h; rcases h with h | h
           · simp at h
           · exact h
  | cons j order ih =>
    intro px ho h
    rw [List.foldl_cons]
    apply ih _ (fun j hj => ho j (List.mem_cons_of_mem _ hj))
    by_cases e : j = i
    · right
      subst e
      unfold applyBlock
      rw [if_pos ⟨h1, h2⟩]
    · rcases h with h | h
      · left
        rcases List.mem_cons.1 h with h | h
        · exact absurd h.symm e
        · exact h
      · right
        rw [← h]
        unfold applyBlock
        rw [if_neg]
        have hj := ho j List.mem_cons_self
        rw [hL.sizes i hi, hL.displs i (by omega)] at *
        rw [hL.sizes j hj, hL.displs j (by omega)]
        exact prefix_disj (sz J) (fun e' => e e'.symm) h1 h2

end H2Pack.BJ
