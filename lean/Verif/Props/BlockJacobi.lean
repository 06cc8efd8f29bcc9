import Verif.Proof.BlockJacobi
import Verif.Proof.Desc
import Mathlib.LinearAlgebra.Matrix.NonsingularInverse
import Mathlib.Tactic.NormNum

/-! # C93: the block Jacobi preconditioner -/

namespace H2Pack.BJ
open H2Pack.MV H2Pack.Part Finset

section spec
variable {K : Type} [Field K]

/-- The (original) point `i` is in the leaf `v`. -/
def InLeaf (P : Partitioned K) (v i : Nat) : Prop := ∃ p, P.arr.ptS v ≤ p ∧ p ≤ P.arr.ptE v ∧ P.coordIdx p = i

/-- Two (original) points are in the same leaf of the tree. -/
def SameLeaf (P : Partitioned K) (i j : Nat) : Prop := ∃ v < P.arr.nNode, P.arr.nChild v = 0 ∧ InLeaf P v i ∧ InLeaf P v j

open Classical in
/-- The entry of the matrix that is inverted: `K + shift I` with everything outside the diagonal blocks of the leaves set to zero;
component `a` of point `i`, component `b` of point `j`. -/
noncomputable def blockMatrix (kern : (Nat → K) → (Nat → K) → Nat → Nat → K) (shift : K) (pts : Nat → Nat → K) (P : Partitioned K) (i a j b : Nat) : K :=
  if SameLeaf P i j then kern (pts i) (pts j) a b + (if i = j ∧ a = b then shift else 0) else 0

/-- The handle holds the result of the partitioning. -/
structure Loaded (J : JIT K) (P : Partitioned K) (n xdim : Nat) : Prop where
  npt : J.R.nPoint = n
  arr : J.R.arr = P.arr
  idx : J.R.coordIdx = P.coordIdx
  dim : J.xdim = xdim
  coord : ∀ p < n, ∀ d < xdim, J.coord (d * n + p) = P.coord p d
  kdim : 0 < J.R.kdim

/-- The coordinates the kernel reads of an original point. -/
def orig (xdim : Nat) (coord : Nat → Nat → K) (i : Nat) : Nat → K := fun d => if d < xdim then coord i d else 0

end spec

section
variable {K : Type} [Field K]

/-- One block of the solution. -/
theorem block_value {inverse : Inverse K} {J : JIT K} {shift : K} {l order : List Nat} {Q : Precond K}
    (hB : Built inverse J shift l Q) (hl : ∀ i < J.R.arr.nLeaf, i ∈ l) (ho : ∀ i, i ∈ order ↔ i < J.R.arr.nLeaf) (pb px : Nat → K) {i : Nat}
    (hi : i < J.R.arr.nLeaf) : ∃ X, inverse (sz J i) (diag J shift i) = some X ∧ ∀ r < sz J i,
      order.foldl (applyBlock Q pb) px ((∑ t ∈ range i, sz J t) + r) = ∑ c ∈ range (sz J i), X r c * pb ((∑ t ∈ range i, sz J t) + c) := by
  obtain ⟨X, hX, hv⟩ := hB.inv i (hl i hi) hi
  refine ⟨X, hX, fun r hr => ?_⟩
  have e1 := hB.lay.displs i (by omega)
  have e2 := hB.lay.sizes i hi
  rw [apply_fold J hB.lay pb hi (by omega) (by omega) order px (fun j hj => (ho j).1 hj) (Or.inl ((ho i).2 hi)), e1, e2, Nat.add_sub_cancel_left]
  apply sum_congr rfl
  intro c hc
  rw [hv r hr c (mem_range.1 hc)]

theorem diag_entry (J : JIT K) (shift : K) (i r c : Nat) : diag J shift i r c =
    J.kern (point J.xdim J.coord J.R.nPoint (J.R.arr.ptS (J.R.leaf i) + r / J.R.kdim)) (point J.xdim J.coord J.R.nPoint (J.R.arr.ptS (J.R.leaf i) + c / J.R.kdim))
      (r % J.R.kdim) (c % J.R.kdim) + if r = c then shift else 0 := by
  unfold diag
  congr 1
  show J.kern _ _ _ _ = _
  have hp : ∀ v p, point J.xdim (J.cPts v).1 (J.cPts v).2.1 p = point J.xdim J.coord J.R.nPoint (J.R.arr.ptS v + p) := by
    intro v p
    funext d
    unfold point JIT.cPts
    dsimp only
    congr 2
    omega
  rw [hp, hp]

end

variable {K : Type} [Field K] [LinearOrder K] [IsStrictOrderedRing K]

/-- C93: the leaves in ascending order are consecutive ranges of the sorted points, starting with the first point and ending with the last. -/
theorem C93_leaf_order (ptDim xptDim n : Nat) (hn : 0 < n) (hx : ptDim ≤ xptDim) (coord : Nat → Nat → K) (mlp : Int) (mls : K)
    (rb : Option (H2Pack.Utils.Box K)) (rnd : Nat → K) (junk : Arr K) (g : Nat → Nat → Nat) (fuel : Nat) (P : Partitioned K)
    (h : partitionPoints ptDim xptDim n coord mlp mls rb rnd junk g fuel = .ok P) :
    Tiles 0 n (((List.range P.arr.nLeaf).map P.arr.heightNodes).map fun v => (P.arr.ptS v, P.arr.ptE v)) := by
  have := partitionPoints_spec ptDim xptDim n hn hx coord mlp mls rb rnd junk g fuel
  rw [h] at this
  rw [leaf_list this.tree]
  exact leaf_order ptDim xptDim n hn hx coord mlp mls rb rnd junk g fuel P h

section
variable {ptDim xptDim n : Nat} (hn : 0 < n) (hx : ptDim ≤ xptDim) {coord : Nat → Nat → K} {mlp : Int} {mls : K}
  {rb : Option (H2Pack.Utils.Box K)} {rnd : Nat → K} {junk : Arr K} {g : Nat → Nat → Nat} {fuel : Nat} {P : Partitioned K}
  (h : partitionPoints ptDim xptDim n coord mlp mls rb rnd junk g fuel = .ok P) {J : JIT K} (H : Loaded J P n xptDim)

include hn hx h H

omit H in
theorem outcome : Outcome ptDim xptDim n coord (effLeafPoints ptDim mlp) mls (rb.getD (rootBox ptDim n coord rnd)) P := by
  have := partitionPoints_spec ptDim xptDim n hn hx coord mlp mls rb rnd junk g fuel
  rw [h] at this
  exact this

theorem ready : Ready J := by
  have O := outcome hn hx h
  refine ⟨?_, H.kdim, ?_, ?_⟩
  · rw [H.arr, H.npt]; exact O.tree
  · rw [H.npt, H.idx]; exact O.perm
  · rw [H.npt, H.arr]; exact leaf_order ptDim xptDim n hn hx coord mlp mls rb rnd junk g fuel P h

theorem point_orig {p : Nat} (hp : p < n) : point J.xdim J.coord J.R.nPoint p = orig xptDim coord (P.coordIdx p) := by
  have O := outcome hn hx h
  funext d
  unfold point orig
  rw [H.dim, H.npt]
  split
  · rename_i hd; rw [H.coord p hp d hd, O.sorted p hp d hd]
  · rfl

/-- C93: where the blocks are.  Consecutive blocks of the vector begin at the first row of their leaf (this is also where the
pivots of the leaf are kept), the last one ends with the vector; the inverses do not overlap and fill the allocated array. -/
theorem C93_layout (junk' : Precond K) : let L := layout J junk'
    L.nBlock = P.arr.nLeaf ∧ (∀ i < P.arr.nLeaf, L.displs i = P.arr.ptS (P.arr.heightNodes i) * J.R.kdim ∧
      L.sizes i = (P.arr.ptE (P.arr.heightNodes i) + 1 - P.arr.ptS (P.arr.heightNodes i)) * J.R.kdim ∧ L.displs (i + 1) = L.displs i + L.sizes i ∧
      L.ptr i + L.sizes i * L.sizes i ≤ L.total ∧ ∀ j < i, L.ptr j + L.sizes j * L.sizes j ≤ L.ptr i) ∧
    L.displs L.nBlock = n * J.R.kdim := by
  have R := ready hn hx h H
  have S := layout_spec J junk'
  generalize layout J junk' = L at S
  dsimp only
  obtain ⟨p1, p2⟩ := pos_eq R
  rw [← H.arr]
  refine ⟨S.nBlock, fun i hi => ⟨?_, ?_, ?_, ?_, ?_⟩, ?_⟩
  · rw [S.displs i (by omega), p1 i hi]; rfl
  · rw [S.sizes i hi, sz_eq J hi]
    have := R.tree.clusterLe _ (leaf_mem R hi).1
    unfold JIT.npt
    show _ = (J.R.arr.ptE (J.R.leaf i) + 1 - J.R.arr.ptS (J.R.leaf i)) * _
    congr 1; omega
  · rw [S.displs (i + 1) (by omega), S.displs i (by omega), S.sizes i hi, sum_range_succ]
  · rw [S.total, S.ptr i hi, S.sizes i hi]
    exact prefix_sep (fun t => sz J t * sz J t) hi
  · intro j hj
    rw [S.ptr i hi, S.ptr j (by omega), S.sizes j (by omega)]
    exact prefix_sep (fun t => sz J t * sz J t) hj
  · rw [S.nBlock, S.displs _ (le_refl _), p2, H.npt]

/-- C93: the construction fails exactly if the diagonal block of some leaf, with the shift, has no inverse. -/
theorem C93_build {inverse : Inverse K} (hI : inverse.Correct) (shift : K) (order : List Nat) (ho : ∀ i, i ∈ order ↔ i < P.arr.nLeaf) (junk' : Precond K) :
    build inverse J shift order junk' = none ↔
    ∃ v < P.arr.nNode, P.arr.nChild v = 0 ∧ ¬ ∃ X : Nat → Nat → K, ∀ r < (P.arr.ptE v + 1 - P.arr.ptS v) * J.R.kdim, ∀ c < (P.arr.ptE v + 1 - P.arr.ptS v) * J.R.kdim,
      ∑ t ∈ range ((P.arr.ptE v + 1 - P.arr.ptS v) * J.R.kdim),
        (J.kern (orig xptDim coord (P.coordIdx (P.arr.ptS v + r / J.R.kdim))) (orig xptDim coord (P.coordIdx (P.arr.ptS v + t / J.R.kdim))) (r % J.R.kdim) (t % J.R.kdim) +
          if r = t then shift else 0) * X t c = if r = c then 1 else 0 := by
  have R := ready hn hx h H
  have S := layout_spec J junk'
  rw [← H.arr] at ho
  have hb := build_spec hI R shift order [] (layout J junk') (fun i hi => (ho i).1 hi) ⟨S, by simp⟩
  have key : ∀ i < J.R.arr.nLeaf, (∃ X : Nat → Nat → K, ∀ r < sz J i, ∀ c < sz J i, ∑ t ∈ range (sz J i), diag J shift i r t * X t c = if r = c then 1 else 0) ↔
      ∃ X : Nat → Nat → K, ∀ r < (P.arr.ptE (J.R.leaf i) + 1 - P.arr.ptS (J.R.leaf i)) * J.R.kdim, ∀ c < (P.arr.ptE (J.R.leaf i) + 1 - P.arr.ptS (J.R.leaf i)) * J.R.kdim,
      ∑ t ∈ range ((P.arr.ptE (J.R.leaf i) + 1 - P.arr.ptS (J.R.leaf i)) * J.R.kdim),
        (J.kern (orig xptDim coord (P.coordIdx (P.arr.ptS (J.R.leaf i) + r / J.R.kdim))) (orig xptDim coord (P.coordIdx (P.arr.ptS (J.R.leaf i) + t / J.R.kdim))) (r % J.R.kdim) (t % J.R.kdim) +
          if r = t then shift else 0) * X t c = if r = c then 1 else 0 := by
    intro i hi
    have hle := R.tree.clusterLe _ (leaf_mem R hi).1
    have hlt := R.tree.clusterLt _ (leaf_mem R hi).1
    have hs : sz J i = (P.arr.ptE (J.R.leaf i) + 1 - P.arr.ptS (J.R.leaf i)) * J.R.kdim := by
      rw [sz_eq J hi, ← H.arr]; unfold JIT.npt; congr 1; omega
    rw [← hs]
    have hq : ∀ r < sz J i, J.R.arr.ptS (J.R.leaf i) + r / J.R.kdim < n := by
      intro r hr
      rw [hs, ← H.arr] at hr
      have := (Nat.div_lt_iff_lt_mul H.kdim).2 hr
      rw [← H.npt]; omega
    have e : ∀ r < sz J i, ∀ t < sz J i, diag J shift i r t = J.kern (orig xptDim coord (P.coordIdx (P.arr.ptS (J.R.leaf i) + r / J.R.kdim)))
        (orig xptDim coord (P.coordIdx (P.arr.ptS (J.R.leaf i) + t / J.R.kdim))) (r % J.R.kdim) (t % J.R.kdim) + if r = t then shift else 0 := by
      intro r hr t ht
      rw [diag_entry, point_orig hn hx h H (hq r hr), point_orig hn hx h H (hq t ht), H.arr]
    refine exists_congr fun X => forall_congr' fun r => forall_congr' fun hr => forall_congr' fun c => forall_congr' fun hc => ?_
    rw [sum_congr rfl (fun t ht => by rw [e r hr t (mem_range.1 ht)])]
  have ex : (∃ i ∈ order, inverse (sz J i) (diag J shift i) = none) ↔ ∃ v < P.arr.nNode, P.arr.nChild v = 0 ∧ ¬ ∃ X : Nat → Nat → K, ∀ r < (P.arr.ptE v + 1 - P.arr.ptS v) * J.R.kdim, ∀ c < (P.arr.ptE v + 1 - P.arr.ptS v) * J.R.kdim,
      ∑ t ∈ range ((P.arr.ptE v + 1 - P.arr.ptS v) * J.R.kdim),
        (J.kern (orig xptDim coord (P.coordIdx (P.arr.ptS v + r / J.R.kdim))) (orig xptDim coord (P.coordIdx (P.arr.ptS v + t / J.R.kdim))) (r % J.R.kdim) (t % J.R.kdim) +
          if r = t then shift else 0) * X t c = if r = c then 1 else 0 := by
    constructor
    · rintro ⟨i, hi, hni⟩
      have hi' := (ho i).1 hi
      refine ⟨J.R.leaf i, ?_, ?_, ?_⟩
      · rw [← H.arr]; exact (leaf_mem R hi').1
      · rw [← H.arr]; exact (leaf_mem R hi').2
      · rw [← key i hi']; exact hI.fail _ _ hni
    · rintro ⟨v, hv, h0, hX⟩
      rw [← H.arr] at hv h0
      obtain ⟨i, hi, rfl⟩ := leaf_ex R hv h0
      refine ⟨i, (ho i).2 hi, ?_⟩
      rw [← key i hi] at hX
      cases hc : inverse (sz J i) (diag J shift i) with
      | none => rfl
      | some X => exact absurd ⟨X, hI.ok _ _ _ hc⟩ hX
  rw [← ex]
  unfold build
  cases hc : order.foldlM (buildBlock inverse J shift) (layout J junk') with
  | none =>
    rw [hc] at hb
    exact ⟨fun _ => hb, fun _ => rfl⟩
  | some Q =>
    rw [hc] at hb
    refine ⟨fun e => absurd e (by simp), ?_⟩
    rintro ⟨i, hi, e⟩
    exact absurd e (hb.2 i hi)

theorem sameLeaf_pos {p q : Nat} (hp : p < n) (hq : q < n) : SameLeaf P (P.coordIdx p) (P.coordIdx q) ↔
    ∃ i < J.R.arr.nLeaf, (J.R.arr.ptS (J.R.leaf i) ≤ p ∧ p ≤ J.R.arr.ptE (J.R.leaf i)) ∧ J.R.arr.ptS (J.R.leaf i) ≤ q ∧ q ≤ J.R.arr.ptE (J.R.leaf i) := by
  have O := outcome hn hx h
  have R := ready hn hx h H
  constructor
  · rintro ⟨v, hv, h0, ⟨p', a1, a2, a3⟩, ⟨q', b1, b2, b3⟩⟩
    rw [← H.arr] at hv h0
    obtain ⟨i, hi, rfl⟩ := leaf_ex R hv h0
    have hlt := R.tree.clusterLt _ hv
    rw [H.npt, H.arr] at hlt
    have e1 := perm_inj O.perm (by omega) hp a3
    have e2 := perm_inj O.perm (by omega) hq b3
    subst e1; subst e2
    rw [H.arr]
    exact ⟨i, by rw [← H.arr]; exact hi, ⟨a1, a2⟩, b1, b2⟩
  · rintro ⟨i, hi, ⟨a1, a2⟩, b1, b2⟩
    have hm := leaf_mem R hi
    rw [H.arr] at hm a1 a2 b1 b2
    exact ⟨J.R.leaf i, hm.1, hm.2, ⟨p, a1, a2, rfl⟩, ⟨q, b1, b2, rfl⟩⟩

/-- C93: the preconditioner solves the block diagonal system, in the original order of the points. -/
theorem C93_solves {inverse : Inverse K} (hI : inverse.Correct) (shift : K) (order : List Nat) (ho : ∀ i, i ∈ order ↔ i < P.arr.nLeaf) (junk' Q : Precond K)
    (hQ : build inverse J shift order junk' = some Q) (order' : List Nat) (ho' : ∀ i, i ∈ order' ↔ i < P.arr.nLeaf) (gp : (Nat → Nat) × (Nat → Nat)) (pb px x b : Nat → K) :
    ∀ i < n, ∀ a < J.R.kdim, ∑ j ∈ range n, ∑ c ∈ range J.R.kdim,
      blockMatrix J.kern shift (orig xptDim coord) P i a j c * apply J.R Q order' gp pb px x b (j * J.R.kdim + c) = b (i * J.R.kdim + a) := by
  classical
  have O := outcome hn hx h
  have R := ready hn hx h H
  have S := layout_spec J junk'
  rw [← H.arr] at ho ho'
  have hb := build_spec hI R shift order [] (layout J junk') (fun i hi => (ho i).1 hi) ⟨S, by simp⟩
  have hQ' : order.foldlM (buildBlock inverse J shift) (layout J junk') = some Q := hQ
  rw [hQ'] at hb
  have hB := hb.1
  have C := C26_permutations J.R R.perm gp
  rw [H.npt, H.idx] at C
  intro i hi a ha
  obtain ⟨p, hp, rfl⟩ := perm_surj O.perm hi
  have hval : ∀ q < n, ∀ c < J.R.kdim, apply J.R Q order' gp pb px x b (P.coordIdx q * J.R.kdim + c) =
      order'.foldl (applyBlock Q (permuteFwd J.R gp b pb)) px (q * J.R.kdim + c) := fun q hq c hc => (C _ x x).2.1 q hq c hc
  have hin : ∀ q < n, ∀ c < J.R.kdim, permuteFwd J.R gp b pb (q * J.R.kdim + c) = b (P.coordIdx q * J.R.kdim + c) := fun q hq c hc => (C b pb pb).1 q hq c hc
  have hsum : ∀ f : Nat → K, ∑ j ∈ range n, f j = ∑ q ∈ range n, f (P.coordIdx q) := by
    intro f
    symm
    refine sum_bij (fun q _ => P.coordIdx q) (fun q hq => by rw [mem_range] at *; exact perm_lt O.perm hq) ?_ ?_ (fun _ _ => rfl)
    · intro q hq q' hq' e
      rw [mem_range] at hq hq'
      exact perm_inj O.perm hq hq' e
    · intro j hj
      obtain ⟨q, hq, e⟩ := perm_surj O.perm (mem_range.1 hj)
      exact ⟨q, mem_range.2 hq, e⟩
  rw [hsum]
  -- the leaf of the point
  obtain ⟨y, hy, y1, y2⟩ := H2Pack.Part.ClusterTree.tiles_cover _ 0 J.R.nPoint R.tiles p (Nat.zero_le _) (by rw [H.npt]; exact hp)
  rw [List.mem_map] at hy
  obtain ⟨v, hv, rfl⟩ := hy
  unfold leaves at hv
  rw [List.mem_filter, List.mem_range] at hv
  obtain ⟨l, hl, rfl⟩ := leaf_ex R hv.1 (by simpa using hv.2)
  dsimp only at y1 y2
  have hclt := R.tree.clusterLt _ hv.1
  rw [H.npt] at hclt
  obtain ⟨p1, p2⟩ := pos_eq R
  have hsz : sz J l = (J.R.arr.ptE (J.R.leaf l) + 1 - J.R.arr.ptS (J.R.leaf l)) * J.R.kdim := by
    rw [sz_eq J hl]; unfold JIT.npt; congr 1; omega
  have hsame : ∀ q < n, SameLeaf P (P.coordIdx p) (P.coordIdx q) ↔ J.R.arr.ptS (J.R.leaf l) ≤ q ∧ q ≤ J.R.arr.ptE (J.R.leaf l) := by
    intro q hq
    rw [sameLeaf_pos hn hx h H hp hq]
    constructor
    · rintro ⟨m, hm, ⟨a1, a2⟩, b1, b2⟩
      have : J.R.leaf m = J.R.leaf l := H2Pack.Part.ClusterTree.tiles_unique (fun v => (J.R.arr.ptS v, J.R.arr.ptE v)) _ 0 J.R.nPoint R.tiles
        (List.Nodup.filter _ List.nodup_range) p _ _ (by unfold leaves; rw [List.mem_filter, List.mem_range]; exact ⟨(leaf_mem R hm).1, by simpa using (leaf_mem R hm).2⟩)
        (by unfold leaves; rw [List.mem_filter, List.mem_range]; exact hv) a1 a2 y1 y2
      rw [this] at b1 b2
      exact ⟨b1, b2⟩
    · rintro ⟨b1, b2⟩
      exact ⟨l, hl, ⟨y1, y2⟩, b1, b2⟩
  obtain ⟨X, hX, hx'⟩ := block_value hB (fun i hi => by simpa using (ho i).2 hi) ho' (permuteFwd J.R gp b pb) px hl
  rw [p1 l hl] at hx'
  have hok := hI.ok _ _ _ hX
  generalize hs : J.R.arr.ptS (J.R.leaf l) = s at *
  generalize he : J.R.arr.ptE (J.R.leaf l) = e at *
  generalize hpx : order'.foldl (applyBlock Q (permuteFwd J.R gp b pb)) px = Y at *
  generalize hpb : permuteFwd J.R gp b pb = Bv at *
  set kd := J.R.kdim with hkd
  -- the rows of the leaf
  have hsplit : ∀ f : Nat → Nat → K, (∀ q < n, ∀ c, ¬ (s ≤ q ∧ q ≤ e) → f q c = 0) →
      ∑ q ∈ range n, ∑ c ∈ range kd, f q c = ∑ t ∈ range (sz J l), f (s + t / kd) (t % kd) := by
    intro f hf
    rw [hsz, sum_rows]
    have e1 : ∑ q ∈ range n, ∑ c ∈ range kd, f q c = ∑ q ∈ Ico s (e + 1), ∑ c ∈ range kd, f q c := by
      symm
      apply sum_subset
      · intro q hq; rw [mem_Ico] at hq; rw [mem_range]; omega
      · intro q hqn hq
        rw [mem_Ico] at hq
        exact sum_eq_zero (fun c _ => hf q (mem_range.1 hqn) c (by omega))
    rw [e1, sum_Ico_eq_sum_range]
    apply sum_congr rfl; intro q _
    apply sum_congr rfl; intro c hc
    rw [(div_mod_row (mem_range.1 hc)).1, (div_mod_row (mem_range.1 hc)).2]
  have hr : (p - s) * kd + a < sz J l := by
    rw [hsz]; exact row_lt (by omega) ha
  have hrow : ∀ t < sz J l, s + t / kd < n ∧ s * kd + t = (s + t / kd) * kd + t % kd ∧ t % kd < kd ∧ s + t / kd ≤ e := by
    intro t ht
    rw [hsz] at ht
    have h1 : t / kd < e + 1 - s := (Nat.div_lt_iff_lt_mul H.kdim).2 ht
    have h2 : kd * (t / kd) + t % kd = t := Nat.div_add_mod t kd
    refine ⟨by omega, ?_, Nat.mod_lt _ H.kdim, by omega⟩
    rw [Nat.add_mul, Nat.mul_comm (t / kd)]; omega
  rw [hsplit]
  · have step : ∀ t ∈ range (sz J l), blockMatrix J.kern shift (orig xptDim coord) P (P.coordIdx p) a (P.coordIdx (s + t / kd)) (t % kd) *
        apply J.R Q order' gp pb px x b (P.coordIdx (s + t / kd) * kd + t % kd) =
        ∑ c ∈ range (sz J l), diag J shift l ((p - s) * kd + a) t * X t c * Bv (s * kd + c) := by
      intro t ht
      rw [mem_range] at ht
      obtain ⟨t1, t2, t3, t4⟩ := hrow t ht
      rw [hval _ t1 _ t3, ← t2, hx' t ht, mul_sum]
      apply sum_congr rfl
      intro c _
      rw [← mul_assoc]
      congr 2
      unfold blockMatrix
      rw [if_pos ((hsame _ t1).2 ⟨Nat.le_add_right _ _, t4⟩), diag_entry, hs, (div_mod_row ha).1, (div_mod_row ha).2, Nat.add_sub_cancel' y1,
        point_orig hn hx h H hp, point_orig hn hx h H t1]
      congr 1
      have hiff : (P.coordIdx p = P.coordIdx (s + t / kd) ∧ a = t % kd) ↔ (p - s) * kd + a = t := by
        constructor
        · rintro ⟨c1, c2⟩
          have := perm_inj O.perm hp t1 c1
          have e4 : p - s = t / kd := by rw [this]; exact Nat.add_sub_cancel_left _ _
          rw [c2, e4, Nat.mul_comm]
          exact Nat.div_add_mod t kd
        · intro c1
          rw [← c1, (div_mod_row ha).1, (div_mod_row ha).2, Nat.add_sub_cancel' y1]
          exact ⟨rfl, rfl⟩
      simp only [hiff]
    rw [sum_congr rfl step, sum_comm]
    have : ∀ c ∈ range (sz J l), ∑ t ∈ range (sz J l), diag J shift l ((p - s) * kd + a) t * X t c * Bv (s * kd + c) =
        if (p - s) * kd + a = c then Bv (s * kd + c) else 0 := by
      intro c hc
      rw [← sum_mul, hok _ hr c (mem_range.1 hc)]
      split <;> simp
    rw [sum_congr rfl this, sum_ite_eq, if_pos (mem_range.2 hr)]
    rw [show s * kd + ((p - s) * kd + a) = p * kd + a by rw [← Nat.add_assoc, ← Nat.add_mul, Nat.add_sub_cancel' y1], hin p hp a ha]
  · intro q hqn c hq
    unfold blockMatrix
    rw [if_neg, zero_mul]
    rw [hsame q hqn]; exact hq

/-- C93: the result depends neither on the orders in which the blocks are built and applied nor on what the buffers held before. -/
theorem C93_history {inverse : Inverse K} (hI : inverse.Correct) (shift : K) (o1 o2 o1' o2' : List Nat)
    (h1 : ∀ i, i ∈ o1 ↔ i < P.arr.nLeaf) (h2 : ∀ i, i ∈ o2 ↔ i < P.arr.nLeaf) (h1' : ∀ i, i ∈ o1' ↔ i < P.arr.nLeaf) (h2' : ∀ i, i ∈ o2' ↔ i < P.arr.nLeaf)
    (junk1 junk2 Q1 Q2 : Precond K) (hQ1 : build inverse J shift o1 junk1 = some Q1) (hQ2 : build inverse J shift o2 junk2 = some Q2)
    (g1 g2 : (Nat → Nat) × (Nat → Nat)) (pb1 px1 x1 pb2 px2 x2 b : Nat → K) : ∀ k < n * J.R.kdim,
    apply J.R Q1 o1' g1 pb1 px1 x1 b k = apply J.R Q2 o2' g2 pb2 px2 x2 b k := by
  have O := outcome hn hx h
  have R := ready hn hx h H
  rw [← H.arr] at h1 h2 h1' h2'
  have hb1 := build_spec hI R shift o1 [] (layout J junk1) (fun i hi => (h1 i).1 hi) ⟨layout_spec J junk1, by simp⟩
  have hb2 := build_spec hI R shift o2 [] (layout J junk2) (fun i hi => (h2 i).1 hi) ⟨layout_spec J junk2, by simp⟩
  have e1 : o1.foldlM (buildBlock inverse J shift) (layout J junk1) = some Q1 := hQ1
  have e2 : o2.foldlM (buildBlock inverse J shift) (layout J junk2) = some Q2 := hQ2
  rw [e1] at hb1
  rw [e2] at hb2
  have C := fun gp => C26_permutations J.R R.perm gp
  rw [H.npt, H.idx] at C
  intro k hk
  obtain ⟨i, hi, a, ha, rfl⟩ := row_split hk
  obtain ⟨p, hp, rfl⟩ := perm_surj O.perm hi
  have v1 : apply J.R Q1 o1' g1 pb1 px1 x1 b (P.coordIdx p * J.R.kdim + a) = o1'.foldl (applyBlock Q1 (permuteFwd J.R g1 b pb1)) px1 (p * J.R.kdim + a) := (C g1 _ x1 x1).2.1 p hp a ha
  have v2 : apply J.R Q2 o2' g2 pb2 px2 x2 b (P.coordIdx p * J.R.kdim + a) = o2'.foldl (applyBlock Q2 (permuteFwd J.R g2 b pb2)) px2 (p * J.R.kdim + a) := (C g2 _ x2 x2).2.1 p hp a ha
  rw [v1, v2]
  obtain ⟨y, hy, y1, y2⟩ := H2Pack.Part.ClusterTree.tiles_cover _ 0 J.R.nPoint R.tiles p (Nat.zero_le _) (by rw [H.npt]; exact hp)
  rw [List.mem_map] at hy
  obtain ⟨v, hv, rfl⟩ := hy
  unfold leaves at hv
  rw [List.mem_filter, List.mem_range] at hv
  obtain ⟨l, hl, rfl⟩ := leaf_ex R hv.1 (by simpa using hv.2)
  dsimp only at y1 y2
  have hclt := R.tree.clusterLt _ hv.1
  rw [H.npt] at hclt
  obtain ⟨p1, p2⟩ := pos_eq R
  have hsz : sz J l = (J.R.arr.ptE (J.R.leaf l) + 1 - J.R.arr.ptS (J.R.leaf l)) * J.R.kdim := by
    rw [sz_eq J hl]; unfold JIT.npt; congr 1; omega
  obtain ⟨X, hX, w1⟩ := block_value hb1.1 (fun i hi => by simpa using (h1 i).2 hi) h1' (permuteFwd J.R g1 b pb1) px1 hl
  obtain ⟨Y, hY, w2⟩ := block_value hb2.1 (fun i hi => by simpa using (h2 i).2 hi) h2' (permuteFwd J.R g2 b pb2) px2 hl
  rw [hX] at hY
  injection hY with hY
  subst hY
  rw [p1 l hl] at w1 w2
  have hr : (p - J.R.arr.ptS (J.R.leaf l)) * J.R.kdim + a < sz J l := by
    rw [hsz]; exact row_lt (by omega) ha
  have e : p * J.R.kdim + a = J.R.arr.ptS (J.R.leaf l) * J.R.kdim + ((p - J.R.arr.ptS (J.R.leaf l)) * J.R.kdim + a) := by
    rw [← Nat.add_assoc, ← Nat.add_mul, Nat.add_sub_cancel' y1]
  rw [e, w1 _ hr, w2 _ hr]
  apply sum_congr rfl
  intro c hc
  rw [mem_range] at hc
  congr 1
  have hlt : J.R.arr.ptS (J.R.leaf l) * J.R.kdim + c < n * J.R.kdim := by
    rw [hsz] at hc
    calc J.R.arr.ptS (J.R.leaf l) * J.R.kdim + c < J.R.arr.ptS (J.R.leaf l) * J.R.kdim + (J.R.arr.ptE (J.R.leaf l) + 1 - J.R.arr.ptS (J.R.leaf l)) * J.R.kdim := by omega
      _ = (J.R.arr.ptE (J.R.leaf l) + 1) * J.R.kdim := by rw [← Nat.add_mul]; congr 1; omega
      _ ≤ n * J.R.kdim := Nat.mul_le_mul_right _ (by omega)
  obtain ⟨q, hq, a', ha', e'⟩ := row_split hlt
  rw [e', (C g1 b pb1 pb1).1 q hq a' ha', (C g2 b pb2 pb2).1 q hq a' ha']

end

/-! ## A concrete case -/

section
open Classical in
/-- Routines with the contract exist. -/
noncomputable def exInverse : Inverse ℚ := fun d a =>
  let A : Matrix (Fin d) (Fin d) ℚ := Matrix.of fun i j => a i j
  if IsUnit A.det then some fun i j => if h : i < d ∧ j < d then A⁻¹ ⟨i, h.1⟩ ⟨j, h.2⟩ else 0 else none

theorem exInverse_correct : exInverse.Correct := by
  classical
  have conv : ∀ (d : Nat) (a X : Nat → Nat → ℚ), (∀ i < d, ∀ j < d, ∑ t ∈ range d, a i t * X t j = if i = j then 1 else 0) ↔
      (Matrix.of fun i j : Fin d => a i j) * (Matrix.of fun i j : Fin d => X i j) = 1 := by
    intro d a X
    constructor
    · intro h
      ext i j
      rw [Matrix.mul_apply, Matrix.one_apply]
      have := h i i.2 j j.2
      rw [← Fin.sum_univ_eq_sum_range (fun t => a i t * X t j)] at this
      simp only [Matrix.of_apply]
      rw [this]
      simp only [Fin.ext_iff]
    · intro h i hi j hj
      have := congrFun (congrFun h ⟨i, hi⟩) ⟨j, hj⟩
      rw [Matrix.mul_apply, Matrix.one_apply] at this
      simp only [Matrix.of_apply, Fin.mk.injEq] at this
      rw [← Fin.sum_univ_eq_sum_range (fun t => a i t * X t j), this]
  constructor
  · intro d a a' h
    have : (Matrix.of fun i j : Fin d => a i j) = Matrix.of fun i j : Fin d => a' i j := by
      ext i j; exact h i i.2 j j.2
    unfold exInverse
    dsimp only
    rw [this]
  · intro d a X h
    unfold exInverse at h
    dsimp only at h
    split at h
    · rename_i hu
      injection h with h
      rw [conv, ← h]
      have : (Matrix.of fun i j : Fin d => if h : (i : Nat) < d ∧ (j : Nat) < d then (Matrix.of fun i j : Fin d => a i j)⁻¹ ⟨i, h.1⟩ ⟨j, h.2⟩ else 0) =
          (Matrix.of fun i j : Fin d => a i j)⁻¹ := by
        ext i j
        simp
      rw [this]
      exact Matrix.mul_nonsing_inv _ hu
    · cases h
  · intro d a h
    unfold exInverse at h
    dsimp only at h
    split at h
    · cases h
    · rename_i hu
      rintro ⟨X, hX⟩
      rw [conv] at hX
      exact hu ((Matrix.isUnit_iff_isUnit_det _).1 (IsUnit.of_mul_eq_one _ hX))

def exCheck : Bool :=
  match partitionPoints 1 1 6 lineCoord 1 (1/100) (some lineBox) (fun _ => 0) exJunk (fun _ _ => 0) 10 with
  | .ok R => decide (R.arr.nLeaf = 6) && (List.range R.arr.nNode).all fun v => R.arr.nChild v ≠ 0 || R.arr.ptE v = R.arr.ptS v
  | _ => false

set_option maxRecDepth 100000 in
theorem exCheck_eq : exCheck = true := by decide +kernel

/-- Six points on a line in six leaves, all entries of the kernel matrix 1, shift 2. -/
example : ∃ (P : Partitioned ℚ) (J : JIT ℚ) (Q : Precond ℚ), partitionPoints 1 1 6 lineCoord 1 (1/100) (some lineBox) (fun _ => 0) exJunk (fun _ _ => 0) 10 = .ok P ∧
    Loaded J P 6 1 ∧ (∀ i, i ∈ [5, 3, 1, 0, 2, 4] ↔ i < P.arr.nLeaf) ∧
    build exInverse J 2 [5, 3, 1, 0, 2, 4] ⟨9, fun _ => 9, fun _ => 9, fun _ => 9, 9, fun _ => 9⟩ = some Q := by
  have h := exCheck_eq
  unfold exCheck at h
  cases h1 : partitionPoints 1 1 6 lineCoord 1 (1/100) (some lineBox) (fun _ => 0) exJunk (fun _ _ => 0) 10 with
  | ub => rw [h1] at h; simp at h
  | diverge => rw [h1] at h; simp at h
  | ok P =>
    rw [h1] at h
    simp only [Bool.and_eq_true, decide_eq_true_eq, List.all_eq_true, List.mem_range, Bool.or_eq_true] at h
    obtain ⟨hL, h⟩ := h
    let J : JIT ℚ := ⟨⟨P.arr, 6, 1, P.coordIdx, fun _ => ⟨0, 0, fun _ _ => 0⟩, [], [], fun _ => ⟨0, 0, fun _ _ => 0⟩, fun _ => ⟨0, 0, fun _ _ => 0⟩, 0, fun _ => 0⟩,
      4, 1, fun _ _ _ _ => 1, none, fun p => P.coord p 0, fun _ => 0, fun _ _ => 0, fun _ _ => 0, fun _ _ => 0⟩
    have HL : Loaded J P 6 1 := ⟨rfl, rfl, rfl, rfl, by
      intro p hp d hd
      obtain rfl : d = 0 := by omega
      show P.coord (0 * 6 + p) 0 = _
      congr 1; omega, Nat.one_pos⟩
    have ho : ∀ i, i ∈ [5, 3, 1, 0, 2, 4] ↔ i < P.arr.nLeaf := by
      intro i; rw [hL]; simp only [List.mem_cons, List.not_mem_nil, or_false]; omega
    have hb := C93_build (by norm_num) (le_refl 1) h1 HL exInverse_correct 2 [5, 3, 1, 0, 2, 4] ho ⟨9, fun _ => 9, fun _ => 9, fun _ => 9, 9, fun _ => 9⟩
    cases hq : build exInverse J 2 [5, 3, 1, 0, 2, 4] ⟨9, fun _ => 9, fun _ => 9, fun _ => 9, 9, fun _ => 9⟩ with
    | some Q => exact ⟨P, J, Q, rfl, HL, ho, hq⟩
    | none =>
      exfalso
      obtain ⟨v, hv, h0, hX⟩ := hb.1 hq
      apply hX
      refine ⟨fun _ _ => 1/3, ?_⟩
      have he : P.arr.ptE v = P.arr.ptS v := by
        rcases h v hv with h | h
        · simp [h0] at h
        · simpa using h
      have hd : (P.arr.ptE v + 1 - P.arr.ptS v) * J.R.kdim = 1 := by
        show (P.arr.ptE v + 1 - P.arr.ptS v) * 1 = 1
        omega
      rw [hd]
      intro r hr c hc
      obtain rfl : r = 0 := by omega
      obtain rfl : c = 0 := by omega
      rw [sum_range_one]
      show ((1 : ℚ) + _) * _ = _
      norm_num

end

end H2Pack.BJ
