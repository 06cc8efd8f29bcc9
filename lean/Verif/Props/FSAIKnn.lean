import Verif.Proof.FSAIKnn

/-! # C98: nearest neighbours with the partition tree -/

namespace H2Pack.FKnn
open H2Pack.Part
open H2Pack.Utils (checkBoxAdmissible)

section spec
variable {K : Type} [Field K] [LinearOrder K]

/-- Point `q` is in a leaf whose box is not admissible to the box of leaf `v`. -/
def Near (A : Arr K) (ptDim v q : Nat) : Prop :=
  ∃ w < A.nNode, A.nChild w = 0 ∧ A.ptS w ≤ q ∧ q ≤ A.ptE w ∧ checkBoxAdmissible (A.enbox v) (A.enbox w) ptDim alphaH2 = false

open Classical in
/-- The points near leaf `v`, in ascending order. -/
noncomputable def nearPoints (A : Arr K) (ptDim n v : Nat) : List Nat := (List.range n).filter fun q => decide (Near A ptDim v q)

/-- `L` is a correct answer for point `p`: the `k` points of `cs` of smallest `D p`, or all of them, filled up with `p`. -/
def IsKnn (D : Nat → Nat → K) (cs : List Nat) (k p : Nat) (L : List Nat) : Prop :=
  (k < cs.length → L.length = k ∧ L.Nodup ∧ (∀ q ∈ L, q ∈ cs) ∧ ∀ q ∈ L, ∀ q' ∈ cs, q' ∉ L → D p q ≤ D p q') ∧
  (cs.length ≤ k → L = cs ++ List.replicate (k - cs.length) p)

/-- What the code minimises: the squared distance in the plane; in space the difference of the second coordinates counts twice and the third coordinate not
at all. -/
def usedDist (ptDim : Nat) (x y : Nat → K) : K := if ptDim = 2 then (x 0 - y 0) ^ 2 + (x 1 - y 1) ^ 2 else (x 0 - y 0) ^ 2 + 2 * (x 1 - y 1) ^ 2

/-- The buffers hold the points near leaf `v`. -/
def Fits (A : Arr K) (ptDim n mlp mn v : Nat) : Prop :=
  (nearPoints A ptDim n v).length ≤ mlp * mn ∧ (A.ptE v + 1 - A.ptS v) * (nearPoints A ptDim n v).length ≤ mlp * (mlp * mn)

end spec

section
variable {K : Type} [Field K] [LinearOrder K]

theorem pairDist_eq (ptDim : Nat) (c : Nat → Nat → K) (p q : Nat) : pairDist ptDim c p q = usedDist ptDim (c p) (c q) := by
  unfold pairDist usedDist calc2D calc3D
  split <;> ring

variable [IsStrictOrderedRing K] {ptDim xptDim n : Nat} (hn : 0 < n) (hx : ptDim ≤ xptDim) {coord : Nat → Nat → K} {mlp : Int} {mls : K}
  {rb : Option (H2Pack.Utils.Box K)} {rnd : Nat → K} {junk : Arr K} {g : Nat → Nat → Nat} {fuel : Nat} {P : Partitioned K}
  (h : partitionPoints ptDim xptDim n coord mlp mls rb rnd junk g fuel = .ok P)

include hn hx h

theorem leaf_tiles : ClusterTree P.arr n ∧ (List.range P.arr.nLeaf).map P.arr.heightNodes = leaves P.arr ∧
    Tiles 0 n ((leaves P.arr).map fun v => (P.arr.ptS v, P.arr.ptE v)) := by
  have O := BJ.outcome hn hx h
  exact ⟨O.tree, H2Pack.MV.leaf_list O.tree, leaf_order ptDim xptDim n hn hx coord mlp mls rb rnd junk g fuel P h⟩

theorem cands_eq (v : Nat) : cands P.arr ptDim v = nearPoints P.arr ptDim n v := by
  obtain ⟨T, hl, ht⟩ := leaf_tiles hn hx h
  unfold cands nearPoints
  rw [hl]
  have := flatMap_tiles (s := P.arr.ptS) (e := P.arr.ptE) (fun w => checkBoxAdmissible (P.arr.enbox v) (P.arr.enbox w) ptDim alphaH2) _ _ _ ht
  rw [this, Nat.sub_zero, ← List.range_eq_range']
  apply List.filter_congr
  intro q _
  rw [Bool.eq_iff_iff, List.any_eq_true, @decide_eq_true_eq _ (Classical.propDecidable _)]
  constructor
  · rintro ⟨w, hw, hc⟩
    simp only [Bool.and_eq_true, decide_eq_true_eq, Bool.not_eq_true'] at hc
    obtain ⟨hw1, hw2⟩ := List.mem_filter.1 hw
    exact ⟨w, List.mem_range.1 hw1, by simpa using hw2, hc.1.1, hc.1.2, hc.2⟩
  · rintro ⟨w, hw1, hw2, h1, h2, h3⟩
    refine ⟨w, List.mem_filter.2 ⟨List.mem_range.2 hw1, by simpa using hw2⟩, ?_⟩
    simp only [Bool.and_eq_true, decide_eq_true_eq, Bool.not_eq_true']
    exact ⟨⟨h1, h2⟩, h3⟩

theorem fit_iff (a b v : Nat) : FitOK P.arr ptDim a b v ↔ Fits P.arr ptDim n a b v := by
  unfold FitOK Fits
  rw [cands_eq hn hx h]

omit hn hx h in
omit [Field K] [LinearOrder K] [IsStrictOrderedRing K] in
theorem leaf_mem {A : Arr K} {v : Nat} (hv : v < A.nNode) (h0 : A.nChild v = 0) : v ∈ leaves A :=
  List.mem_filter.2 ⟨List.mem_range.2 hv, by simpa using h0⟩

/-- C98 (the result): when the points near each leaf fit into the buffers, the search ends and every row holds the nearest points among the points near the
leaf of the point. -/
theorem C98_knn (a b k : Nat) (hfit : ∀ v < P.arr.nNode, P.arr.nChild v = 0 → Fits P.arr ptDim n a b v) :
    ∃ nn, Returns (knn P.arr ptDim P.coord a b k) nn ∧ ∀ v < P.arr.nNode, P.arr.nChild v = 0 → ∀ p, P.arr.ptS v ≤ p → p ≤ P.arr.ptE v →
      IsKnn (fun p q => usedDist ptDim (P.coord p) (P.coord q)) (nearPoints P.arr ptDim n v) k p (nn p) := by
  obtain ⟨T, hl, ht⟩ := leaf_tiles hn hx h
  have hnd : ∀ v, (cands P.arr ptDim v).Nodup := by
    intro v
    rw [cands_eq hn hx h]
    exact List.Nodup.filter _ List.nodup_range
  obtain ⟨G, hG, _, hr⟩ := fold_spec P.arr ptDim P.coord a b k (leaves P.arr) (fun _ => [])
    (fun v hv => by
      obtain ⟨h1, h2⟩ := List.mem_filter.1 hv
      exact ⟨(fit_iff hn hx h a b v).2 (hfit v (List.mem_range.1 h1) (by simpa using h2)), hnd v⟩)
    (fun v hv w hw p h1 h2 h3 h4 => H2Pack.Part.ClusterTree.tiles_unique (fun v => (P.arr.ptS v, P.arr.ptE v)) _ _ _ ht (List.Nodup.filter _ List.nodup_range) p v w hv hw h1 h2 h3 h4)
  refine ⟨G, ?_, fun v hv h0 p h1 h2 => ?_⟩
  · obtain ⟨F, hF⟩ := hG
    refine ⟨F, fun fu hfu => ?_⟩
    have e := hF fu hfu
    dsimp only at e
    unfold knn
    rw [hl]
    exact e
  · have := hr v (leaf_mem hv h0) p h1 h2
    rw [cands_eq hn hx h] at this
    unfold RowOK at this
    simp only [pairDist_eq] at this
    exact this

/-- C98 (the distance): in terms of the points of the user. -/
theorem C98_distance (p q : Nat) (hp : p < n) (hq : q < n) (h2 : 2 ≤ xptDim) :
    usedDist ptDim (P.coord p) (P.coord q) = usedDist ptDim (coord (P.coordIdx p)) (coord (P.coordIdx q)) := by
  have O := BJ.outcome hn hx h
  unfold usedDist
  rw [O.sorted p hp 0 (by omega), O.sorted p hp 1 (by omega), O.sorted q hq 0 (by omega), O.sorted q hq 1 (by omega)]

/-- C98 (too many points): a leaf with more points near it than the buffers hold makes the search write behind them; it never returns a result. -/
theorem C98_overflow (a b k : Nat) {v : Nat} (hv : v < P.arr.nNode) (h0 : P.arr.nChild v = 0) (hf : ¬ Fits P.arr ptDim n a b v) (fu : Nat) (G : Nat → List Nat) :
    knn P.arr ptDim P.coord a b k fu ≠ .ok G := by
  obtain ⟨T, hl, ht⟩ := leaf_tiles hn hx h
  unfold knn
  rw [hl]
  exact fold_ub P.arr ptDim P.coord a b k fu v (fun hc => hf ((fit_iff hn hx h a b v).1 hc)) _ _ (leaf_mem hv h0) G

omit hn hx h in
omit [IsStrictOrderedRing K] in
/-- C98 (three dimensions): the distances do not depend on the third coordinate: given the tree, the same neighbours are found for any heights of the points. -/
theorem C98_third_coordinate (A : Arr K) (ptDim a b k fu : Nat) (c c' : Nat → Nat → K) (hc : ∀ p, ∀ d < 2, c p d = c' p d) :
    knn A ptDim c a b k fu = knn A ptDim c' a b k fu := by
  have : pairDist ptDim c = pairDist ptDim c' := by
    funext p q
    unfold pairDist calc2D calc3D
    rw [hc p 0 (by omega), hc p 1 (by omega), hc q 0 (by omega), hc q 1 (by omega)]
  unfold knn leafKnn
  rw [this]

end

/-! ## The hypotheses can be met -/

def ex2 : Bool :=
  match partitionPoints 2 2 5 exCoord 1 (1/100) none (fun _ => 1/3) exJunk (fun _ _ => 7) 20 with
  | .ok R => decide (1 < R.arr.nNode) && (List.range R.arr.nNode).all fun v => decide ((cands R.arr 2 v).length ≤ 1 * 9) &&
      decide ((R.arr.ptE v + 1 - R.arr.ptS v) * (cands R.arr 2 v).length ≤ 1 * (1 * 9) ∨ R.arr.nChild v ≠ 0)
  | _ => false

set_option maxRecDepth 100000 in
theorem ex2_eq : ex2 = true := by decide +kernel

/-- Five points in the plane in a tree of more than one node: all leaves fit. -/
example : ∃ P : Partitioned ℚ, partitionPoints 2 2 5 exCoord 1 (1/100) none (fun _ => 1/3) exJunk (fun _ _ => 7) 20 = .ok P ∧ 1 < P.arr.nNode ∧
    ∀ v < P.arr.nNode, P.arr.nChild v = 0 → Fits P.arr 2 5 1 9 v := by
  have h := ex2_eq
  unfold ex2 at h
  cases h1 : partitionPoints 2 2 5 exCoord 1 (1/100) none (fun _ => 1/3) exJunk (fun _ _ => 7) 20 with
  | ub => rw [h1] at h; simp at h
  | diverge => rw [h1] at h; simp at h
  | ok P =>
    rw [h1] at h
    simp only [Bool.and_eq_true, decide_eq_true_eq, List.all_eq_true, List.mem_range] at h
    refine ⟨P, rfl, h.1, fun v hv h0 => (fit_iff (by omega) (le_refl _) h1 1 9 v).1 ?_⟩
    have := h.2 v hv
    exact ⟨this.1, this.2.resolve_right (fun hc => hc h0)⟩

/-- Twelve equal points. -/
def ex3 : Bool :=
  match partitionPoints 2 2 12 (fun _ _ => (0 : ℚ)) 1 (1/100) (some ⟨fun _ => 0, fun _ => 1/100⟩) (fun _ => 1/3) exJunk (fun _ _ => 7) 20 with
  | .ok R => decide (R.arr.nNode = 1) && decide (R.arr.nChild 0 = 0) && decide ((cands R.arr 2 0).length = 12)
  | _ => false

theorem ex3_eq : ex3 = true := by decide +kernel

/-- Twelve equal points stay in one leaf and do not fit. -/
example : ∃ P : Partitioned ℚ, partitionPoints 2 2 12 (fun _ _ => (0 : ℚ)) 1 (1/100) (some ⟨fun _ => 0, fun _ => 1/100⟩) (fun _ => 1/3) exJunk (fun _ _ => 7) 20 = .ok P ∧
    ∀ fu G, knn P.arr 2 P.coord 1 9 3 fu ≠ .ok G := by
  have h := ex3_eq
  unfold ex3 at h
  cases h1 : partitionPoints 2 2 12 (fun _ _ => (0 : ℚ)) 1 (1/100) (some ⟨fun _ => 0, fun _ => 1/100⟩) (fun _ => 1/3) exJunk (fun _ _ => 7) 20 with
  | ub => rw [h1] at h; simp at h
  | diverge => rw [h1] at h; simp at h
  | ok P =>
    rw [h1] at h
    simp only [Bool.and_eq_true, decide_eq_true_eq] at h
    refine ⟨P, rfl, fun fu G => C98_overflow (by omega) (le_refl _) h1 1 9 3 (v := 0) (by omega) h.1.2 (fun hc => ?_) fu G⟩
    have := ((fit_iff (by omega) (le_refl _) h1 1 9 0).2 hc).1
    omega

/-- The points `(0,0,0)`, `(1,0,0)`, `(0,0,5)`. -/
def towerCoord (p d : Nat) : ℚ := if p = 1 ∧ d = 0 then 1 else if p = 2 ∧ d = 2 then 5 else 0

def ex4 : Bool :=
  match partitionPoints 3 3 3 towerCoord 10 (1/100) none (fun _ => 1/3) exJunk (fun _ _ => 7) 20 with
  | .ok R => (List.range 3).all (fun p => decide (R.coordIdx p = p)) &&
    match knn R.arr 3 R.coord 10 27 2 20 with
    | .ok G => decide (2 ∈ G 0) && decide (1 ∉ G 0)
    | _ => false
  | _ => false

set_option maxRecDepth 100000 in
theorem ex4_eq : ex4 = true := by decide +kernel

/-- C98 (a wrong neighbour in space): asked for the two nearest of the points `(0,0,0)`, `(1,0,0)`, `(0,0,5)` to the first one (itself included), the search
answers with the first and the third. -/
theorem C98_wrong_neighbour : ∃ (P : Partitioned ℚ) (fu : Nat) (G : Nat → List Nat),
    partitionPoints 3 3 3 towerCoord 10 (1/100) none (fun _ => 1/3) exJunk (fun _ _ => 7) 20 = .ok P ∧ (∀ p < 3, P.coordIdx p = p) ∧
    knn P.arr 3 P.coord 10 27 2 fu = .ok G ∧ 2 ∈ G 0 ∧ 1 ∉ G 0 ∧
    ∑ d ∈ Finset.range 3, (towerCoord 0 d - towerCoord 1 d) ^ 2 < ∑ d ∈ Finset.range 3, (towerCoord 0 d - towerCoord 2 d) ^ 2 := by
  have h := ex4_eq
  unfold ex4 at h
  cases h1 : partitionPoints 3 3 3 towerCoord 10 (1/100) none (fun _ => 1/3) exJunk (fun _ _ => 7) 20 with
  | ub => rw [h1] at h; simp at h
  | diverge => rw [h1] at h; simp at h
  | ok P =>
    rw [h1] at h
    dsimp only at h
    cases h2 : knn P.arr 3 P.coord 10 27 2 20 with
    | ub => rw [h2] at h; simp at h
    | diverge => rw [h2] at h; simp at h
    | ok G =>
      rw [h2] at h
      simp only [Bool.and_eq_true, decide_eq_true_eq, List.all_eq_true, List.mem_range] at h
      exact ⟨P, 20, G, rfl, h.1, h2, h.2.1, h.2.2, by decide +kernel⟩

end H2Pack.FKnn
