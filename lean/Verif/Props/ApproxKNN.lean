import Verif.Proof.KNN4
import Verif.Props.AFNPrecond

/-!
# C73: the neighbour search of the FSAI preconditioner through the H2 tree

The theorem is about `approxKNN`, the model of `FSAI_approx_KNN_with_H2P`, applied to a tree that `H2P_partition_points` delivered.
Specification: `Verif/Spec/ApproxKNN.lean`.
-/

namespace H2Pack.AFN
open H2Pack.Part
open H2Pack.CSR
open H2Pack.Utils (Box gap)

section
variable {K : Type} [Field K] [LinearOrder K] [IsStrictOrderedRing K]

/-- The arguments of the search belong to the partitioning `R` of the points `coord0`: its tree and its permutation, and every one of the `n` points is a different
point of `coord0`. -/
structure FromTree (xdim n0 : Nat) (coord0 : Nat → Nat → K) (R : Partitioned K) (I : KnnIn K) : Prop where
  dimLe : I.dim ≤ xdim
  arr : I.arr = R.arr
  ci : I.ci = R.coordIdx
  nPts : I.n0 = n0
  c0Lt : ∀ i < I.n, I.c0 i < n0
  c0Inj : ∀ i < I.n, ∀ j < I.n, I.c0 i = I.c0 j → i = j
  coord : ∀ i < I.n, ∀ d < I.dim, I.coord d i = coord0 (I.c0 i) d

variable {xdim n0 : Nat} {coord0 : Nat → Nat → K} {mlp : Nat} {mls : K} {box : Box K} {R : Partitioned K}

theorem knnOK {I : KnnIn K} (O : Outcome I.dim xdim n0 coord0 mlp mls box R) (hI : FromTree xdim n0 coord0 R I) : KnnOK I := by
  have hperm := O.perm
  have hnd : ((List.range n0).map R.coordIdx).Nodup := hperm.nodup_iff.2 List.nodup_range
  refine ⟨by rw [hI.arr, hI.nPts]; exact O.tree, ?_, ?_, ?_, by rw [hI.nPts]; exact hI.c0Lt, hI.c0Inj⟩
  · intro k hk
    rw [hI.nPts] at hk ⊢
    rw [hI.ci]
    exact List.mem_range.1 (hperm.mem_iff.1 (List.mem_map.2 ⟨k, List.mem_range.2 hk, rfl⟩))
  · intro k hk l hl e
    rw [hI.nPts] at hk hl
    rw [hI.ci] at e
    rw [List.nodup_map_iff_inj_on List.nodup_range] at hnd
    exact hnd k (List.mem_range.2 hk) l (List.mem_range.2 hl) e
  · intro x hx
    rw [hI.nPts] at hx
    obtain ⟨k, hk, e⟩ := List.mem_map.1 (hperm.mem_iff.2 (List.mem_range.2 hx))
    exact ⟨k, by rw [hI.nPts]; exact List.mem_range.1 hk, by rw [hI.ci]; exact e⟩

/-- **C73** For every partitioned point set whose boxes are not tiny, every `n` different points of it in any order, and every number `m` of neighbours smaller than
`3^dim` times the largest number of points of a node on the smallest level of a leaf: the search neither leaves its arrays nor fails, whatever the order of the
parallel iterations is, and its result does not depend on it.  The list of the point `i` consists of `i` at the end and `m - 1` points with smaller indices (all if there
are fewer), and only points that are at least `0.999 w` away can be passed over for a point that is farther away, `w` being the smallest width of the boxes
of that level. -/
theorem C73_approx_knn {I : KnnIn K} (O : Outcome I.dim xdim n0 coord0 mlp mls box R) (hI : FromTree xdim n0 coord0 R I)
    (hbox : ∀ i < n0, Box.Holds I.dim box (coord0 i)) (hw : WideBoxes I.dim R.arr) {s : Nat} (hs : TopLeafLevel R.arr s) (hm : 1 ≤ I.m)
    (hcap : ∃ v < R.arr.nNode, R.arr.level v = s ∧ I.m < 3 ^ I.dim * (R.arr.ptE v + 1 - R.arr.ptS v))
    {w : K} (w0 : 0 ≤ w) (hwid : ∀ v < R.arr.nNode, R.arr.level v = s → ∀ d < I.dim, w ≤ (R.arr.enbox v).ext d) :
    ∃ nn : Nat → List Nat,
      (∀ order : List Nat, order.Perm (List.range ((List.range R.arr.nNode).filter (fun v => R.arr.level v = s)).length) → Returns (approxKNN I order) (some nn)) ∧
      ∀ i < I.n, NearestWithin (dist2 I.dim I.coord) I.m i (999 / 1000 * w) (nn i) := by
  have ok := knnOK O hI
  have T := ok.tree
  have hpos : ∀ v < R.arr.nNode, ∀ j < I.dim, 0 < (R.arr.enbox v).ext j := by
    intro v hv j hj
    have : (0 : K) < (2 * R.arr.level v + 9) / 10^6 := by positivity
    exact lt_of_lt_of_le this (hw v hv j hj)
  obtain ⟨cell, ones, G⟩ := grid_exists O hpos
  have hin := O.inBox hbox
  rw [← hI.arr] at hs hcap hwid hw G hin ⊢
  obtain ⟨nb, hnb, hnbs⟩ := nbrs_spec T hs G hw
  have hlen : ((List.range I.arr.nNode).filter (fun v => I.arr.level v = s)).length = (slNodes I.arr).length := by rw [slNodes_eq T hs]
  rw [hlen]
  have hc : I.m < 3 ^ I.dim * slMax I.arr := by
    obtain ⟨v, hv, hl, h⟩ := hcap
    have := slMax_ge (A := I.arr) ((mem_sl T hs v).2 ⟨hv, hl⟩)
    unfold nodeNpt at this
    exact lt_of_lt_of_le h (Nat.mul_le_mul_left _ this)
  set cap := 3 ^ I.dim * slMax I.arr with hcapdef
  have hcand : ∀ t < (slNodes I.arr).length, (cand0 I (nb t)).Nodup ∧ (cand0 I (nb t)).length ≤ cap := by
    intro t ht
    obtain ⟨a1, a2, a3⟩ := hnbs t ht
    have hsub : ∀ v ∈ nb t, v ∈ slNodes I.arr := fun v hv => ((a3 v).1 hv).1
    refine ⟨cand0_nodup ok hs _ a1 hsub, le_trans (cand0_len I _ hsub) ?_⟩
    exact Nat.mul_le_mul_right _ a2
  -- the node and the row of every point
  have hrow : ∀ k, ∃ (t p : Nat) (S : List Nat) (F : Nat), k < I.n → t < (slNodes I.arr).length ∧ p ∈ List.range' (I.arr.ptS (slv I.arr t)) (nodeNpt I.arr (slv I.arr t)) ∧
      h2idx I p = some k ∧ (∃ L, cand1 I.m cap k (cand0 I (nb t)) = .ok L ∧ ∀ fuel ≥ F, selRow I.dim I.coord I.m k L fuel = .ok S) ∧
      NearestWithin (dist2 I.dim I.coord) I.m k (999 / 1000 * w) S := by
    intro k
    by_cases hk : k < I.n
    · obtain ⟨p, hp, hpk⟩ := h2idx_ex ok hk
      obtain ⟨u, hu, hlu, hu1, hu2⟩ := level_cover T hs hp
      obtain ⟨t, ht, htu⟩ := slv_ex ((mem_sl T hs u).2 ⟨hu, hlu⟩)
      obtain ⟨L, e1, l1, l2, l3, l4⟩ := cand1_spec (i := k) hc (cand0 I (nb t)) (hcand t ht).1
      obtain ⟨S, ⟨F, hF⟩, s1, s2, s3⟩ := selRow_spec I.dim I.coord I.m k hm L l1 l2 l4
      refine ⟨t, p, S, F, fun _ => ⟨ht, ?_, hpk, ⟨L, e1, hF⟩, s1, s2, ?_⟩⟩
      · rw [htu, List.mem_range'_1]
        have := T.clusterLe u hu
        unfold nodeNpt
        omega
      · intro j hj hji q hq hqS
        by_cases hqL : q ∈ L
        · exact Or.inl (s3 j hj hji q hq hqS hqL)
        right
        obtain ⟨p', hp', hpq⟩ := h2idx_ex ok (show q < I.n by omega)
        obtain ⟨v, hv, hlv, hv1, hv2⟩ := level_cover T hs hp'
        have hnear : ¬ Near I.dim cell u v := by
          intro hN
          refine hqL (l3 q ?_ hq)
          rw [mem_cand0 I T _ (fun x hx => ((mem_sl T hs x).1 (((hnbs t ht).2.2 x).1 hx).1).1)]
          exact ⟨v, ((hnbs t ht).2.2 v).2 ⟨(mem_sl T hs v).2 ⟨hv, hlv⟩, by rw [htu]; exact hN⟩, p', hv1, hv2, hpq⟩
        have hco : ∀ x y, h2idx I x = some y → x < n0 → ∀ d < I.dim, R.coord x d = I.coord d y := by
          intro x y hxy hx d hd
          obtain ⟨h1, h2⟩ := (h2idx_spec ok x y).1 hxy
          rw [O.sorted x hx d (lt_of_lt_of_le hd hI.dimLe), hI.coord y h1 d hd, h2, hI.ci]
        obtain ⟨d, hd, hfar⟩ := far_points G hw hu hv (by rw [hlu, hlv]) (hin u hu p hu1 hu2) (hin v hv p' hv1 hv2) hnear
        rw [hco p k hpk (by rw [← hI.nPts]; exact hp) d hd, hco p' q hpq (by rw [← hI.nPts]; exact hp') d hd] at hfar
        have h1 : 999 / 1000 * w ≤ |I.coord d k - I.coord d q| := le_trans (mul_le_mul_of_nonneg_left (hwid u hu hlu d hd) (by positivity)) hfar
        have h2 : (999 / 1000 * w) ^ 2 ≤ (I.coord d k - I.coord d q) ^ 2 := by
          rw [← sq_abs (I.coord d k - I.coord d q)]
          exact pow_le_pow_left₀ (by positivity) h1 2
        refine le_trans h2 ?_
        unfold dist2
        exact Finset.single_le_sum (f := fun d => (I.coord d k - I.coord d q) ^ 2) (fun d _ => sq_nonneg _) (Finset.mem_range.2 hd)
    · exact ⟨0, 0, [], 0, fun h => absurd h hk⟩
  choose tt pp S F hS using hrow
  refine ⟨fun k => if k < I.n then S k else [], fun order ho => ⟨(Finset.range I.n).sup F, fun fuel hf => ?_⟩, fun i hi => by
    have := (hS i hi).2.2.2.2
    simpa [hi] using this⟩
  have hmem : ∀ t, t ∈ order ↔ t < (slNodes I.arr).length := fun t => by rw [ho.mem_iff, List.mem_range]
  have hpts : ∀ t < (slNodes I.arr).length, ∀ p ∈ List.range' (I.arr.ptS (slv I.arr t)) (nodeNpt I.arr (slv I.arr t)),
      p < I.n0 ∧ I.arr.ptS (slv I.arr t) ≤ p ∧ p ≤ I.arr.ptE (slv I.arr t) := by
    intro t ht p hp
    have hv := (mem_sl T hs _).1 (slv_mem ht)
    have h1 := T.clusterLe _ hv.1
    have h2 := T.clusterLt _ hv.1
    rw [List.mem_range'_1] at hp
    unfold nodeNpt at hp
    omega
  obtain ⟨g, eg, hg⟩ := nodes_fold I cap nb fuel S order (fun t ht => (hcand t ((hmem t).1 ht)).2) (fun t ht p hp k hk => by
      have hkn := ((h2idx_spec ok p k).1 hk).1
      obtain ⟨b1, b2, b3, ⟨L, b4, b5⟩, _⟩ := hS k hkn
      have hp1 := hpts t ((hmem t).1 ht) p hp
      have hp2 := hpts _ b1 _ b2
      have hpp : p = pp k := h2idx_inj ok hp1.1 hp2.1 hk b3
      have htt : t = tt k := by
        refine slv_inj T hs ((hmem t).1 ht) b1 ?_
        have v1 := (mem_sl T hs _).1 (slv_mem ((hmem t).1 ht))
        have v2 := (mem_sl T hs _).1 (slv_mem b1)
        exact level_unique T v1.1 v2.1 (by rw [v1.2, v2.2]) hp1.2 (by rw [hpp]; exact hp2.2)
      rw [htt]
      exact ⟨L, b4, b5 fuel (le_trans (Finset.le_sup (f := F) (Finset.mem_range.2 hkn)) hf)⟩) (fun _ => [])
  have hgk : g = fun k => if k < I.n then S k else [] := by
    funext k
    by_cases hk : k < I.n
    · obtain ⟨b1, b2, b3, _, _⟩ := hS k hk
      simp only [hk, if_true]
      exact (hg k).1 ⟨tt k, (hmem _).2 b1, pp k, b2, b3⟩
    · simp only [hk, if_false]
      exact (hg k).2 fun t _ p _ hc => hk ((h2idx_spec ok p k).1 hc).1
  unfold approxKNN
  rw [if_pos ⟨ok.c0Lt, ok.ciLt⟩, hnb]
  unfold knnRows
  dsimp only
  rw [← hcapdef, eg, Res.bind_ok, hgk]
  unfold knnCheck
  rw [if_pos]
  intro i hi
  have := (hS i hi).2.2.2.2
  simp only [hi, if_true, this.full]
  omega

/-- **C73** (exactness).  If the listed points of `i` are nearer than `0.999 w`, they are the nearest ones. -/
theorem C73_exact_within {m i : Nat} {dist : Nat → Nat → K} {r : K} {L : List Nat} (h : NearestWithin dist m i r L) (hr : ∀ j ∈ L, j ≠ i → dist i j ≤ r ^ 2) :
    Nearest dist m i L := by
  refine ⟨h.lower, h.full, fun j hj hji k hk hkL => ?_⟩
  rcases h.nearest j hj hji k hk hkL with h1 | h1
  · exact h1
  · exact le_trans (hr j hj hji) h1

end

/-- The arguments with which `AFN_precond_build` calls the search: the points that are not landmarks, in the computed order. -/
def knnArgs (dim n maxK m : Nat) (coord : Nat → Nat → ℝ) (perm : Nat → Nat) (R : Partitioned ℝ) : KnnIn ℝ :=
  ⟨dim, fun d i => coord d (perm (maxK + i)), n - maxK, m, fun i => perm (maxK + i), R.arr, n, R.coordIdx⟩

/-- **C73** (AFN with the H2 tree).  For a positive definite `K + mu I` and any order of the points, the neighbours found through the H2 tree of the same points can be used
to build the AFN preconditioner, whatever the schedules are; it is symmetric positive definite and its inverse agrees with `K + mu I` in every row and column of a
landmark. -/
theorem C73_afn (E : Env) (hL : E.lp.Correct) (hD : E.lp.Definite) {kf : (Nat → ℝ) → (Nat → ℝ) → ℝ} (hk : ∀ x y, kf x y = kf y x) {mu : ℝ} {n dim xdim : Nat}
    (hdim : dim ≤ xdim) {coord : Nat → Nat → ℝ} (hK : (kmat kf mu n coord).PosDef) {perm : Nat → Nat} (ho : IsOrder n perm) {est maxK : Nat} (he : maxK ≤ est) (hm : maxK ≤ n)
    {mlp : Nat} {mls : ℝ} {box : Box ℝ} {R : Partitioned ℝ} (O : Outcome dim xdim n (fun p d => coord d p) mlp mls box R)
    (hbox : ∀ i < n, Box.Holds dim box (fun d => coord d i)) (hw : WideBoxes dim R.arr) {s : Nat} (hs : TopLeafLevel R.arr s) {m : Nat} (hm1 : 1 ≤ m)
    (hcap : ∃ v < R.arr.nNode, R.arr.level v = s ∧ m < 3 ^ dim * (R.arr.ptE v + 1 - R.arr.ptS v))
    (ev : CsrEnv) (h1 : ev.ordG.Perm (List.range (n - maxK))) (h2 : ev.ordGT.Perm (List.range (n - maxK))) :
    ∃ (nn : Nat → List Nat) (P : Precond) (B T : Matrix (Fin n) (Fin n) ℝ),
      (∀ order : List Nat, order.Perm (List.range ((List.range R.arr.nNode).filter (fun v => R.arr.level v = s)).length) →
        Returns (approxKNN (knnArgs dim n maxK m coord perm R) order) (some nn)) ∧
      Returns (precondBuild E kf mu n coord est maxK perm nn ev) (some P) ∧ Applies P n B ∧ B.PosDef ∧ B * T = 1 ∧
      ∀ i j : Fin n, (∃ t < maxK, perm t = i ∨ perm t = j) → T i j = kmat kf mu n coord i j := by
  have hI : FromTree xdim n (fun p d => coord d p) R (knnArgs dim n maxK m coord perm R) := by
    obtain ⟨e, hee⟩ := order_equiv ho hm
    have hlt : ∀ i < n - maxK, perm (maxK + i) < n := fun i hi => by
      have := hee (Sum.inr ⟨i, hi⟩)
      have e2 : perm (maxK + i) = e (Sum.inr ⟨i, hi⟩) := this.symm
      rw [e2]; exact (e _).2
    refine ⟨hdim, rfl, rfl, rfl, hlt, ?_, fun i _ d _ => rfl⟩
    intro i hi j hj hij
    have hi' : i < n - maxK := hi
    have hj' : j < n - maxK := hj
    have a := hee (Sum.inr ⟨i, hi'⟩)
    have b := hee (Sum.inr ⟨j, hj'⟩)
    have : e (Sum.inr ⟨i, hi'⟩) = e (Sum.inr ⟨j, hj'⟩) := Fin.ext (by rw [a, b]; exact hij)
    have := e.injective this
    simpa using this
  obtain ⟨nn, r, hnn⟩ := C73_approx_knn (I := knnArgs dim n maxK m coord perm R) O hI hbox hw hs hm1 hcap le_rfl (fun v hv _ d hd => by
    have : (0 : ℝ) < (2 * R.arr.level v + 9) / 10^6 := by positivity
    exact le_trans this.le (hw v hv d hd))
  obtain ⟨P, B, T, G, a1, a2, a3, a4, a5, a6, a7⟩ := C68_afn E hL hD hk hK ho he hm (fun i hi => (hnn i hi).lower) ev h1 h2
  exact ⟨nn, P, B, T, r, a1, a2, a3, a4, a5⟩

/-! ## Too many neighbours, and a concrete case -/

/-- Eight points on a line. -/
def lineCoord (p _j : Nat) : Rat := p

/-- The order in which the search sees them. -/
def lineOrder (i : Nat) : Nat := [0, 1, 2, 4, 5, 6, 7, 3].getD i 0

def lineIn (m : Nat) (R : Partitioned Rat) : KnnIn Rat := ⟨1, fun d i => lineCoord (lineOrder i) d, 8, m, lineOrder, R.arr, 8, R.coordIdx⟩

def manyTest : Bool := match partitionPoints 1 1 8 lineCoord 1 0 none (fun _ => 1/3) exJunk (fun _ _ => 0) 9 with
  | .ok R => (match approxKNN (lineIn 3 R) (List.range 8) 50 with | .ub => true | _ => false) &&
      decide (∀ v < R.arr.nNode, R.arr.nChild v = 0 → R.arr.ptE v = R.arr.ptS v)
  | _ => false

/-- **C73** (the limit for `fsai_npt` is needed).  Eight points on a line with one point in every leaf and `fsai_npt = 3 = 3^1 * 1`: the loop that adds points to the
candidates leaves the array. -/
theorem C73_too_many : ∃ R, partitionPoints 1 1 8 lineCoord 1 0 none (fun _ => 1/3) exJunk (fun _ _ => 0) 9 = .ok R ∧
    (∀ v < R.arr.nNode, R.arr.nChild v = 0 → R.arr.ptE v = R.arr.ptS v) ∧ approxKNN (lineIn 3 R) (List.range 8) 50 = .ub := by
  have h : manyTest = true := by decide +kernel
  unfold manyTest at h
  split at h
  · next R hR =>
    rw [Bool.and_eq_true, decide_eq_true_eq] at h
    refine ⟨R, hR, h.2, ?_⟩
    have h1 := h.1
    split at h1
    · next h2 => exact h2
    · cases h1
  · cases h

def okTest : Bool := match partitionPoints 1 1 8 lineCoord 2 0 none (fun _ => 1/3) exJunk (fun _ _ => 0) 9 with
  | .ok R => decide (∀ v < R.arr.nNode, ∀ j < 1, (2 * (R.arr.level v : Rat) + 9) / 10^6 ≤ (R.arr.enbox v).ext j) &&
      decide ((∃ v < R.arr.nNode, R.arr.nChild v = 0 ∧ R.arr.level v = 2) ∧ ∀ v < R.arr.nNode, R.arr.nChild v = 0 → 2 ≤ R.arr.level v) &&
      decide (∃ v < R.arr.nNode, R.arr.level v = 2 ∧ 3 < 3 ^ 1 * (R.arr.ptE v + 1 - R.arr.ptS v)) &&
      (List.range R.arr.nNode).all (fun v => decide (R.arr.level v = 2 → (3/2 : Rat) ≤ (R.arr.enbox v).ext 0)) &&
      (match approxKNN (lineIn 3 R) (List.range 4) 50 with | .ok (some nn) => nn 7 == [3, 2, 7] || nn 7 == [2, 3, 7] | _ => false)
  | _ => false

/-- The same points with two of them in every leaf meet the hypotheses of `C73_approx_knn`; the neighbours of the last point, which lies between the points 2 and 3, are these
two. -/
example : ∃ R, Outcome 1 1 8 lineCoord 2 0 (rootBox 1 8 lineCoord (fun _ => 1/3)) R ∧ FromTree 1 8 lineCoord R (lineIn 3 R) ∧
    (∀ i < 8, Box.Holds 1 (rootBox 1 8 lineCoord (fun _ => 1/3)) (lineCoord i)) ∧ WideBoxes 1 R.arr ∧ TopLeafLevel R.arr 2 ∧
    (∃ v < R.arr.nNode, R.arr.level v = 2 ∧ 3 < 3 ^ 1 * (R.arr.ptE v + 1 - R.arr.ptS v)) ∧
    (∀ v < R.arr.nNode, R.arr.level v = 2 → ∀ d < 1, (3/2 : Rat) ≤ (R.arr.enbox v).ext d) ∧
    ∃ nn, approxKNN (lineIn 3 R) (List.range 4) 50 = .ok (some nn) ∧ (nn 7 = [3, 2, 7] ∨ nn 7 = [2, 3, 7]) := by
  have h : okTest = true := by decide +kernel
  unfold okTest at h
  split at h
  · next R hR =>
    simp only [Bool.and_eq_true, decide_eq_true_eq, List.all_eq_true, List.mem_range] at h
    obtain ⟨⟨⟨⟨h1, h2⟩, h3⟩, h4⟩, h5⟩ := h
    have hs := partitionPoints_spec 1 1 8 (by norm_num) (le_refl _) lineCoord 2 0 none (fun _ => 1/3) exJunk (fun _ _ => 0) 9
    rw [hR] at hs
    refine ⟨R, hs, ⟨le_rfl, rfl, rfl, rfl, ?_, ?_, fun _ _ _ _ => rfl⟩, rootBox_holds 1 8 lineCoord _, h1, h2, h3, fun v hv hl d hd => by
      have e : d = 0 := by omega
      subst e; exact h4 v hv hl, ?_⟩
    · show ∀ i < 8, lineOrder i < 8
      decide
    · show ∀ i < 8, ∀ j < 8, lineOrder i = lineOrder j → i = j
      decide
    · split at h5
      · next nn hn => exact ⟨nn, hn, by simpa using h5⟩
      · cases h5
  · cases h

end H2Pack.AFN
