import Verif.Proof.Sample8
import Verif.Proof.Desc
import Mathlib.Data.List.GetD

/-!
# C79-C82: sample points
-/

namespace H2Pack.Sample
open Finset
open H2Pack.Part (Arr kids ClusterTree Desc)
open H2Pack.ID (Fails)

/-! ## C79 -/

/-- **C79** (box).  The sides of the enclosing box of a non-empty point set are the differences of its bounds; with no points the result is undefined. -/
theorem C79_box (dim : Nat) (P : List Pt) :
    (P ≠ [] → ∃ e, boxSize dim P = .ok e ∧ ∀ i, ∃ lo hi, Bounds P i lo hi ∧ e i = hi - lo ∧ 0 ≤ e i) ∧ (0 < dim → P = [] → boxSize dim P = .ub) := by
  refine ⟨fun h => ⟨side P, boxSize_ok dim h, fun i => ⟨_, _, bounds_of h i, rfl, side_nonneg h i⟩⟩, ?_⟩
  rintro h rfl
  exact boxSize_nil h

/-- **C79** (distribution).  A non-negative number is distributed over non-negative proportions, not all zero, by the method of largest remainders; nobody gets a negative
number, a proportion of zero gets nothing, and the number of points of the grid is returned. -/
theorem C79_decompose (n : Nat) (s : Int) (hs : 0 ≤ s) (prop : Nat → ℝ) (h0 : ∀ i < n, 0 ≤ prop i) (h1 : ∃ i < n, prop i ≠ 0) :
    ∃ d, decompose n s prop = .ok (d, ∏ i ∈ range n, (d i + 1)) ∧ Apportioned n s prop d ∧ ∀ i < n, 0 ≤ d i ∧ d i ≤ s ∧ (prop i = 0 → d i = 0) := by
  obtain ⟨i, hi, hne⟩ := h1
  have hn : 0 < n := by omega
  have hsum : ∑ i ∈ range n, prop i ≠ 0 := by
    intro h
    exact hne ((Finset.sum_eq_zero_iff_of_nonneg fun j hj => h0 j (Finset.mem_range.mp hj)).mp h i (Finset.mem_range.mpr hi))
  obtain ⟨d, e, hA⟩ := decompose_ok hn s prop hsum
  have hsh := share_nonneg hs (Or.inl h0)
  refine ⟨d, e, hA, fun i hi => ⟨apportioned_nonneg hA hsh i hi, apportioned_le hA hsh i hi, fun hz => ?_⟩⟩
  have hz' : share n s prop i = 0 := by unfold share; rw [hz]; simp
  rcases hA.quota i hi with h | ⟨_, h⟩
  · rw [h, hz']; simp
  · rw [hz'] at h; simp at h

/-- **C79**: with proportions that are all zero (a box without extent) the shares are not numbers, and their conversion is undefined. -/
theorem C79_zero (n : Nat) (s : Int) (prop : Nat → ℝ) (h : ∀ i < n, prop i = 0) : decompose n s prop = .ub :=
  decompose_ub n s prop (Finset.sum_eq_zero fun i hi => h i (Finset.mem_range.mp hi))

/-- The distribution is determined. -/
theorem C79_unique {n : Nat} {s : Int} {prop : Nat → ℝ} {d d' : Nat → Int} (h : Apportioned n s prop d) (h' : Apportioned n s prop d') : ∀ i < n, d i = d' i := by
  -- if they differ somewhere, one is larger at `i` and smaller at `j`
  have key : ∀ {d d' : Nat → Int}, Apportioned n s prop d → Apportioned n s prop d' → ∀ i < n, d i ≤ d' i := by
    intro d d' h h' i hi
    by_contra hlt
    push Not at hlt
    have hex : ∃ j < n, d j < d' j := by
      by_contra hc
      push Not at hc
      have : ∑ j ∈ range n, d' j < ∑ j ∈ range n, d j := Finset.sum_lt_sum (fun j hj => hc j (Finset.mem_range.mp hj)) ⟨i, Finset.mem_range.mpr hi, hlt⟩
      rw [h.total, h'.total] at this
      omega
    obtain ⟨j, hj, hlt'⟩ := hex
    have q1 := h.quota i hi
    have q2 := h'.quota i hi
    have q3 := h.quota j hj
    have q4 := h'.quota j hj
    have e1 : d i = ⌊share n s prop i⌋ + 1 := by omega
    have e2 : d' i = ⌊share n s prop i⌋ := by omega
    have e3 : d j = ⌊share n s prop j⌋ := by omega
    have e4 : d' j = ⌊share n s prop j⌋ + 1 := by omega
    rcases h.largest i hi j hj e1 e3 with a | ⟨a, a'⟩ <;> rcases h'.largest j hj i hi e4 e2 with b | ⟨b, b'⟩
    · linarith
    · linarith
    · linarith
    · omega
  exact fun i hi => le_antisymm (key h h' i hi) (key h' h i hi)

/-- `7` in the proportions `3 : 1`. -/
example : ∃ d, decompose 2 7 (fun i => if i = 0 then 3 else 1) = .ok (d, ∏ i ∈ range 2, (d i + 1)) ∧ d 0 = 5 ∧ d 1 = 2 := by
  obtain ⟨d, e, hA, _⟩ := C79_decompose 2 7 (by norm_num) (fun i => if i = 0 then 3 else 1) (fun i _ => by split_ifs <;> norm_num) ⟨0, by norm_num, by norm_num⟩
  have h1 := hA.quota 0 (by norm_num)
  have h2 := hA.quota 1 (by norm_num)
  have s1 : share 2 7 (fun i => if i = 0 then 3 else 1) 0 = 21 / 4 := by unfold share; norm_num [Finset.sum_range_succ]
  have s2 : share 2 7 (fun i => if i = 0 then 3 else 1) 1 = 7 / 4 := by unfold share; norm_num [Finset.sum_range_succ]
  have f1 : ⌊(21 / 4 : ℝ)⌋ = 5 := by rw [Int.floor_eq_iff]; norm_num
  have f2 : ⌊(7 / 4 : ℝ)⌋ = 1 := by rw [Int.floor_eq_iff]; norm_num
  have ht := hA.total
  have hl := hA.largest 0 (by norm_num) 1 (by norm_num)
  simp only [Finset.sum_range_succ, Finset.sum_range_zero, zero_add] at ht
  rw [s1, s2, f1, f2] at hl
  have g1 : Int.fract (21 / 4 : ℝ) = 1 / 4 := by rw [Int.fract, f1]; norm_num
  have g2 : Int.fract (7 / 4 : ℝ) = 3 / 4 := by rw [Int.fract, f2]; norm_num
  rw [g1, g2] at hl
  rw [s1, f1] at h1
  rw [s2, f2] at h2
  refine ⟨d, e, ?_⟩
  by_cases hc : d 0 = 6
  · have : d 1 = 1 := by omega
    have := hl (by omega) this
    norm_num at this
  · omega

/-! ## C80 -/

/-- **C80** (grids).  The anchors of algorithm 6 are the tensor grid of equally spaced positions, those of algorithm 2 of the Chebyshev points. -/
theorem C80_grid (dim : Nat) (lo hi : Nat → ℝ) (g : Nat → Nat) :
    AnchorGrid dim equi lo hi g (anchors 6 dim lo hi (fun i => hi i - lo i) g) ∧ AnchorGrid dim cheb lo hi g (anchors 2 dim lo hi (fun i => hi i - lo i) g) :=
  ⟨anchors_grid anchorDim_equi dim lo hi g, anchors_grid anchorDim_cheb dim lo hi g⟩

/-- **C80** (positions).  The positions lie in the interval and are different when it is not a point. -/
theorem C80_positions (node : ℝ → ℝ → Nat → Nat → ℝ) (hn : node = equi ∨ node = cheb) (lo hi : ℝ) (g : Nat) :
    (lo ≤ hi → ∀ c ≤ g, lo ≤ node lo hi g c ∧ node lo hi g c ≤ hi) ∧ (lo < hi → ∀ c ≤ g, ∀ c' ≤ g, node lo hi g c = node lo hi g c' → c = c') := by
  rcases hn with rfl | rfl
  · exact ⟨fun h c hc => by rw [← anchorDim_equi]; exact anchor_in 6 (Or.inr rfl) h hc, fun h c hc c' hc' e => by
      rw [← anchorDim_equi, ← anchorDim_equi] at e; exact anchor_inj 6 (Or.inr rfl) h hc hc' e⟩
  · exact ⟨fun h c hc => by rw [← anchorDim_cheb]; exact anchor_in 2 (Or.inl rfl) h hc, fun h c hc c' hc' e => by
      rw [← anchorDim_cheb, ← anchorDim_cheb] at e; exact anchor_inj 2 (Or.inl rfl) h hc hc' e⟩

/-- **C80** (Chebyshev).  The positions of algorithm 2 are the zeros of the Chebyshev polynomial of degree `g + 1`, moved to the interval. -/
theorem C80_chebyshev (lo hi : ℝ) (h : lo < hi) (g : Nat) (hg : 0 < g) (c : Nat) :
    (Polynomial.Chebyshev.T ℝ (g + 1)).eval ((cheb lo hi g c - (lo + hi) / 2) / ((hi - lo) / 2)) = 0 := by
  have e : (cheb lo hi g c - (lo + hi) / 2) / ((hi - lo) / 2) = Real.cos ((2 * (c : ℝ) + 1) * (Real.pi / (2 * g + 2))) := by
    unfold cheb
    rw [if_neg (by omega)]
    have : hi - lo ≠ 0 := by linarith
    field_simp
    ring
  rw [e]
  exact cheb_root g c

/-- **C80** (selection).  Whatever the order in which the threads take the anchors: the selection returns, in increasing order and without repetition, exactly the points
nearest to an anchor of the grid over the box (the first ones if several are equally near); at least one point, at most as many as there are points or anchors. -/
theorem C80_select (dim : Nat) (P : List Pt) (h : P ≠ []) (g : Nat → Nat) (sched : List Pt → List Pt) (hs : ∀ L, (sched L).Perm L) :
    (∃ s, clusterSample dim P g 6 sched = .ok s ∧ Chosen dim equi P g s ∧ 1 ≤ s.length ∧ s.length ≤ P.length ∧ s.length ≤ ∏ i ∈ range dim, (g i + 1)) ∧
    ∃ s, clusterSample dim P g 2 sched = .ok s ∧ Chosen dim cheb P g s ∧ 1 ≤ s.length ∧ s.length ≤ P.length ∧ s.length ≤ ∏ i ∈ range dim, (g i + 1) := by
  constructor
  · obtain ⟨s, h1, h2, h3, h4⟩ := clusterSample_chosen anchorDim_equi (dim := dim) h g hs
    exact ⟨s, h1, h2, List.length_pos_iff.mpr h3, h4⟩
  · obtain ⟨s, h1, h2, h3, h4⟩ := clusterSample_chosen anchorDim_cheb (dim := dim) h g hs
    exact ⟨s, h1, h2, List.length_pos_iff.mpr h3, h4⟩

/-- **C80** (schedule).  The selection does not depend on the order of the anchors. -/
theorem C80_schedule (dim : Nat) (P : List Pt) (g : Nat → Nat) (algo : Nat) (sched sched' : List Pt → List Pt) (hs : ∀ L, (sched L).Perm L) (hs' : ∀ L, (sched' L).Perm L) :
    clusterSample dim P g algo sched = clusterSample dim P g algo sched' := by
  by_cases h : P = []
  · subst h; rfl
  obtain ⟨s, h1, h2, h3, _⟩ := clusterSample_ok dim h g algo sched hs
  obtain ⟨s', h1', h2', h3', _⟩ := clusterSample_ok dim h g algo sched' hs'
  rw [h1, h1']
  congr 1
  refine List.Perm.eq_of_pairwise (fun a b _ _ x y => ?_) h2 h2' ?_
  · omega
  · refine (List.perm_ext_iff_of_nodup (h2.imp fun x => by omega) (h2'.imp fun x => by omega)).mpr fun a => by rw [h3, h3']

/-- Three points on a line, a grid of two: the points nearest to 5/3 and 25/3. -/
example : ∃ s, clusterSample 1 [fun _ => 0, fun _ => 4, fun _ => 10] (fun _ => 1) 6 List.reverse = .ok s ∧ 1 ≤ s.length ∧ s.length ≤ 2 := by
  obtain ⟨s, h1, _, h2, _, h3⟩ := (C80_select 1 [fun _ => 0, fun _ => 4, fun _ => 10] (by simp) (fun _ => 1) List.reverse (fun L => List.reverse_perm L)).1
  exact ⟨s, h1, h2, by simpa using h3⟩

/-! ## C81 -/

open Classical in
/-- **C81** (grid size).  If the second point set has an extent: the search for the grid size starts with a value `r0` between 0 and 14, tries `r0, r0 + 1, ...`, and ends with a trial that
is good enough, or whose selection has not at least two points more than the one before; then the size is this one, or one more if the trial was not good enough.  It ends after at most
`(k + 1) / 2` trials.  The only other outcome is an undefined one, which needs an undefined division in the ID. -/
theorem C81_select (S : RIn) (hd : 0 < S.dim) (hk : 0 < S.kdim) (hs : Spread S.dim S.c1) (hsch : ∀ L, (S.sched L).Perm L) (hO : ∀ a b, S.ops.div a b ≠ .diverge) (ht : S.tol ≤ 1) :
    (Fails (selectR S) ∧ ¬ S.ops.Total) ∨
    ∃ (r0 : Int) (n : Nat) (l : Nat → Nat) (good : Nat → Prop), 0 ≤ r0 ∧ r0 ≤ 14 ∧ 2 * n + 1 ≤ S.k ∧ (∀ i ≤ n, Trial S i (r0 + i) (l i) (good i)) ∧
      (∀ i < n, ¬ good i ∧ (if i = 0 then 1 else l (i - 1)) + 2 ≤ l i) ∧ (good n ∨ l n < (if n = 0 then 1 else l (n - 1)) + 2) ∧
      Returns (selectR S) (if good n then r0 + n else r0 + n + 1) := by
  obtain ⟨r0, e0, h0, h14⟩ := (r0_cases S).1 ht
  have hk0 := selectR_c1_ne hs
  have hprev : ∀ (l : Nat → Nat) (i : Nat), prev 1 l i = (((if i = 0 then 1 else l (i - 1)) : Nat) : Int) := by
    intro l i
    match i with
    | 0 => rfl
    | i + 1 => rfl
  rcases rLoop_cases (S := S) ⟨hd, hk, hs, hsch, hO⟩ ((S.k - 1) / 2) 0 r0 1 h0 (by push_cast; omega) with ⟨⟨F, hF⟩, hT⟩ | ⟨n, l, good, n1, n2, n3, n4, F, hF⟩
  · left
    refine ⟨⟨F, fun fuel hf => ?_⟩, hT⟩
    unfold selectR
    rw [e0, Res.bind_ok]
    exact hF fuel hf fuel hf
  · right
    refine ⟨r0, n, l, good, h0, h14, by omega, fun i hi => by simpa using n2 i hi, fun i hi => ?_, ?_, F, fun fuel hf => ?_⟩
    · have := n3 i hi
      rw [hprev] at this
      exact ⟨this.1, by exact_mod_cast this.2⟩
    · rw [hprev] at n4
      rcases n4 with h | h
      · exact Or.inl h
      · exact Or.inr (by exact_mod_cast h)
    · unfold selectR
      rw [e0, Res.bind_ok, hF fuel hf fuel hf]
      split_ifs <;> simp

/-- **C81** (bound).  When all divisions have results, the search returns a size between 0 and `14 + (k + 1) / 2`. -/
theorem C81_bound (S : RIn) (hd : 0 < S.dim) (hk : 0 < S.kdim) (hs : Spread S.dim S.c1) (hsch : ∀ L, (S.sched L).Perm L) (hO : S.ops.Total) (ht : S.tol ≤ 1) :
    ∃ r, Returns (selectR S) r ∧ 0 ≤ r ∧ r ≤ 14 + (S.k + 1) / 2 := by
  rcases C81_select S hd hk hs hsch (fun a b => by obtain ⟨c, hc⟩ := hO a b; rw [hc]; simp) ht with ⟨_, h⟩ | ⟨r0, n, l, good, h1, h2, h3, _, _, _, h7⟩
  · exact absurd hO h
  · refine ⟨_, h7, ?_, ?_⟩ <;> split_ifs <;> omega

/-- **C81** (undefined).  With a tolerance above 1000 the square root of a negative number is converted; when the points of the second set coincide (a root box with a side of length 0), the
distribution over the sides is not a number. -/
theorem C81_undefined (S : RIn) (hd : 0 < S.dim) (h : 1 < S.tol ∨ ¬ Spread S.dim S.c1) : Fails (selectR S) := by
  by_cases ht : 1 < S.tol
  · refine ⟨0, fun fuel _ => ?_⟩
    unfold selectR
    rw [(r0_cases S).2 ht, Res.bind_ub]
  · have hs := h.resolve_left ht
    obtain ⟨r0, e0, _, _⟩ := (r0_cases S).1 (not_lt.mp ht)
    refine ⟨1, fun fuel hf => ?_⟩
    obtain ⟨f, rfl⟩ : ∃ f, fuel = f + 1 := ⟨fuel - 1, by omega⟩
    have hp : rPass S 0 r0 (f + 1) = .ub := by
      unfold rPass
      by_cases hne : S.c1 = []
      · rw [hne, boxSize_nil hd, Res.bind_ub]
      · rw [boxSize_ok _ hne, Res.bind_ok, decompose_ub _ _ _ (not_not.mp (mt (spread_iff hne).mp hs)), Res.bind_ub]
    unfold selectR
    rw [e0, Res.bind_ok, rLoop, hp, Res.bind_ub]

/-- **C81**: a root box with a side of length 0 makes all points of the second set coincide. -/
theorem C81_flat (S : RIn) (h : S.len = 0) : ¬ Spread S.dim S.c1 := by
  rintro ⟨p, hp, q, hq, i, _, hne⟩
  unfold RIn.c1 at hp hq
  obtain ⟨j, _, rfl⟩ := List.mem_map.mp hp
  obtain ⟨j', _, rfl⟩ := List.mem_map.mp hq
  apply hne
  simp [h]

/-- **C81** (size of the random boxes).  The length is a sixth of the shortest side of the root box. -/
theorem C81_len (dim : Nat) (hd : 0 < dim) (ext : Nat → ℝ) : (∀ i < dim, boxLen dim ext ≤ ext i / 6) ∧ ∃ i < dim, boxLen dim ext = ext i / 6 := by
  have h : boxLen dim ext = minC ext dim / 6 := rfl
  obtain ⟨h1, i, hi, h2⟩ := minC_spec ext dim hd
  rw [h]
  exact ⟨fun i hi => by have := h1 i hi; linarith, i, hi, by rw [h2]⟩

end H2Pack.Sample
