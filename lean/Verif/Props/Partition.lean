import Verif.Proof.Desc
import Verif.Proof.PartTerm
import Mathlib.Tactic.NormNum
import Mathlib.Algebra.Order.Archimedean.Basic

/-!
# C06 - C10, C40: the point partitioning

The theorems are about `partitionPoints`, the model of steps 1-3 of `H2P_partition_points`.
`fuel` bounds the recursion depth; a result `ok R` at some fuel is the result at every larger fuel
(`partition_returns`).
-/

set_option linter.unusedSectionVars false

namespace H2Pack.Part
open H2Pack.Utils (Box)
variable {K : Type} [Field K] [LinearOrder K] [IsStrictOrderedRing K]

/-- The leaf size limit in force for the argument `max_leaf_points`: non-positive values select the default. -/
def effLeafPoints (ptDim : Nat) (maxLeafPoints : Int) : Nat :=
  if maxLeafPoints ≤ 0 then (if ptDim = 2 then 200 else 400) else maxLeafPoints.toNat

/-- The point `p` lies in the box. -/
def Box.Holds (ptDim : Nat) (b : Box K) (x : Nat → K) : Prop := ∀ j < ptDim, b.lo j ≤ x j ∧ x j ≤ b.lo j + b.ext j

/-! ## The enclosing box of all points -/

theorem foldl_maxK_ge {α : Type} (f : α → K) (l : List α) : ∀ a : K, a ≤ l.foldl (fun a i => max a (f i)) a ∧ ∀ x ∈ l, f x ≤ l.foldl (fun a i => max a (f i)) a := by
  induction l with
  | nil => intro a; exact ⟨le_refl _, by simp⟩
  | cons y l ih =>
    intro a
    rw [List.foldl_cons]
    obtain ⟨h1, h2⟩ := ih (max a (f y))
    refine ⟨le_trans (le_max_left _ _) h1, ?_⟩
    intro x hx
    rcases List.mem_cons.1 hx with rfl | hx
    · exact le_trans (le_max_right _ _) h1
    · exact h2 x hx

theorem semiBox_ge (ptDim n : Nat) (coord : Nat → Nat → K) (center : Nat → K) :
    0 ≤ semiBox ptDim n coord center ∧ ∀ i < n, ∀ j < ptDim, |coord i j - center j| ≤ semiBox ptDim n coord center := by
  unfold semiBox
  have key : ∀ (l : List Nat) (a : K), a ≤ l.foldl (fun a j => (List.range n).foldl (fun a i => max a |coord i j - center j|) a) a ∧
      ∀ j ∈ l, ∀ i < n, |coord i j - center j| ≤ l.foldl (fun a j => (List.range n).foldl (fun a i => max a |coord i j - center j|) a) a := by
    intro l
    induction l with
    | nil => intro a; exact ⟨le_refl _, by simp⟩
    | cons k l ih =>
      intro a
      rw [List.foldl_cons]
      obtain ⟨h1, h2⟩ := ih ((List.range n).foldl (fun a i => max a |coord i k - center k|) a)
      have h3 := foldl_maxK_ge (fun i => |coord i k - center k|) (List.range n) a
      refine ⟨le_trans h3.1 h1, ?_⟩
      intro j hj i hi
      rcases List.mem_cons.1 hj with rfl | hj
      · exact le_trans (h3.2 i (List.mem_range.2 hi)) h1
      · exact h2 j hj i hi
  have := key (List.range ptDim) 0
  exact ⟨this.1, fun i hi j hj => this.2 j (List.mem_range.2 hj) i hi⟩

theorem rootBox_holds (ptDim n : Nat) (coord : Nat → Nat → K) (rnd : Nat → K) :
    ∀ i < n, Box.Holds ptDim (rootBox ptDim n coord rnd) (coord i) := by
  intro i hi j hj
  unfold rootBox
  dsimp only
  generalize hc : (fun j => _ + (rnd j * (1/2) + 1/4) * _ : Nat → K) = center
  have h := (semiBox_ge ptDim n coord center).2 i hi j hj
  rw [abs_le] at h
  have he := eps_pos (K := K)
  have h8 : (0 : K) < 1 / 10^8 := by positivity
  rw [← hc] at h ⊢
  dsimp only at h ⊢
  constructor <;> linarith

theorem rootBox_wide (ptDim n : Nat) (coord : Nat → Nat → K) (rnd : Nat → K) (j : Nat) : 4 * eps < (rootBox ptDim n coord rnd).ext j := by
  unfold rootBox
  dsimp only
  generalize hc : (fun j => _ + (rnd j * (1/2) + 1/4) * _ : Nat → K) = center
  have h := (semiBox_ge ptDim n coord center).1
  have h8 : (0 : K) < 1 / 10^8 := by positivity
  linarith

/-! ## Everything about a finished partitioning -/

/-- What `partition` guarantees, in terms of the exported data. -/
structure Outcome (ptDim xptDim n : Nat) (coord : Nat → Nat → K) (mlp : Nat) (mls : K) (box : Box K) (R : Partitioned K) : Prop where
  perm : ((List.range n).map R.coordIdx).Perm (List.range n)
  sorted : ∀ i < n, ∀ j < xptDim, R.coord i j = coord (R.coordIdx i) j
  tree : ClusterTree R.arr n
  maxChild : R.arr.maxChild = 2 ^ ptDim
  rootBox : R.arr.enbox (R.arr.nNode - 1) = box
  leaf : ∀ v < R.arr.nNode, R.arr.nChild v = 0 → R.arr.ptE v + 1 - R.arr.ptS v ≤ mlp ∨ (R.arr.enbox v).ext 0 ≤ mls
  inner : ∀ v < R.arr.nNode, R.arr.nChild v ≠ 0 → mlp < R.arr.ptE v + 1 - R.arr.ptS v ∧ mls < (R.arr.enbox v).ext 0
  childBox : ∀ v < R.arr.nNode, ∀ c ∈ kids R.arr v, ∃ r : Nat → Nat, (∀ j < ptDim, r j ≤ 1) ∧ R.arr.enbox c = subBox (R.arr.enbox v) r
  sibling : ∀ v < R.arr.nNode, (kids R.arr v).Pairwise (fun c d => Sib ptDim (R.arr.enbox v) (R.arr.enbox c) (R.arr.enbox d))
  inBox : (∀ i < n, Box.Holds ptDim box (coord i)) → ∀ v < R.arr.nNode, ∀ p, R.arr.ptS v ≤ p → p ≤ R.arr.ptE v → Box.Holds ptDim (R.arr.enbox v) (R.coord p)

theorem perm_range {n : Nat} {π : Equiv.Perm Nat} (h : ∀ p, ¬ (p < n) → π p = p) : ((List.range n).map π).Perm (List.range n) := by
  rw [List.perm_ext_iff_of_nodup (List.Nodup.map π.injective List.nodup_range) List.nodup_range]
  have hm := @perm_maps 0 n π (fun p hp => h p (by omega))
  intro a
  rw [List.mem_map, List.mem_range]
  constructor
  · rintro ⟨b, hb, rfl⟩
    rw [List.mem_range] at hb
    have := (hm b).2 ⟨by omega, by omega⟩
    omega
  · intro ha
    refine ⟨π.symm a, ?_, by simp⟩
    rw [List.mem_range]
    have := (hm (π.symm a)).1 (by rw [Equiv.apply_symm_apply]; omega)
    omega

theorem partitionPoints_spec (ptDim xptDim n : Nat) (hn : 0 < n) (hx : ptDim ≤ xptDim) (coord : Nat → Nat → K) (mlp : Int) (mls : K)
    (rb : Option (Box K)) (rnd : Nat → K) (junk : Arr K) (g : Nat → Nat → Nat) (fuel : Nat) :
    match partitionPoints ptDim xptDim n coord mlp mls rb rnd junk g fuel with
    | .ok R => Outcome ptDim xptDim n coord (effLeafPoints ptDim mlp) mls (rb.getD (rootBox ptDim n coord rnd)) R
    | .ub => False
    | .diverge => True := by
  unfold partitionPoints
  dsimp only
  have hm : (if mlp ≤ 0 then (if ptDim = 2 then 200 else 400) else mlp.toNat) = effLeafPoints ptDim mlp := rfl
  rw [hm]
  generalize rb.getD (rootBox ptDim n coord rnd) = box
  have hs := partition_spec ⟨ptDim, xptDim, n, mls, effLeafPoints ptDim mlp⟩ hx g fuel 0 0 (n-1) box ⟨coord, fun i => i, 0, 0, 0⟩
    (Nat.zero_le _) (show n - 1 < n by omega)
  cases hp : partition ⟨ptDim, xptDim, n, mls, effLeafPoints ptDim mlp⟩ g fuel 0 0 (n-1) box ⟨coord, fun i => i, 0, 0, 0⟩ with
  | diverge => exact True.intro
  | ub => rw [hp] at hs; exact hs
  | ok r =>
    obtain ⟨root, st⟩ := r
    rw [hp] at hs
    have hpost : Post _ 0 0 (n-1) box _ root st := hs
    obtain ⟨B, hB, hT, hB1, hB2, hB3, hB4⟩ := tree_arrays _ n hn box _ st root rfl rfl rfl hpost rfl
      { junk with nNode := root.nNode, nLeaf := st.nLeaf, maxLevel := st.maxLevel, maxChild := 2 ^ ptDim, levelN := fun _ => 0, heightN := fun _ => 0 }
      rfl rfl rfl rfl (fun _ => rfl) (fun _ => rfl)
    simp only [Res.bind_ok]
    rw [hB]
    simp only [Res.bind_ok]
    have hfind : ∀ v < B.nNode, ∃ t ∈ postorder root, t.po = v := by
      intro v hv
      have : v ∈ (postorder root).map Tree.po := by rw [hB3, List.mem_range, ← hB1]; exact hv
      exact List.mem_map.1 this
    obtain ⟨π, hπ1, hπ2, hπ3⟩ := hpost.perm
    dsimp only at hπ1 hπ2 hπ3
    have hidx : st.idx = π := funext hπ2
    have hroot : root.po = B.nNode - 1 := by
      have e := hB3
      have hnn : 0 < root.nNode := by
        have : root.po ∈ (postorder root).map Tree.po := List.mem_map_of_mem (self_mem root)
        rw [hB3, List.mem_range] at this; omega
      rw [postorder_eq, List.map_append, List.map_singleton, show root.nNode = (root.nNode - 1) + 1 by omega, List.range_succ] at e
      have := (List.append_inj' e rfl).2
      rw [hB1]
      simpa using this
    constructor <;> dsimp only
    · rw [hidx]; exact perm_range (fun p hp => hπ1 p (by omega))
    · intro i hi j hj
      rw [hπ3 i j hj, hidx]
    · exact hT
    · exact hB2
    · rw [← hroot, (hB4 root (self_mem root)).1, hpost.hb]
    · intro v hv h0
      obtain ⟨t, ht, rfl⟩ := hfind v hv
      obtain ⟨b1, b2, b3, b4, b5⟩ := hB4 t ht
      rw [b4, List.length_eq_zero_iff] at h0
      rw [b1, b2, b3]
      exact ((hpost.ok t ht).leaf h0).1
    · intro v hv h0
      obtain ⟨t, ht, rfl⟩ := hfind v hv
      obtain ⟨b1, b2, b3, b4, b5⟩ := hB4 t ht
      rw [b4, Ne, List.length_eq_zero_iff] at h0
      rw [b1, b2, b3]
      have := (hpost.ok t ht).inner h0
      exact ⟨this.1, this.2.1⟩
    · intro v hv c hc
      obtain ⟨t, ht, rfl⟩ := hfind v hv
      obtain ⟨b1, b2, b3, b4, b5⟩ := hB4 t ht
      have hc' : c ∈ kids B t.po := hc
      rw [b5, List.mem_map] at hc'
      obtain ⟨d, hd, rfl⟩ := hc'
      rw [b1, (hB4 d (child_mem root t d ht hd)).1]
      exact (hpost.ok t ht).childBox d hd
    · intro v hv
      obtain ⟨t, ht, rfl⟩ := hfind v hv
      obtain ⟨b1, b2, b3, b4, b5⟩ := hB4 t ht
      show (kids B t.po).Pairwise _
      rw [b5, List.pairwise_map]
      refine List.Pairwise.imp_of_mem ?_ (hpost.ok t ht).sib
      intro c d hc hd h
      rw [b1, (hB4 c (child_mem root t c ht hc)).1, (hB4 d (child_mem root t d ht hd)).1]
      exact h
    · intro hin v hv p hp1 hp2 j hj
      obtain ⟨t, ht, rfl⟩ := hfind v hv
      obtain ⟨b1, b2, b3, b4, b5⟩ := hB4 t ht
      rw [b2] at hp1; rw [b3] at hp2; rw [b1]
      exact hpost.inbox (fun p hp1 hp2 j hj => hin p (by omega) j hj) t ht p hp1 hp2 j hj

/-- The result does not depend on the fuel. -/
theorem partition_returns (ptDim xptDim n : Nat) (coord : Nat → Nat → K) (mlp : Int) (mls : K)
    (rb : Option (Box K)) (rnd : Nat → K) (junk : Arr K) (g : Nat → Nat → Nat) (fuel : Nat) (R : Partitioned K)
    (h : partitionPoints ptDim xptDim n coord mlp mls rb rnd junk g fuel = .ok R) :
    Returns (partitionPoints ptDim xptDim n coord mlp mls rb rnd junk g) R := by
  refine ⟨fuel, ?_⟩
  intro k hk
  rw [← h]
  unfold partitionPoints at h ⊢
  dsimp only at h ⊢
  have hne : partition ⟨ptDim, xptDim, n, mls, (if mlp ≤ 0 then (if ptDim = 2 then 200 else 400) else mlp.toNat)⟩ g fuel 0 0 (n-1)
      (rb.getD (rootBox ptDim n coord rnd)) ⟨coord, fun i => i, 0, 0, 0⟩ ≠ .diverge := by
    intro hd
    rw [hd] at h
    simp at h
  have := partition_mono_le _ g fuel 0 0 (n-1) (rb.getD (rootBox ptDim n coord rnd)) ⟨coord, fun i => i, 0, 0, 0⟩ hne (k - fuel)
  rw [show fuel + (k - fuel) = k by omega] at this
  rw [this]

/-! ## C06 -/

/-- C06: the partitioning only permutes the points. -/
theorem C06_permutation (ptDim xptDim n : Nat) (hn : 0 < n) (hx : ptDim ≤ xptDim) (coord : Nat → Nat → K) (mlp : Int) (mls : K)
    (rb : Option (Box K)) (rnd : Nat → K) (junk : Arr K) (g : Nat → Nat → Nat) (fuel : Nat) (R : Partitioned K)
    (h : partitionPoints ptDim xptDim n coord mlp mls rb rnd junk g fuel = .ok R) :
    ((List.range n).map R.coordIdx).Perm (List.range n) ∧ ∀ i < n, ∀ j < xptDim, R.coord i j = coord (R.coordIdx i) j := by
  have := partitionPoints_spec ptDim xptDim n hn hx coord mlp mls rb rnd junk g fuel
  rw [h] at this
  exact ⟨this.perm, this.sorted⟩

/-- No run of the partitioning accesses an array out of bounds or fails its assertion. -/
theorem C06_no_ub (ptDim xptDim n : Nat) (hn : 0 < n) (hx : ptDim ≤ xptDim) (coord : Nat → Nat → K) (mlp : Int) (mls : K)
    (rb : Option (Box K)) (rnd : Nat → K) (junk : Arr K) (g : Nat → Nat → Nat) (fuel : Nat) :
    partitionPoints ptDim xptDim n coord mlp mls rb rnd junk g fuel ≠ .ub := by
  intro h
  have := partitionPoints_spec ptDim xptDim n hn hx coord mlp mls rb rnd junk g fuel
  rw [h] at this
  exact this

/-! ## C07 -/

/-- C07: the root holds all points; children clusters are non-empty, consecutive and tile the cluster of
their parent; every point lies in exactly one leaf. -/
theorem C07_clusters (ptDim xptDim n : Nat) (hn : 0 < n) (hx : ptDim ≤ xptDim) (coord : Nat → Nat → K) (mlp : Int) (mls : K)
    (rb : Option (Box K)) (rnd : Nat → K) (junk : Arr K) (g : Nat → Nat → Nat) (fuel : Nat) (R : Partitioned K)
    (h : partitionPoints ptDim xptDim n coord mlp mls rb rnd junk g fuel = .ok R) :
    (R.arr.ptS (R.arr.nNode - 1) = 0 ∧ R.arr.ptE (R.arr.nNode - 1) = n - 1) ∧
    (∀ v < R.arr.nNode, R.arr.nChild v ≠ 0 →
      Tiles (R.arr.ptS v) (R.arr.ptE v + 1) ((kids R.arr v).map fun c => (R.arr.ptS c, R.arr.ptE c))) ∧
    ∀ p < n, ∃ v < R.arr.nNode, (R.arr.nChild v = 0 ∧ R.arr.ptS v ≤ p ∧ p ≤ R.arr.ptE v) ∧
      ∀ w < R.arr.nNode, R.arr.nChild w = 0 → R.arr.ptS w ≤ p → p ≤ R.arr.ptE w → w = v := by
  have hs := partitionPoints_spec ptDim xptDim n hn hx coord mlp mls rb rnd junk g fuel
  rw [h] at hs
  have T : ClusterTree R.arr n := hs.tree
  have hE := T.rootE
  have hr : R.arr.nNode - 1 < R.arr.nNode := by have := T.nonempty; omega
  refine ⟨⟨T.rootS, by omega⟩, T.tile, ?_⟩
  intro p hp
  obtain ⟨u, ⟨q1, q2, q3, q4⟩, q5⟩ := T.leaf_at (R.arr.nNode - 1) hr p (by rw [T.rootS]; omega) (by omega)
  refine ⟨u, ?_, ⟨q2, q3, q4⟩, fun w hw h0 h1 h2 => q5 w (T.desc_root hw) h0 h1 h2⟩
  have := T.desc_le q1 hr
  omega

/-! ## C08 -/

/-- C08: a leaf holds at most the allowed number of points or is at most `max_leaf_size` wide; an inner
node violates both limits. -/
theorem C08_leaf_limits (ptDim xptDim n : Nat) (hn : 0 < n) (hx : ptDim ≤ xptDim) (coord : Nat → Nat → K) (mlp : Int) (mls : K)
    (rb : Option (Box K)) (rnd : Nat → K) (junk : Arr K) (g : Nat → Nat → Nat) (fuel : Nat) (R : Partitioned K)
    (h : partitionPoints ptDim xptDim n coord mlp mls rb rnd junk g fuel = .ok R) :
    ∀ v < R.arr.nNode, (R.arr.nChild v = 0 ↔
      R.arr.ptE v + 1 - R.arr.ptS v ≤ effLeafPoints ptDim mlp ∨ (R.arr.enbox v).ext 0 ≤ mls) := by
  have hs := partitionPoints_spec ptDim xptDim n hn hx coord mlp mls rb rnd junk g fuel
  rw [h] at hs
  intro v hv
  constructor
  · exact hs.leaf v hv
  · intro hor
    by_contra hne
    have := hs.inner v hv hne
    rcases hor with h1 | h1
    · omega
    · exact absurd this.2 (not_lt.2 h1)

/-! ## C09 -/

/-- C09: the partitioning returns for every non-empty point set when `max_leaf_size > 4e-12`. -/
theorem C09_terminates [Archimedean K] (ptDim xptDim n : Nat) (hn : 0 < n) (hx : ptDim ≤ xptDim) (coord : Nat → Nat → K) (mlp : Int) (mls : K)
    (hmls : 4 / 10^12 < mls) (rb : Option (Box K)) (rnd : Nat → K) (junk : Arr K) (g : Nat → Nat → Nat) :
    ∃ R, Returns (partitionPoints ptDim xptDim n coord mlp mls rb rnd junk g) R := by
  have heps : (4 : K) * eps = 4 / 10^12 := by unfold eps; ring
  have hd : 0 < mls - 4 * eps := by rw [heps]; linarith
  obtain ⟨k, hk⟩ := pow_unbounded_of_one_lt (((rb.getD (rootBox ptDim n coord rnd)).ext 0 - 4 * eps) / (mls - 4 * eps)) (one_lt_two : (1 : K) < 2)
  rw [div_lt_iff₀ hd] at hk
  have ht := partition_term ⟨ptDim, xptDim, n, mls, (if mlp ≤ 0 then (if ptDim = 2 then 200 else 400) else mlp.toNat)⟩ g k 0 0 (n-1)
    (rb.getD (rootBox ptDim n coord rnd)) ⟨coord, fun i => i, 0, 0, 0⟩ (by dsimp only; linarith [mul_comm ((2:K)^k) (mls - 4 * eps)])
  have hs := partitionPoints_spec ptDim xptDim n hn hx coord mlp mls rb rnd junk g (k+1)
  cases hp : partitionPoints ptDim xptDim n coord mlp mls rb rnd junk g (k+1) with
  | ok R => exact ⟨R, partition_returns _ _ _ _ _ _ _ _ _ _ _ _ hp⟩
  | ub => rw [hp] at hs; exact hs.elim
  | diverge =>
    exfalso
    unfold partitionPoints at hp
    dsimp only at hp
    cases hpp : partition ⟨ptDim, xptDim, n, mls, (if mlp ≤ 0 then (if ptDim = 2 then 200 else 400) else mlp.toNat)⟩ g (k+1) 0 0 (n-1)
      (rb.getD (rootBox ptDim n coord rnd)) ⟨coord, fun i => i, 0, 0, 0⟩ with
    | diverge => exact ht hpp
    | ub => rw [hpp] at hp; simp at hp
    | ok r =>
      obtain ⟨root, st⟩ := r
      have hps := partition_spec ⟨ptDim, xptDim, n, mls, (if mlp ≤ 0 then (if ptDim = 2 then 200 else 400) else mlp.toNat)⟩ hx g (k+1) 0 0 (n-1)
        (rb.getD (rootBox ptDim n coord rnd)) ⟨coord, fun i => i, 0, 0, 0⟩ (Nat.zero_le _) (show n - 1 < n by omega)
      rw [hpp] at hps
      obtain ⟨B, hB, _⟩ := tree_arrays _ n hn _ _ st root rfl rfl rfl hps rfl
        { junk with nNode := root.nNode, nLeaf := st.nLeaf, maxLevel := st.maxLevel, maxChild := 2 ^ ptDim, levelN := fun _ => 0, heightN := fun _ => 0 }
        rfl rfl rfl rfl (fun _ => rfl) (fun _ => rfl)
      rw [hpp] at hp
      simp only [Res.bind_ok] at hp
      rw [hB] at hp
      simp at hp

/-- C09: with `max_leaf_size ≤ 4e-12` more than `max_leaf_points` coincident points make the recursion
endless, in every dimension, when the enclosing box is computed by the library or given and wider than
`4e-12`. -/
theorem C09_endless (ptDim xptDim n : Nat) (hx : ptDim ≤ xptDim) (coord : Nat → Nat → K) (mlp : Int) (mls : K)
    (hmls : mls ≤ 4 / 10^12) (rb : Option (Box K)) (hrb : ∀ b, rb = some b → 4 / 10^12 < b.ext 0) (rnd : Nat → K) (junk : Arr K) (g : Nat → Nat → Nat)
    (S : Finset Nat) (hS : effLeafPoints ptDim mlp < S.card) (hSn : ∀ p ∈ S, p < n)
    (hco : ∀ p ∈ S, ∀ q ∈ S, ∀ j < ptDim, coord p j = coord q j) :
    Diverges (partitionPoints ptDim xptDim n coord mlp mls rb rnd junk g) := by
  have heps : (4 : K) * eps = 4 / 10^12 := by unfold eps; ring
  intro fuel
  obtain ⟨q, hq⟩ : S.Nonempty := by rw [← Finset.card_pos]; omega
  have hqn := hSn q hq
  have := partition_div ⟨ptDim, xptDim, n, mls, effLeafPoints ptDim mlp⟩ hx g (by rw [heps]; exact hmls) fuel 0 0 (n-1)
    (rb.getD (rootBox ptDim n coord rnd)) ⟨coord, fun i => i, 0, 0, 0⟩ (Nat.zero_le _) (show n - 1 < n by omega)
    (by
      cases rb with
      | none => exact rootBox_wide _ _ _ _ _
      | some b => rw [heps]; exact hrb b rfl)
    ⟨S, coord q, hS, fun p hp => ⟨Nat.zero_le _, by have := hSn p hp; omega, hco p hp q hq⟩⟩
  unfold partitionPoints
  dsimp only
  have hm : (if mlp ≤ 0 then (if ptDim = 2 then 200 else 400) else mlp.toNat) = effLeafPoints ptDim mlp := rfl
  rw [hm, this]
  rfl

/-! ## C10 -/

/-- C10: the exported arrays are a consistent post-order numbering (`ClusterTree` is spelled out in
`Verif/Spec/ClusterTree.lean`). -/
theorem C10_tree_arrays (ptDim xptDim n : Nat) (hn : 0 < n) (hx : ptDim ≤ xptDim) (coord : Nat → Nat → K) (mlp : Int) (mls : K)
    (rb : Option (Box K)) (rnd : Nat → K) (junk : Arr K) (g : Nat → Nat → Nat) (fuel : Nat) (R : Partitioned K)
    (h : partitionPoints ptDim xptDim n coord mlp mls rb rnd junk g fuel = .ok R) :
    ClusterTree R.arr n ∧ R.arr.maxChild = 2 ^ ptDim := by
  have hs := partitionPoints_spec ptDim xptDim n hn hx coord mlp mls rb rnd junk g fuel
  rw [h] at hs
  exact ⟨hs.tree, hs.maxChild⟩

/-- C10: the children of two different nodes are different nodes. -/
theorem C10_parent_unique {A : Arr K} {n : Nat} (T : ClusterTree A n) (v w c : Nat) (hv : v < A.nNode) (hw : w < A.nNode)
    (h1 : c ∈ kids A v) (h2 : c ∈ kids A w) : v = w := by
  have := T.parentOfChild v hv c h1
  rw [T.parentOfChild w hw c h2] at this
  omega

/-- C10: following parents from any node leads to the root after as many steps as the level of the node. -/
theorem C10_level_is_depth {A : Arr K} {n : Nat} (T : ClusterTree A n) :
    ∀ v < A.nNode, (fun u => (A.parent u).toNat)^[A.level v] v = A.nNode - 1 := by
  have key : ∀ k v, v + k = A.nNode - 1 → (fun u => (A.parent u).toNat)^[A.level v] v = A.nNode - 1 := by
    intro k
    induction k using Nat.strong_induction_on with
    | _ k ih =>
      intro v hv
      rcases Nat.eq_zero_or_pos k with h0 | hk
      · have : v = A.nNode - 1 := by omega
        rw [this, T.rootLevel]; rfl
      · obtain ⟨w, hw, hp, hm⟩ := T.childOfParent v (by omega)
        have := T.childLt w hw v hm
        rw [T.childLevel w hw v hm, Function.iterate_succ_apply]
        have e : (A.parent v).toNat = w := by rw [hp]; simp
        rw [e]
        exact ih (A.nNode - 1 - w) (by omega) w (by omega)
  intro v hv
  exact key (A.nNode - 1 - v) v (by omega)

/-! ## C40 -/

/-- C40: every point lies in the enclosing box of each node that holds it (the box given for the root, if
any, has to enclose all points). -/
theorem C40_in_box (ptDim xptDim n : Nat) (hn : 0 < n) (hx : ptDim ≤ xptDim) (coord : Nat → Nat → K) (mlp : Int) (mls : K)
    (rb : Option (Box K)) (hrb : ∀ b, rb = some b → ∀ i < n, Box.Holds ptDim b (coord i))
    (rnd : Nat → K) (junk : Arr K) (g : Nat → Nat → Nat) (fuel : Nat) (R : Partitioned K)
    (h : partitionPoints ptDim xptDim n coord mlp mls rb rnd junk g fuel = .ok R) :
    ∀ v < R.arr.nNode, ∀ p, R.arr.ptS v ≤ p → p ≤ R.arr.ptE v → Box.Holds ptDim (R.arr.enbox v) (R.coord p) := by
  have hs := partitionPoints_spec ptDim xptDim n hn hx coord mlp mls rb rnd junk g fuel
  rw [h] at hs
  apply hs.inBox
  cases rb with
  | none => exact rootBox_holds ptDim n coord rnd
  | some b => exact hrb b rfl

/-! ## A concrete case -/

/-- Five points in the plane, at most one point per leaf. -/
def exCoord (p j : Nat) : Rat := if j = 0 then p else p * p

def exJunk : Arr Rat := ⟨0, 0, 0, 0, fun _ => 0, fun _ => 0, fun _ => 0, fun _ => 0, fun _ => 0, fun _ => 0, fun _ => 0,
  fun _ => ⟨fun _ => 0, fun _ => 0⟩, fun _ => 0, fun _ => 0, fun _ => 0, fun _ => 0⟩

/-- The partitioning of this set returns, with a tree of more than one node: the hypotheses of C06 - C08,
C10 and C40 are met. -/
theorem example_partition : ∃ R, (∃ fuel, partitionPoints 2 2 5 exCoord 1 (1/100) none (fun _ => 1/3) exJunk (fun _ _ => 7) fuel = .ok R) ∧
    1 < R.arr.nNode := by
  obtain ⟨R, F, hF⟩ := C09_terminates 2 2 5 (by norm_num) (le_refl _) exCoord 1 (1/100) (by norm_num) none (fun _ => 1/3) exJunk (fun _ _ => 7)
  have h := hF F (le_refl _)
  refine ⟨R, ⟨F, h⟩, ?_⟩
  have hs := partitionPoints_spec 2 2 5 (by norm_num) (le_refl _) exCoord 1 (1/100) none (fun _ => 1/3) exJunk (fun _ _ => 7) F
  rw [h] at hs
  have T : ClusterTree R.arr 5 := hs.tree
  by_contra hcon
  have hn := T.nonempty
  have h1 : R.arr.nNode = 1 := by omega
  have h0 : R.arr.nChild (R.arr.nNode - 1) = 0 := by
    by_contra hne
    have : kids R.arr (R.arr.nNode - 1) ≠ [] := fun e => hne (kids_nil_iff.1 e)
    obtain ⟨c, hc⟩ := List.exists_mem_of_ne_nil _ this
    have := T.childLt _ (by omega) c hc
    omega
  have hE := T.rootE
  rcases hs.leaf (R.arr.nNode - 1) (by omega) h0 with hh | hh
  · rw [T.rootS] at hh
    have : effLeafPoints 2 1 = 1 := rfl
    omega
  · rw [hs.rootBox] at hh
    have r4 := rootBox_holds 2 5 exCoord (fun _ => 1/3) 4 (by norm_num) 1 (by norm_num)
    have r0 := rootBox_holds 2 5 exCoord (fun _ => 1/3) 0 (by norm_num) 1 (by norm_num)
    have e4 : exCoord 4 1 = 16 := by unfold exCoord; norm_num
    have e0 : exCoord 0 1 = 0 := by unfold exCoord; norm_num
    have ee : (rootBox 2 5 exCoord (fun _ => 1/3)).ext 1 = (rootBox 2 5 exCoord (fun _ => 1/3)).ext 0 := rfl
    rw [e4] at r4
    rw [e0] at r0
    have hh' : (rootBox 2 5 exCoord (fun _ => 1/3)).ext 0 ≤ 1/100 := hh
    rw [ee] at r4 r0
    linarith [r4.1, r4.2, r0.1, r0.2]

/-- Three coincident points and room for two: the recursion is endless. -/
example : Diverges (partitionPoints 3 3 4 (fun p j => if p = 2 then (j : Rat) else 5) 2 0 none (fun _ => 0) exJunk (fun _ _ => 0)) :=
  C09_endless 3 3 4 (le_refl _) _ 2 0 (by norm_num) none (by simp) _ _ _ {0, 1, 3} (by decide) (by decide) (by
    intro p hp q hq j _
    have h1 : p ≠ 2 := by rintro rfl; revert hp; decide
    have h2 : q ≠ 2 := by rintro rfl; revert hq; decide
    simp [h1, h2])

end H2Pack.Part
