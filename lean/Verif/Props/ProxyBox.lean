import Verif.Proof.ProxyFile2
import Verif.Props.ProxyPoint
import Verif.Props.Utils

/-!
# C76: proxy surface; C77: enclosing box
-/

namespace H2Pack.Proxy
open H2Pack.Part (alphaH2)
open Finset

/-! ## C77 -/

theorem foldl_max (n : Nat) (f : Nat → ℝ) (r : ℝ) : r ≤ (List.range n).foldl (fun r i => max r (f i)) r ∧ (∀ i < n, f i ≤ (List.range n).foldl (fun r i => max r (f i)) r) ∧
    ((List.range n).foldl (fun r i => max r (f i)) r = r ∨ ∃ i < n, (List.range n).foldl (fun r i => max r (f i)) r = f i) := by
  induction n with
  | zero => simp
  | succ n ih =>
    obtain ⟨h1, h2, h3⟩ := ih
    rw [List.range_succ, List.foldl_append]
    set v := (List.range n).foldl (fun r i => max r (f i)) r with hv
    show r ≤ max v (f n) ∧ (∀ i < n + 1, f i ≤ max v (f n)) ∧ (max v (f n) = r ∨ ∃ i < n + 1, max v (f n) = f i)
    refine ⟨le_trans h1 (le_max_left _ _), ?_, ?_⟩
    · intro i hi
      rcases Nat.lt_succ_iff_lt_or_eq.1 hi with h | rfl
      · exact le_trans (h2 i h) (le_max_left _ _)
      · exact le_max_right _ _
    · rcases max_choice v (f n) with h | h
      · rw [h]
        rcases h3 with h3 | ⟨i, hi, h3⟩
        · exact Or.inl h3
        · exact Or.inr ⟨i, by omega, h3⟩
      · exact Or.inr ⟨n, by omega, h⟩

theorem radius_spec (dim n : Nat) (P : Nat → Pt) : 0 ≤ radius dim n P ∧ (∀ i < n, ∀ j < dim, |P i j - center n P j| ≤ radius dim n P) ∧
    (radius dim n P = 0 ∨ ∃ i < n, ∃ j < dim, radius dim n P = |P i j - center n P j|) := by
  unfold radius
  induction dim with
  | zero => simp
  | succ d ih =>
    obtain ⟨h1, h2, h3⟩ := ih
    rw [List.range_succ, List.foldl_append]
    set v := (List.range d).foldl (fun r j => (List.range n).foldl (fun r i => max r |P i j - center n P j|) r) 0 with hv
    obtain ⟨m1, m2, m3⟩ := foldl_max n (fun i => |P i d - center n P d|) v
    beta_reduce at m1 m2 m3
    show 0 ≤ (List.range n).foldl (fun r i => max r |P i d - center n P d|) v ∧ (∀ i < n, ∀ j < d + 1, _ ≤ (List.range n).foldl (fun r i => max r |P i d - center n P d|) v) ∧
      ((List.range n).foldl (fun r i => max r |P i d - center n P d|) v = 0 ∨ ∃ i < n, ∃ j < d + 1, (List.range n).foldl (fun r i => max r |P i d - center n P d|) v = _)
    refine ⟨le_trans h1 m1, ?_, ?_⟩
    · intro i hi j hj
      rcases Nat.lt_succ_iff_lt_or_eq.1 hj with h | rfl
      · exact le_trans (h2 i hi j h) m1
      · exact m2 i hi
    · rcases m3 with m3 | ⟨i, hi, m3⟩
      · rw [m3]
        rcases h3 with h3 | ⟨i, hi, j, hj, h3⟩
        · exact Or.inl h3
        · exact Or.inr ⟨i, hi, j, by omega, h3⟩
      · exact Or.inr ⟨i, hi, d, by omega, m3⟩

/-- Rounding up to a power of two times `minL`. -/
theorem round_up {r m : ℝ} (hr : 0 < r) (hm : 0 < m) : r ≤ m * pow2 (⌈log2 (r / m)⌉ : ℤ) ∧ m * pow2 (⌈log2 (r / m)⌉ : ℤ) < 2 * r := by
  have hp : 0 < m * pow2 (⌈log2 (r / m)⌉ : ℤ) := mul_pos hm (pow2_pos _)
  have hl : log2 (m * pow2 (⌈log2 (r / m)⌉ : ℤ)) = log2 m + (⌈log2 (r / m)⌉ : ℤ) := by rw [log2_mul hm (pow2_pos _), log2_pow2]
  have h1 := Int.le_ceil (log2 (r / m))
  have h2 := Int.ceil_lt_add_one (log2 (r / m))
  have hd := log2_div hr hm
  constructor
  · rw [← log2_le_iff hr hp, hl]; linarith
  · by_contra hc
    have := log2_mono (by positivity : 0 < 2 * r) (not_lt.1 hc)
    rw [hl, log2_mul (by norm_num) hr, log2_two] at this
    linarith

/-- C77: the box is a cube, it contains all points, its centre is their mean. -/
theorem C77_contains {σ : Type} (dim n : Nat) (P : Nat → Pt) (file : Option (PFile σ)) (hm : ∀ F, file = some F → 0 < F.minL) :
    (∀ i < n, ∀ j < dim, (enclosingBox dim n P file).1 j ≤ P i j ∧ P i j ≤ (enclosingBox dim n P file).1 j + (enclosingBox dim n P file).2 j) ∧
    (∀ j k, (enclosingBox dim n P file).2 j = (enclosingBox dim n P file).2 k) ∧
    ∀ j, (enclosingBox dim n P file).1 j + (enclosingBox dim n P file).2 j / 2 = (∑ i ∈ range n, P i j) / n := by
  obtain ⟨h1, h2, _⟩ := radius_spec dim n P
  have hr : radius dim n P ≤ adjustRadius dim file (radius dim n P) := by
    cases file with
    | none => exact le_refl _
    | some F =>
      unfold adjustRadius
      dsimp only
      split
      · split
        · next h => rw [h]
        · next h => exact (round_up (lt_of_le_of_ne h1 (Ne.symm h)) (hm F rfl)).1
      · exact le_refl _
  unfold enclosingBox
  dsimp only
  refine ⟨fun i hi j hj => ?_, fun _ _ => rfl, fun j => ?_⟩
  · have := abs_le.1 (h2 i hi j hj)
    constructor <;> linarith [this.1, this.2]
  · unfold center
    rw [foldl_sum]
    ring

/-- C77: without a file the box is the smallest one with this centre: a point lies on its boundary (or all points are equal to the centre). -/
theorem C77_tight (dim n : Nat) (P : Nat → Pt) : let b := enclosingBox dim n P (none : Option (PFile Unit))
    (∀ j, b.2 j = 0) ∨ ∃ i < n, ∃ j < dim, P i j = b.1 j ∨ P i j = b.1 j + b.2 j := by
  obtain ⟨_, _, h3⟩ := radius_spec dim n P
  unfold enclosingBox adjustRadius
  dsimp only
  rcases h3 with h3 | ⟨i, hi, j, hj, h3⟩
  · left; intro j; rw [h3]; ring
  · right
    refine ⟨i, hi, j, hj, ?_⟩
    rcases abs_cases (P i j - center n P j) with ⟨h, _⟩ | ⟨h, _⟩
    · right; linarith
    · left; linarith

/-- C77: with a proxy point file of the same dimension the width is a power of two times `2 * minL`, less than twice the width without the file; so the file is aligned with
the boxes of the tree, exactly, and all its sets can be used (C75) when the other values of its first line match. -/
theorem C77_file {σ : Type} (dim n : Nat) (P : Nat → Pt) (F : PFile σ) (hm : 0 < F.minL) (hd : F.dim = dim) (hr : 0 < radius dim n P) :
    (∃ k : Int, ∀ j, (enclosingBox dim n P (some F)).2 j = 2 * F.minL * (2 : ℝ) ^ k) ∧
    (∀ j, (enclosingBox dim n P (none : Option (PFile σ))).2 j ≤ (enclosingBox dim n P (some F)).2 j ∧
      (enclosingBox dim n P (some F)).2 j < 2 * (enclosingBox dim n P (none : Option (PFile σ))).2 j) ∧
    ∀ (T : Tree) (g : GenParam), T.dim = dim → T.width = (enclosingBox dim n P (some F)).2 0 → F.reltol ≤ T.reltol → F.nlayer = g.nlayer → Matches T g F := by
  have hbox : ∀ j, (enclosingBox dim n P (some F)).2 j = 2 * (F.minL * pow2 (⌈log2 (radius dim n P / F.minL)⌉ : ℤ)) := by
    intro j
    unfold enclosingBox adjustRadius
    dsimp only
    rw [if_pos hd, if_neg hr.ne']
  obtain ⟨u1, u2⟩ := round_up hr hm
  refine ⟨⟨⌈log2 (radius dim n P / F.minL)⌉, fun j => ?_⟩, fun j => ?_, fun T g h1 h2 h3 h4 => ⟨hd.trans h1.symm, h3, h4, ⌈log2 (radius dim n P / F.minL)⌉ - 2, ?_⟩⟩
  · rw [hbox]; unfold pow2; rw [Real.rpow_intCast]; ring
  · rw [hbox]
    unfold enclosingBox adjustRadius
    dsimp only
    constructor <;> linarith
  · rw [h2, hbox]
    rw [show 2 * (F.minL * pow2 (⌈log2 (radius dim n P / F.minL)⌉ : ℤ)) / 8 / F.minL = pow2 (⌈log2 (radius dim n P / F.minL)⌉ : ℤ) * (1/2) ^ 2 by field_simp; ring,
      log2_mul (pow2_pos _) (by norm_num), log2_pow2, log2_half_pow]
    push_cast
    rw [show (⌈log2 (radius dim n P / F.minL)⌉ : ℝ) - 2 - ((⌈log2 (radius dim n P / F.minL)⌉ : ℝ) + -2) = 0 by ring]
    norm_num

/-! ## C76 -/

theorem hVal_eq (n i : Nat) : hVal n i = -1 + (i + 1) * (2 / ((n : ℝ) + 1)) := by
  unfold hVal
  generalize 2 / ((n : ℝ) + 1) = h
  induction i with
  | zero => simp
  | succ i ih => rw [List.range_succ, List.foldl_append, ih]; push_cast; simp only [List.foldl_cons, List.foldl_nil]; ring

theorem hVal_in {n i : Nat} (hi : i < n) : -1 < hVal n i ∧ hVal n i < 1 := by
  rw [hVal_eq]
  have hn : (0 : ℝ) < n + 1 := by positivity
  have hi' : (i : ℝ) + 1 ≤ n := by exact_mod_cast hi
  have hp : (0 : ℝ) < 2 / (n + 1) := by positivity
  constructor
  · have : 0 < ((i : ℝ) + 1) * (2 / (n + 1)) := by positivity
    linarith
  · have : ((i : ℝ) + 1) * (2 / (n + 1)) < 2 := by
      rw [mul_div_assoc', div_lt_iff₀ hn]; nlinarith
    linarith

theorem hVal_inj {n i j : Nat} (h : hVal n i = hVal n j) : i = j := by
  rw [hVal_eq, hVal_eq] at h
  have hp : (2 / ((n : ℝ) + 1)) ≠ 0 := by positivity
  have := mul_right_cancel₀ hp (by linarith : ((i : ℝ) + 1) * (2 / (n + 1)) = (j + 1) * (2 / (n + 1)))
  have : (i : ℝ) = j := by linarith
  exact_mod_cast this

theorem powLevel_eq (l : Nat) : powLevel l = 2 ^ l := by
  unfold powLevel
  induction l with
  | zero => simp
  | succ l ih => rw [List.range_succ, List.foldl_append, ih]; simp only [List.foldl_cons, List.foldl_nil]; ring

/-- The points `x` with `|x j| = w` for one coordinate `j < dim` and `|x k| < w` for the other coordinates: inner points of a face of the box of half width `w`. -/
def OnFace (dim : Nat) (w : ℝ) (x : Pt) : Prop := ∃ j < dim, |x j| = w ∧ ∀ k < dim, k ≠ j → |x k| < w

theorem onFace_scale {dim : Nat} {w : ℝ} (hw : 0 < w) {x : Pt} (h : OnFace dim 1 x) : OnFace dim w (fun j => w * x j) := by
  obtain ⟨j, hj, h1, h2⟩ := h
  refine ⟨j, hj, ?_, fun k hk hkj => ?_⟩
  · rw [abs_mul, abs_of_pos hw, h1, mul_one]
  · rw [abs_mul, abs_of_pos hw]
    have := mul_lt_mul_of_pos_left (h2 k hk hkj) hw
    linarith

theorem unit_onFace (dim minNpt : Nat) (hd : dim = 2 ∨ dim = 3) : ∀ x ∈ unitSurface dim minNpt, OnFace dim 1 x ∧ ∀ j, dim ≤ j → x j = 0 := by
  intro x hx
  unfold unitSurface at hx
  dsimp only at hx
  rcases hd with rfl | rfl
  · rw [if_neg (by norm_num)] at hx
    rw [List.mem_flatMap] at hx
    obtain ⟨i, hi, hx⟩ := hx
    have hv := hVal_in (List.mem_range.1 hi)
    have hab : |hVal (nAxis 2 minNpt) i| < 1 := abs_lt.2 hv
    have h2 : ∀ j, 2 ≤ j → ∀ a b, pt3 a b 0 j = 0 := by
      intro j hj a b; unfold pt3; rw [if_neg (by omega), if_neg (by omega)]; split <;> rfl
    have hc1 : ∀ c : ℝ, |c| = 1 → OnFace 2 1 (pt3 (hVal (nAxis 2 minNpt) i) c 0) := by
      intro c hc
      refine ⟨1, by norm_num, by simpa [pt3] using hc, fun k hk hk1 => ?_⟩
      have : k = 0 := by omega
      subst this; simpa [pt3] using hab
    have hc2 : ∀ c : ℝ, |c| = 1 → OnFace 2 1 (pt3 c (hVal (nAxis 2 minNpt) i) 0) := by
      intro c hc
      refine ⟨0, by norm_num, by simpa [pt3] using hc, fun k hk hk1 => ?_⟩
      have : k = 1 := by omega
      subst this; simpa [pt3] using hab
    simp only [List.mem_cons, List.not_mem_nil, or_false] at hx
    rcases hx with rfl | rfl | rfl | rfl
    · exact ⟨hc1 _ (by norm_num), fun j hj => h2 j hj _ _⟩
    · exact ⟨hc1 _ (by norm_num), fun j hj => h2 j hj _ _⟩
    · exact ⟨hc2 _ (by norm_num), fun j hj => h2 j hj _ _⟩
    · exact ⟨hc2 _ (by norm_num), fun j hj => h2 j hj _ _⟩
  · rw [if_pos rfl, List.mem_flatMap] at hx
    obtain ⟨i, hi, hx⟩ := hx
    rw [List.mem_flatMap] at hx
    obtain ⟨l, hl, hx⟩ := hx
    have ha : |hVal (nAxis 3 minNpt) i| < 1 := abs_lt.2 (hVal_in (List.mem_range.1 hi))
    have hb : |hVal (nAxis 3 minNpt) l| < 1 := abs_lt.2 (hVal_in (List.mem_range.1 hl))
    have h3 : ∀ j, 3 ≤ j → ∀ a b c, pt3 a b c j = 0 := by
      intro j hj a b c; unfold pt3; rw [if_neg (by omega), if_neg (by omega), if_neg (by omega)]
    have hc : ∀ a b c : ℝ, (|a| = 1 ∧ |b| < 1 ∧ |c| < 1) ∨ (|a| < 1 ∧ |b| = 1 ∧ |c| < 1) ∨ (|a| < 1 ∧ |b| < 1 ∧ |c| = 1) → OnFace 3 1 (pt3 a b c) := by
      intro a b c h
      have hk : ∀ k, k < 3 → k = 0 ∨ k = 1 ∨ k = 2 := by intro k hk; omega
      rcases h with ⟨h1, h2, h3⟩ | ⟨h1, h2, h3⟩ | ⟨h1, h2, h3⟩
      · refine ⟨0, by norm_num, by simpa [pt3] using h1, fun k hk' hne => ?_⟩
        rcases hk k hk' with rfl | rfl | rfl
        · exact absurd rfl hne
        · simpa [pt3] using h2
        · simpa [pt3] using h3
      · refine ⟨1, by norm_num, by simpa [pt3] using h2, fun k hk' hne => ?_⟩
        rcases hk k hk' with rfl | rfl | rfl
        · simpa [pt3] using h1
        · exact absurd rfl hne
        · simpa [pt3] using h3
      · refine ⟨2, by norm_num, by simpa [pt3] using h3, fun k hk' hne => ?_⟩
        rcases hk k hk' with rfl | rfl | rfl
        · simpa [pt3] using h1
        · simpa [pt3] using h2
        · exact absurd rfl hne
    have n1 : |(-1 : ℝ)| = 1 := by norm_num
    have n2 : |(1 : ℝ)| = 1 := by norm_num
    simp only [List.mem_cons, List.not_mem_nil, or_false] at hx
    rcases hx with rfl | rfl | rfl | rfl | rfl | rfl
    · exact ⟨hc _ _ _ (Or.inr (Or.inr ⟨ha, hb, n1⟩)), fun j hj => h3 j hj _ _ _⟩
    · exact ⟨hc _ _ _ (Or.inr (Or.inr ⟨ha, hb, n2⟩)), fun j hj => h3 j hj _ _ _⟩
    · exact ⟨hc _ _ _ (Or.inr (Or.inl ⟨ha, n1, hb⟩)), fun j hj => h3 j hj _ _ _⟩
    · exact ⟨hc _ _ _ (Or.inr (Or.inl ⟨ha, n2, hb⟩)), fun j hj => h3 j hj _ _ _⟩
    · exact ⟨hc _ _ _ (Or.inl ⟨n1, ha, hb⟩), fun j hj => h3 j hj _ _ _⟩
    · exact ⟨hc _ _ _ (Or.inl ⟨n2, ha, hb⟩), fun j hj => h3 j hj _ _ _⟩

theorem pt3_inj {a b c a' b' c' : ℝ} (h : pt3 a b c = pt3 a' b' c') : a = a' ∧ b = b' ∧ c = c' := by
  have h0 := congrFun h 0
  have h1 := congrFun h 1
  have h2 := congrFun h 2
  simp [pt3] at h0 h1 h2
  exact ⟨h0, h1, h2⟩

theorem unit_length (dim minNpt : Nat) (hd : dim = 2 ∨ dim = 3) : (unitSurface dim minNpt).length = if dim = 2 then nAxis dim minNpt * 4 else nAxis dim minNpt * nAxis dim minNpt * 6 := by
  unfold unitSurface
  rcases hd with rfl | rfl
  · simp [List.length_flatMap]
  · simp [List.length_flatMap]; ring

theorem unit_nodup (dim minNpt : Nat) (hd : dim = 2 ∨ dim = 3) : (unitSurface dim minNpt).Nodup := by
  unfold unitSurface
  dsimp only
  rcases hd with rfl | rfl
  · rw [if_neg (by norm_num)]
    generalize nAxis 2 minNpt = n
    rw [List.nodup_flatMap]
    refine ⟨fun i hi => ?_, ?_⟩
    · have hv := hVal_in (List.mem_range.1 hi)
      simp only [List.nodup_cons, List.mem_cons, List.not_mem_nil, or_false, not_or, not_false_eq_true, List.nodup_nil, and_true]
      refine ⟨⟨fun h => ?_, fun h => ?_, fun h => ?_⟩, ⟨fun h => ?_, fun h => ?_⟩, fun h => ?_⟩ <;>
      · obtain ⟨h1, h2, _⟩ := pt3_inj h
        linarith [hv.1, hv.2]
    · refine (List.nodup_range (n := n)).imp_of_mem ?_
      intro i j hi hj hij x hx hy
      have hvi := hVal_in (List.mem_range.1 hi)
      have hvj := hVal_in (List.mem_range.1 hj)
      have hne : hVal n i ≠ hVal n j := fun h => hij (hVal_inj h)
      simp only [List.mem_cons, List.not_mem_nil, or_false] at hx hy
      rcases hx with rfl | rfl | rfl | rfl <;> rcases hy with h | h | h | h <;>
      · obtain ⟨h1, h2, _⟩ := pt3_inj h
        first
        | exact hne h1
        | exact hne h2
        | linarith [hvi.1, hvi.2, hvj.1, hvj.2]
  · rw [if_pos rfl]
    generalize nAxis 3 minNpt = n
    have key : ∀ i j i' j', i < n → j < n → i' < n → j' < n → ∀ x,
        x ∈ [pt3 (hVal n i) (hVal n j) (-1), pt3 (hVal n i) (hVal n j) 1, pt3 (hVal n i) (-1) (hVal n j), pt3 (hVal n i) 1 (hVal n j), pt3 (-1) (hVal n i) (hVal n j), pt3 1 (hVal n i) (hVal n j)] →
        x ∈ [pt3 (hVal n i') (hVal n j') (-1), pt3 (hVal n i') (hVal n j') 1, pt3 (hVal n i') (-1) (hVal n j'), pt3 (hVal n i') 1 (hVal n j'), pt3 (-1) (hVal n i') (hVal n j'), pt3 1 (hVal n i') (hVal n j')] →
        i = i' ∧ j = j' := by
      intro i j i' j' hi hj hi' hj' x hx hy
      have a1 := hVal_in hi
      have a2 := hVal_in hj
      have a3 := hVal_in hi'
      have a4 := hVal_in hj'
      simp only [List.mem_cons, List.not_mem_nil, or_false] at hx hy
      rcases hx with rfl | rfl | rfl | rfl | rfl | rfl <;> rcases hy with h | h | h | h | h | h <;>
      · obtain ⟨h1, h2, h3⟩ := pt3_inj h
        first
        | exact ⟨hVal_inj h1, hVal_inj h2⟩
        | exact ⟨hVal_inj h1, hVal_inj h3⟩
        | exact ⟨hVal_inj h2, hVal_inj h3⟩
        | (exfalso; linarith [a1.1, a1.2, a2.1, a2.2, a3.1, a3.2, a4.1, a4.2])
    rw [List.nodup_flatMap]
    refine ⟨fun i hi => ?_, ?_⟩
    · rw [List.nodup_flatMap]
      refine ⟨fun j hj => ?_, ?_⟩
      · have hv := hVal_in (List.mem_range.1 hi)
        have hu := hVal_in (List.mem_range.1 hj)
        simp only [List.nodup_cons, List.mem_cons, List.not_mem_nil, or_false, not_or, not_false_eq_true, List.nodup_nil, and_true]
        refine ⟨⟨fun h => ?_, fun h => ?_, fun h => ?_, fun h => ?_, fun h => ?_⟩, ⟨fun h => ?_, fun h => ?_, fun h => ?_, fun h => ?_⟩, ⟨fun h => ?_, fun h => ?_, fun h => ?_⟩,
          ⟨fun h => ?_, fun h => ?_⟩, fun h => ?_⟩ <;>
        · obtain ⟨h1, h2, h3⟩ := pt3_inj h
          linarith [hv.1, hv.2, hu.1, hu.2]
      · refine (List.nodup_range (n := n)).imp_of_mem ?_
        intro j j' hj hj' hne x hx hy
        exact hne (key i j i j' (List.mem_range.1 hi) (List.mem_range.1 hj) (List.mem_range.1 hi) (List.mem_range.1 hj') x hx hy).2
    · refine (List.nodup_range (n := n)).imp_of_mem ?_
      intro i i' hi hi' hne x hx hy
      rw [List.mem_flatMap] at hx hy
      obtain ⟨j, hj, hx⟩ := hx
      obtain ⟨j', hj', hy⟩ := hy
      exact hne (key i j i' j' (List.mem_range.1 hi) (List.mem_range.1 hj) (List.mem_range.1 hi') (List.mem_range.1 hj') x hx hy).1

/-- C76: for two and three dimensions the levels from `min_level` to `max_level` have points, the others none.  The points of level `l` are different points inside the faces of the
cube around the origin that is `1 + 2 ALPHA_H2` times as wide as a box of level `l`; there are at least `min_npt`, and with one point less on every axis there would be less than
`min_npt`. -/
theorem C76_surface (dim minNpt maxLevel minLevel : Nat) (maxL : ℝ) (hL : 0 < maxL) (hd : dim = 2 ∨ dim = 3) :
    ∃ S, surface dim minNpt maxLevel minLevel maxL = some S ∧ (∀ l, l < minLevel ∨ maxLevel < l → S l = none) ∧
      ∀ l, minLevel ≤ l → l ≤ maxLevel → ∃ P, S l = some P ∧ P.Nodup ∧ minNpt ≤ P.length ∧
        (∃ n : Nat, P.length = (if dim = 2 then 4 * n else 6 * n ^ 2) ∧ (1 ≤ n → (if dim = 2 then 4 * (n - 1) else 6 * (n - 1) ^ 2) < minNpt)) ∧
        ∀ x ∈ P, OnFace dim ((1 + 2 * (999999 / 1000000)) * (maxL / 2 ^ l) / 2) x ∧ ∀ j, dim ≤ j → x j = 0 := by
  have ea : (alphaH2 : ℝ) = 999999 / 1000000 := by unfold alphaH2; norm_num
  unfold surface
  rw [if_neg (by omega)]
  refine ⟨_, rfl, fun l hl => by rw [if_neg (by omega)], fun l h1 h2 => ?_⟩
  refine ⟨_, by rw [if_pos ⟨h1, h2⟩], ?_, ?_, ?_, ?_⟩
  · have hw : (1 + 2 * (alphaH2 : ℝ)) * (maxL / powLevel l * (1/2)) ≠ 0 := by rw [ea, powLevel_eq]; positivity
    refine (unit_nodup dim minNpt hd).map_on fun x _ y _ h => ?_
    funext j
    exact mul_left_cancel₀ hw (congrFun h j)
  · rw [List.length_map, unit_length dim minNpt hd]
    rcases hd with rfl | rfl
    · simp [nAxis]; omega
    · have e : nAxis 3 minNpt = ⌈Real.sqrt ((minNpt : ℝ) / 6)⌉₊ := by unfold nAxis; rw [if_neg (by decide)]
      rw [e, if_neg (by decide)]
      have h := Nat.le_ceil (Real.sqrt ((minNpt : ℝ) / 6))
      have hs := Real.sq_sqrt (show (0 : ℝ) ≤ (minNpt : ℝ) / 6 by positivity)
      have h0 := Real.sqrt_nonneg ((minNpt : ℝ) / 6)
      set c : ℕ := ⌈Real.sqrt ((minNpt : ℝ) / 6)⌉₊
      have : (minNpt : ℝ) ≤ (c * c * 6 : Nat) := by push_cast; nlinarith
      exact_mod_cast this
  · refine ⟨nAxis dim minNpt, ?_, fun hn => ?_⟩
    · rw [List.length_map, unit_length dim minNpt hd]
      rcases hd with rfl | rfl
      · simp; ring
      · simp; ring
    · rcases hd with rfl | rfl
      · simp [nAxis] at hn ⊢; omega
      · have e : nAxis 3 minNpt = ⌈Real.sqrt ((minNpt : ℝ) / 6)⌉₊ := by unfold nAxis; rw [if_neg (by decide)]
        rw [e] at hn ⊢
        rw [if_neg (by decide)]
        obtain ⟨c, hc⟩ : ∃ c, ⌈Real.sqrt ((minNpt : ℝ) / 6)⌉₊ = c + 1 := ⟨⌈Real.sqrt ((minNpt : ℝ) / 6)⌉₊ - 1, by omega⟩
        rw [hc, Nat.add_sub_cancel]
        have h : (c : ℝ) < Real.sqrt ((minNpt : ℝ) / 6) := Nat.lt_ceil.1 (by omega)
        have h' : ((c : ℝ)) ^ 2 < (minNpt : ℝ) / 6 := by
          have := Real.lt_sqrt (Nat.cast_nonneg c) |>.1 h
          exact this
        have : ((6 * c ^ 2 : Nat) : ℝ) < minNpt := by push_cast; linarith
        exact_mod_cast this
  · intro x hx
    rw [List.mem_map] at hx
    obtain ⟨u, hu, rfl⟩ := hx
    obtain ⟨o1, o2⟩ := unit_onFace dim minNpt hd u hu
    have hw : (0 : ℝ) < (1 + 2 * (alphaH2 : ℝ)) * (maxL / powLevel l * (1/2)) := by rw [ea, powLevel_eq]; positivity
    refine ⟨?_, fun j hj => by beta_reduce; rw [o2 j hj, mul_zero]⟩
    have := onFace_scale hw o1
    rw [ea, powLevel_eq] at this ⊢
    rw [show (1 + 2 * (999999 / 1000000)) * (maxL / 2 ^ l) / 2 = (1 + 2 * (999999 / 1000000)) * (maxL / 2 ^ l * (1 / 2)) by ring]
    exact this

/-- C76: the points of a box that is admissible to a cube of width `L1` (with the program's test, the other box not being smaller) lie outside of the open cube with the same centre and the
width `L2 = (1 + 2 ALPHA_H2) L1`: behind the proxy surface, and at the far side of the inner boundary of the ring of the proxy points. -/
theorem C76_far (dim : Nat) (b0 b1 : H2Pack.Utils.Box ℝ) (L1 : ℝ) (h0 : ∀ j < dim, b0.ext j = L1) (h1 : ∀ j < dim, L1 ≤ b1.ext j)
    (h : H2Pack.Utils.checkBoxAdmissible b0 b1 dim alphaH2 = true) (p : Pt) (hp : ∀ j < dim, b1.lo j ≤ p j ∧ p j ≤ b1.lo j + b1.ext j) :
    ∃ j < dim, (1 + 2 * (999999 / 1000000)) * L1 / 2 ≤ |p j - (b0.lo j + L1 / 2)| := by
  have ea : (alphaH2 : ℝ) = 999999 / 1000000 := by unfold alphaH2; norm_num
  have key : ∀ n i, i + n = dim → H2Pack.Utils.admLoop b0 b1 alphaH2 i n = true → ∃ j < dim, H2Pack.Utils.dimAdmissible b0 b1 (alphaH2 : ℝ) j = true := by
    intro n
    induction n with
    | zero => intro i _ h; simp [H2Pack.Utils.admLoop] at h
    | succ n ih =>
      intro i hi h
      rw [H2Pack.Utils.admLoop] at h
      split at h
      · next hc => exact ⟨i, by omega, hc⟩
      · exact ih (i + 1) (by omega) h
  obtain ⟨j, hj, hadm⟩ := key dim 0 (by omega) h
  refine ⟨j, hj, ?_⟩
  unfold H2Pack.Utils.dimAdmissible at hadm
  dsimp only at hadm
  rw [decide_eq_true_eq, h0 j hj, ea] at hadm
  have hle := h1 j hj
  obtain ⟨p1, p2⟩ := hp j hj
  have hmin : (if L1 < b1.ext j then L1 else b1.ext j) = L1 := by split <;> linarith
  rw [hmin] at hadm
  rcases abs_cases (b0.lo j + 1 / 2 * L1 - (b1.lo j + 1 / 2 * b1.ext j)) with ⟨h, _⟩ | ⟨h, _⟩
  · rw [h] at hadm
    rw [le_abs]; right; linarith
  · rw [h] at hadm
    rw [le_abs]; left; linarith

/-! ## Examples -/

/-- Three points on a line. -/
def exPts : Nat → Pt := fun i _ => if i = 0 then 0 else if i = 1 then 1 else 5

theorem exPts_center (j : Nat) : center 3 exPts j = 2 := by
  unfold center
  simp [List.range_succ, exPts]
  norm_num

theorem exPts_radius : radius 1 3 exPts = 3 := by
  unfold radius
  simp only [exPts_center, List.range_succ, List.range_zero, List.nil_append, List.foldl_cons, List.foldl_nil, List.cons_append, exPts]
  norm_num

/-- The box of the points 0, 1, 5 is `[-1, 5]`. -/
example : (enclosingBox 1 3 exPts (none : Option (PFile Unit))).1 0 = -1 ∧ (enclosingBox 1 3 exPts (none : Option (PFile Unit))).2 0 = 6 := by
  unfold enclosingBox adjustRadius
  rw [exPts_radius]
  dsimp only
  rw [exPts_center]
  norm_num

/-- With a file for boxes of width 1/2 the width is a power of two between 6 and 12. -/
example : (∃ k : Int, (enclosingBox 1 3 exPts (some (⟨1, 1 / 10 ^ 8, 8, 1 / 4, [()]⟩ : PFile Unit))).2 0 = 2 * (1 / 4) * (2 : ℝ) ^ k) ∧
    (enclosingBox 1 3 exPts (some (⟨1, 1 / 10 ^ 8, 8, 1 / 4, [()]⟩ : PFile Unit))).2 0 < 12 := by
  obtain ⟨⟨k, h1⟩, h2, _⟩ := C77_file 1 3 exPts (⟨1, 1 / 10 ^ 8, 8, 1 / 4, [()]⟩ : PFile Unit) (by norm_num) rfl (by rw [exPts_radius]; norm_num)
  refine ⟨⟨k, h1 0⟩, lt_of_lt_of_eq (h2 0).2 ?_⟩
  unfold enclosingBox adjustRadius
  rw [exPts_radius]
  norm_num

/-- Six points, one on each face of the cube. -/
example : ∃ S, surface 3 6 3 2 4 = some S ∧ S 1 = none ∧ ∃ P, S 2 = some P ∧ P.length = 6 := by
  obtain ⟨S, h, h1, h2⟩ := C76_surface 3 6 3 2 4 (by norm_num) (Or.inr rfl)
  obtain ⟨P, hP, _, h3, ⟨n, hn, hn'⟩, _⟩ := h2 2 (le_refl 2) (by decide)
  rw [if_neg (by decide)] at hn hn'
  refine ⟨S, h, h1 1 (by decide), P, hP, ?_⟩
  have h1n : 1 ≤ n := by
    rcases Nat.eq_zero_or_pos n with rfl | h
    · rw [hn] at h3; exact absurd h3 (by decide)
    · exact h
  have := hn' h1n
  have hn1 : n - 1 = 0 := by
    by_contra hc
    have : 1 ≤ (n - 1) ^ 2 := Nat.one_le_pow _ _ (by omega)
    omega
  rw [hn, show n = 1 by omega]
  rfl

/-- Two intervals of width 1 at the distance 1: the second lies behind the surface around the first. -/
example : H2Pack.Utils.checkBoxAdmissible ({ lo := fun _ => 0, ext := fun _ => 1 } : H2Pack.Utils.Box ℝ) { lo := fun _ => 2, ext := fun _ => 1 } 1 alphaH2 = true := by
  unfold H2Pack.Utils.checkBoxAdmissible H2Pack.Utils.admLoop H2Pack.Utils.dimAdmissible alphaH2
  norm_num

end H2Pack.Proxy
