import Verif.Spec.ApproxKNN
import Verif.Proof.Cells
import Verif.Props.Neighbours
import Verif.Proof.FSAI1

/-! # Neighbour search through the tree: levels, index maps, touching boxes -/

namespace H2Pack.AFN
open H2Pack.Part
open H2Pack.Utils (Box gap)

section
variable {K : Type} {A : Arr K} {n : Nat}

theorem comparableT (T : ClusterTree A n) {u v p : Nat} (hu : u < A.nNode) (hv : v < A.nNode) (h1 : A.ptS u ≤ p ∧ p ≤ A.ptE u) (h2 : A.ptS v ≤ p ∧ p ≤ A.ptE v) :
    Desc A u v ∨ Desc A v u := by
  have key : ∀ w < A.nNode, Desc A u w → Desc A v w → Desc A u v ∨ Desc A v u := by
    intro w
    induction w using Nat.strong_induction_on with
    | _ w ih =>
      intro hw d1 d2
      cases d1 with
      | refl => exact Or.inr d2
      | @step c1 _ hc1 e1 =>
        cases d2 with
        | refl => exact Or.inl (.step hc1 e1)
        | @step c2 _ hc2 e2 =>
          have k1 := T.desc_cluster e1 (T.kid_lt hw hc1)
          have k2 := T.desc_cluster e2 (T.kid_lt hw hc2)
          have : c1 = c2 := T.kid_unique hw (p := p) hc1 hc2 (by omega) (by omega) (by omega) (by omega)
          subst this
          exact ih c1 (T.childLt w hw c1 hc1) (T.kid_lt hw hc1) e1 e2
  exact key (A.nNode - 1) (by omega) (T.desc_root hu) (T.desc_root hv)

theorem level_unique (T : ClusterTree A n) {u v p : Nat} (hu : u < A.nNode) (hv : v < A.nNode) (hl : A.level u = A.level v) (h1 : A.ptS u ≤ p ∧ p ≤ A.ptE u)
    (h2 : A.ptS v ≤ p ∧ p ≤ A.ptE v) : u = v := by
  rcases comparableT T hu hv h1 h2 with d | d
  · exact (H2Pack.SPD.desc_level T d hv).2 hl
  · exact ((H2Pack.SPD.desc_level T d hu).2 hl.symm).symm

theorem level_cover (T : ClusterTree A n) {s : Nat} (hs : TopLeafLevel A s) {p : Nat} (hp : p < n) : ∃ v < A.nNode, A.level v = s ∧ A.ptS v ≤ p ∧ p ≤ A.ptE v := by
  have hr : A.nNode - 1 < A.nNode := by have := T.nonempty; omega
  obtain ⟨c, ⟨hc, hc0, h1, h2⟩, -⟩ := T.leaf_at (A.nNode - 1) hr p (by rw [T.rootS]; omega) (by have := T.rootE; omega)
  have hcn : c < A.nNode := by have := T.desc_le hc hr; omega
  obtain ⟨u, hu, _, d, hl⟩ := H2Pack.SPD.fillPath_spec T (A.level c) c (fun _ => 0) hcn rfl s (hs.2 c hcn hc0)
  have := T.desc_cluster d hu
  exact ⟨u, hu, hl, by omega, by omega⟩

theorem searchLvl_eq (T : ClusterTree A n) {s : Nat} (hs : TopLeafLevel A s) : searchLvl A = s := by
  have key : ∀ (l : List Nat) (a : Nat), (∀ v ∈ l, v < A.nNode) → s ≤ a → (a = s ∨ ∃ v ∈ l, A.nChild v = 0 ∧ A.level v = s) →
      l.foldl (fun s i => if A.nChild i > 0 then s else if A.level i < s then A.level i else s) a = s := by
    intro l
    induction l with
    | nil => intro a _ _ h; rcases h with h | ⟨v, hv, _⟩; exacts [h, absurd hv (by simp)]
    | cons x l ih =>
      intro a hl ha h
      rw [List.foldl_cons]
      have hx := hl x (by simp)
      refine ih _ (fun v hv => hl v (List.mem_cons_of_mem _ hv)) ?_ ?_
      · split
        · exact ha
        · split
          · exact hs.2 x hx (by omega)
          · exact ha
      · rcases h with rfl | ⟨v, hv, h1, h2⟩
        · left
          split
          · rfl
          · rw [if_neg]
            have := hs.2 x hx (by omega)
            omega
        · rcases List.mem_cons.1 hv with rfl | hv
          · left
            rw [if_neg (by omega)]
            split <;> omega
          · exact Or.inr ⟨v, hv, h1, h2⟩
  obtain ⟨v, hv, h1, h2⟩ := hs.1
  exact key _ _ (fun v hv => List.mem_range.1 hv) (by have := T.levelLe v hv; omega) (Or.inr ⟨v, List.mem_range.2 hv, h1, h2⟩)

theorem slNodes_eq (T : ClusterTree A n) {s : Nat} (hs : TopLeafLevel A s) : slNodes A = (List.range A.nNode).filter (fun v => A.level v = s) := by
  unfold slNodes
  rw [searchLvl_eq T hs, T.levelList]

theorem mem_sl (T : ClusterTree A n) {s : Nat} (hs : TopLeafLevel A s) (v : Nat) : v ∈ slNodes A ↔ v < A.nNode ∧ A.level v = s := by
  rw [slNodes_eq T hs, List.mem_filter, List.mem_range]; simp

theorem sl_nodup (T : ClusterTree A n) {s : Nat} (hs : TopLeafLevel A s) : (slNodes A).Nodup := by
  rw [slNodes_eq T hs]; exact List.nodup_range.filter _

theorem slMax_ge {v : Nat} (hv : v ∈ slNodes A) : nodeNpt A v ≤ slMax A := by
  have key : ∀ (l : List Nat) (a : Nat), a ≤ l.foldl (fun s v => if nodeNpt A v > s then nodeNpt A v else s) a ∧
      ∀ v ∈ l, nodeNpt A v ≤ l.foldl (fun s v => if nodeNpt A v > s then nodeNpt A v else s) a := by
    intro l
    induction l with
    | nil => intro a; exact ⟨le_rfl, by simp⟩
    | cons x l ih =>
      intro a
      rw [List.foldl_cons]
      obtain ⟨i1, i2⟩ := ih (if nodeNpt A x > a then nodeNpt A x else a)
      have : a ≤ (if nodeNpt A x > a then nodeNpt A x else a) ∧ nodeNpt A x ≤ (if nodeNpt A x > a then nodeNpt A x else a) := by split <;> omega
      refine ⟨by omega, fun v hv => ?_⟩
      rcases List.mem_cons.1 hv with rfl | hv
      · omega
      · exact i2 v hv
  exact (key _ 0).2 v hv

end

section
variable {K : Type} [Field K] [LinearOrder K]

theorem idx0_spec (I : KnnIn K) (hinj : ∀ i < I.n, ∀ j < I.n, I.c0 i = I.c0 j → i = j) (x i : Nat) : idx0 I x = some i ↔ i < I.n ∧ I.c0 i = x := by
  have key : ∀ k ≤ I.n, (List.range k).foldl (fun f i => Function.update f (I.c0 i) (some i)) (fun _ => none) x = some i ↔ i < k ∧ I.c0 i = x := by
    intro k
    induction k with
    | zero => intro _; simp
    | succ k ih =>
      intro hk
      rw [List.range_succ, List.foldl_append, List.foldl_cons, List.foldl_nil]
      by_cases h : x = I.c0 k
      · rw [h, Function.update_self]
        constructor
        · intro e; cases e; exact ⟨by omega, rfl⟩
        · rintro ⟨h1, h2⟩; rw [hinj i (by omega) k (by omega) h2]
      · rw [Function.update_of_ne h, ih (by omega)]
        constructor
        · rintro ⟨h1, h2⟩; exact ⟨by omega, h2⟩
        · rintro ⟨h1, h2⟩
          refine ⟨?_, h2⟩
          rcases Nat.lt_or_ge i k with h' | h'
          · exact h'
          · exact absurd (by rw [← h2]; congr 1; omega) h
  exact key I.n le_rfl

end

section
variable {K : Type} [Field K] [LinearOrder K] [IsStrictOrderedRing K] {A : Arr K} {n dim : Nat} {lo0 D : Nat → K} {cell ones : Nat → Nat → Nat}

/-- The two cells are equal or adjacent. -/
def Near (dim : Nat) (cell : Nat → Nat → Nat) (u v : Nat) : Prop := ∀ d < dim, cell u d < cell v d + 2 ∧ cell v d < cell u d + 2

theorem nearCell_same (A : Arr K) (cell : Nat → Nat → Nat) {u v : Nat} (hl : A.level u = A.level v) (j : Nat) : nearCell A cell u v j = cell v j := by
  have := nearCell_div A cell u v j
  rwa [hl, Nat.sub_self, pow_zero, Nat.div_one] at this

theorem wide_h (G : Grid A dim lo0 D cell ones) (hw : WideBoxes dim A) {v d : Nat} (hv : v < A.nNode) (hd : d < dim) :
    (2 * A.level v + 8) / 10^6 ≤ D d / 2 ^ A.level v := by
  have h1 := G.ext v hv d
  have h2 := hw v hv d hd
  rw [h1] at h2
  have he : (eps : K) = 1 / 10^12 := rfl
  rw [he] at h2
  have e1 : (2 * (A.level v : K) + 9) / 10^6 = (2 * (A.level v : K) + 8) / 10^6 + 1 / 10^6 := by ring
  linarith

theorem segNbr_same (s1 s2 : K) {e : K} (he : 0 < e) : segNbr s1 e s2 e = true ↔ |s2 - s1| < 100001 / 100000 * e := by
  have h : (e ≠ 0 ∧ |s2 - s1| / e < 100001 / 100000) ↔ |s2 - s1| < 100001 / 100000 * e := by
    rw [div_lt_iff₀ he]
    exact ⟨fun h => h.2, fun h => ⟨he.ne', h⟩⟩
  unfold segNbr
  rw [ite_self, decide_eq_true_eq, h]

/-- The distance of the lower corners of two boxes of a level. -/
theorem lo_diff (G : Grid A dim lo0 D cell ones) {u v : Nat} (hu : u < A.nNode) (hv : v < A.nNode) (hl : A.level u = A.level v) (d : Nat) :
    (A.enbox v).lo d - (A.enbox u).lo d = D d / 2 ^ A.level u * ((cell v d : K) - cell u d) + 2 * eps * ((ones v d : K) - ones u d) := by
  rw [G.lo v hv, G.lo u hu, hl]
  field_simp
  ring

theorem boxNbr_iff (G : Grid A dim lo0 D cell ones) (hw : WideBoxes dim A) {u v : Nat} (hu : u < A.nNode) (hv : v < A.nNode) (hl : A.level u = A.level v) :
    boxNbr dim (A.enbox u) (A.enbox v) = true ↔ Near dim cell u v := by
  have key : ∀ d < dim, segNbr ((A.enbox u).lo d) ((A.enbox u).ext d) ((A.enbox v).lo d) ((A.enbox v).ext d) = true ↔ (cell u d < cell v d + 2 ∧ cell v d < cell u d + 2) := by
    intro d hd
    have e0 : (0 : K) < eps := eps_pos
    have he : (eps : K) = 1 / 10^12 := rfl
    have hh := wide_h G hw hu hd
    have ee : (A.enbox v).ext d = (A.enbox u).ext d := by rw [G.ext v hv, G.ext u hu, hl]
    have hl0 : (0 : K) ≤ A.level u := Nat.cast_nonneg _
    have hh0 : (0 : K) < D d / 2 ^ A.level u := lt_of_lt_of_le (by positivity) hh
    have o1 : (ones u d : K) ≤ A.level u := by exact_mod_cast G.ones_le u hu d hd
    have o2 : (ones v d : K) ≤ A.level u := by rw [hl]; exact_mod_cast G.ones_le v hv d hd
    have o3 : (0 : K) ≤ ones v d := Nat.cast_nonneg _
    have o4 : (0 : K) ≤ ones u d := Nat.cast_nonneg _
    have hext := G.ext u hu d
    rw [ee, segNbr_same _ _ (by rw [hext]; positivity), lo_diff G hu hv hl, hext]
    have hh' : (2 * (A.level u : K) + 8) / 10^6 = 2 * (A.level u : K) / 10^6 + 8 / 10^6 := by ring
    rw [hh'] at hh
    generalize D d / 2 ^ A.level u = h at *
    rw [he]
    generalize (ones u d : K) = ou at *
    generalize (ones v d : K) = ov at *
    generalize (A.level u : K) = l at *
    constructor
    · intro hlt
      rw [abs_lt] at hlt
      by_contra hc
      have : cell v d + 2 ≤ cell u d ∨ cell u d + 2 ≤ cell v d := by omega
      rcases this with h2 | h2
      · have : (cell v d : K) + 2 ≤ cell u d := by exact_mod_cast h2
        generalize (cell u d : K) = cu at *
        generalize (cell v d : K) = cv at *
        have : h * (cv - cu) ≤ h * (-2) := mul_le_mul_of_nonneg_left (by linarith) hh0.le
        linarith [hlt.1]
      · have : (cell u d : K) + 2 ≤ cell v d := by exact_mod_cast h2
        generalize (cell u d : K) = cu at *
        generalize (cell v d : K) = cv at *
        have : h * 2 ≤ h * (cv - cu) := mul_le_mul_of_nonneg_left (by linarith) hh0.le
        linarith [hlt.2]
    · rintro ⟨h1, h2⟩
      have h1 : (cell u d : K) ≤ cell v d + 1 := by exact_mod_cast (show cell u d ≤ cell v d + 1 by omega)
      have h2 : (cell v d : K) ≤ cell u d + 1 := by exact_mod_cast (show cell v d ≤ cell u d + 1 by omega)
      generalize (cell u d : K) = cu at *
      generalize (cell v d : K) = cv at *
      have g1 : h * (cv - cu) ≤ h * 1 := mul_le_mul_of_nonneg_left (by linarith) hh0.le
      have g2 : h * (-1) ≤ h * (cv - cu) := mul_le_mul_of_nonneg_left (by linarith) hh0.le
      rw [abs_lt]
      constructor <;> linarith
  unfold boxNbr Near
  rw [List.all_eq_true]
  exact ⟨fun h d hd => (key d hd).1 (h d (List.mem_range.2 hd)), fun h d hd => (key d (List.mem_range.1 hd)).2 (h d (List.mem_range.1 hd))⟩

/-- Points in boxes whose cells are not adjacent are at least almost a box width apart. -/
theorem far_points (G : Grid A dim lo0 D cell ones) (hw : WideBoxes dim A) {u v : Nat} (hu : u < A.nNode) (hv : v < A.nNode) (hl : A.level u = A.level v)
    {x y : Nat → K} (hx : Box.Holds dim (A.enbox u) x) (hy : Box.Holds dim (A.enbox v) y) (hn : ¬ Near dim cell u v) :
    ∃ d < dim, 999 / 1000 * (A.enbox u).ext d ≤ |x d - y d| := by
  unfold Near at hn
  push Not at hn
  obtain ⟨d, hd, hc⟩ := hn
  refine ⟨d, hd, ?_⟩
  have hh := wide_h G hw hu hd
  have he : (eps : K) = 1 / 10^12 := rfl
  have hl0 : (0 : K) ≤ A.level u := Nat.cast_nonneg _
  have hh0 : (0 : K) < D d / 2 ^ A.level u := lt_of_lt_of_le (by positivity) hh
  have hD : 0 ≤ D d := by
    by_contra hc
    exact absurd hh0 (not_lt.2 (div_neg_of_neg_of_pos (not_le.1 hc) (by positivity)).le)
  have hg := far_gap G hu hv hd hl.ge hD (by rw [nearCell_same A cell hl]; omega)
  have hext := G.ext u hu d
  have hh' : (2 * (A.level u : K) + 8) / 10^6 = 2 * (A.level u : K) / 10^6 + 8 / 10^6 := by ring
  rw [hh'] at hh
  rw [hext]
  have hx' := hx d hd
  have hy' := hy d hd
  unfold gap at hg
  rw [he] at hg ⊢
  rcases le_max_iff.1 hg with h | h
  · refine le_trans ?_ (le_abs_self _)
    generalize D d / 2 ^ A.level u = h at *
    linarith
  · refine le_trans ?_ (neg_le_abs _)
    generalize D d / 2 ^ A.level u = h at *
    linarith

end

end H2Pack.AFN
