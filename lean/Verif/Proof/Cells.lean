import Verif.Props.Build
import Verif.Proof.SPDS1

/-! # The boxes of a partitioned point set form a grid -/

namespace H2Pack.Part
open H2Pack.Utils (Box checkBoxAdmissible C39_admissible_iff_gap gap)

variable {K : Type} [Field K] [LinearOrder K] [IsStrictOrderedRing K]

/-- Integer coordinates of a node on its level, from the bits on the path to the root. -/
def cellOf (par : Nat → Nat) (bits : Nat → Nat → Nat) : Nat → Nat → Nat → Nat
  | 0, _, _ => 0
  | l + 1, v, j => 2 * cellOf par bits l (par v) j + bits v j

/-- Number of ones among the bits. -/
def onesOf (par : Nat → Nat) (bits : Nat → Nat → Nat) : Nat → Nat → Nat → Nat
  | 0, _, _ => 0
  | l + 1, v, j => onesOf par bits l (par v) j + bits v j

/-- All boxes lie on a grid, up to the enlargement of the boxes; different nodes of a level have different cells. -/
structure Grid (A : Arr K) (ptDim : Nat) (lo0 D : Nat → K) (cell ones : Nat → Nat → Nat) : Prop where
  lo : ∀ v < A.nNode, ∀ j, (A.enbox v).lo j = lo0 j + D j * cell v j / 2 ^ A.level v + 2 * eps * ones v j - A.level v * eps
  ext : ∀ v < A.nNode, ∀ j, (A.enbox v).ext j = D j / 2 ^ A.level v + 4 * eps
  ones_le : ∀ v < A.nNode, ∀ j < ptDim, ones v j ≤ A.level v
  under : ∀ u < A.nNode, ∀ t < A.nNode, A.level t ≤ A.level u → (∀ j < ptDim, cell u j / 2 ^ (A.level u - A.level t) = cell t j) → Desc A u t

theorem grid_exists {ptDim xptDim n : Nat} {coord : Nat → Nat → K} {mlp : Nat} {mls : K} {box : Box K} {R : Partitioned K}
    (O : Outcome ptDim xptDim n coord mlp mls box R) (hpos : ∀ v < R.arr.nNode, ∀ j < ptDim, 0 < (R.arr.enbox v).ext j) :
    ∃ cell ones, Grid R.arr ptDim box.lo (fun j => box.ext j - 4 * eps) cell ones := by
  have T := O.tree
  have hex : ∀ c, ∃ v, ∃ r : Nat → Nat, c + 1 < R.arr.nNode → v < R.arr.nNode ∧ c ∈ kids R.arr v ∧ (∀ j < ptDim, r j ≤ 1) ∧ R.arr.enbox c = subBox (R.arr.enbox v) r := by
    intro c
    by_cases hc : c + 1 < R.arr.nNode
    · obtain ⟨v, hv, _, hm⟩ := T.childOfParent c hc
      obtain ⟨r, h1, h2⟩ := O.childBox v hv c hm
      exact ⟨v, r, fun _ => ⟨hv, hm, h1, h2⟩⟩
    · exact ⟨0, fun _ => 0, fun h => absurd h hc⟩
  choose par bits hp using hex
  have hroot : ∀ v < R.arr.nNode, R.arr.level v = 0 → v = R.arr.nNode - 1 := by
    intro v hv h0
    by_contra hne
    have hv' := hp v (by omega)
    have := T.childLevel _ hv'.1 v hv'.2.1
    omega
  have hpar : ∀ l, ∀ v < R.arr.nNode, R.arr.level v = l + 1 → par v < R.arr.nNode ∧ R.arr.level (par v) = l ∧ v ∈ kids R.arr (par v) ∧ (∀ j < ptDim, bits v j ≤ 1) ∧
      R.arr.enbox v = subBox (R.arr.enbox (par v)) (bits v) := by
    intro l v hv hl
    have hne : v + 1 < R.arr.nNode := by
      by_contra h
      have : v = R.arr.nNode - 1 := by omega
      rw [this, T.rootLevel] at hl; omega
    have hv' := hp v hne
    have := T.childLevel _ hv'.1 v hv'.2.1
    exact ⟨hv'.1, by omega, hv'.2.1, hv'.2.2.1, hv'.2.2.2⟩
  -- the boxes
  have hbox : ∀ l, ∀ v < R.arr.nNode, R.arr.level v = l → ∀ j,
      (R.arr.enbox v).lo j = box.lo j + (box.ext j - 4 * eps) * cellOf par bits l v j / 2 ^ l + 2 * eps * onesOf par bits l v j - l * eps ∧
      (R.arr.enbox v).ext j = (box.ext j - 4 * eps) / 2 ^ l + 4 * eps := by
    intro l
    induction l with
    | zero =>
      intro v hv h0 j
      rw [hroot v hv h0, O.rootBox]
      simp [cellOf, onesOf]
    | succ l ih =>
      intro v hv hl j
      obtain ⟨h1, h2, _, _, h5⟩ := hpar l v hv hl
      obtain ⟨i1, i2⟩ := ih (par v) h1 h2 j
      rw [h5]
      simp only [subBox, cellOf, onesOf]
      rw [i1, i2]
      push_cast
      rw [pow_succ]
      constructor
      · field_simp; ring
      · field_simp; ring
  -- different cells
  have hinj : ∀ l, ∀ u < R.arr.nNode, R.arr.level u = l → ∀ t < R.arr.nNode, R.arr.level t = l → (∀ j < ptDim, cellOf par bits l u j = cellOf par bits l t j) → u = t := by
    intro l
    induction l with
    | zero => intro u hu h1 t ht h2 _; rw [hroot u hu h1, hroot t ht h2]
    | succ l ih =>
      intro u hu h1 t ht h2 he
      obtain ⟨a1, a2, a3, a4, a5⟩ := hpar l u hu h1
      obtain ⟨b1, b2, b3, b4, b5⟩ := hpar l t ht h2
      have hb : ∀ j < ptDim, cellOf par bits l (par u) j = cellOf par bits l (par t) j ∧ bits u j = bits t j := by
        intro j hj
        have := he j hj
        simp only [cellOf] at this
        have := a4 j hj
        have := b4 j hj
        omega
      have hpp := ih (par u) a1 a2 (par t) b1 b2 fun j hj => (hb j hj).1
      rw [← hpp] at b3 b5
      by_contra hne
      have hsib : Sib ptDim (R.arr.enbox (par u)) (R.arr.enbox u) (R.arr.enbox t) := by
        have hpw := O.sibling (par u) a1
        rw [List.pairwise_iff_getElem] at hpw
        obtain ⟨i, hi, e1⟩ := List.getElem_of_mem a3
        obtain ⟨j, hj, e2⟩ := List.getElem_of_mem b3
        rcases Nat.lt_trichotomy i j with h | h | h
        · have := hpw i j hi hj h; rwa [e1, e2] at this
        · subst h; exact absurd (e1.symm.trans e2) hne
        · have := (hpw j i hj hi h).symm; rwa [e1, e2] at this
      obtain ⟨r, r', r1, r2, ⟨j, hj, hrj⟩, e1, e2⟩ := hsib
      have hw := hpos (par u) a1 j hj
      have bit : ∀ (q q' : Nat → Nat), subBox (R.arr.enbox (par u)) q = subBox (R.arr.enbox (par u)) q' → q j = q' j := by
        intro q q' h
        have := congrFun (congrArg Box.lo h) j
        simp only [subBox] at this
        have h3 : (1 / 2 : K) * (R.arr.enbox (par u)).ext j * (q j : K) = 1 / 2 * (R.arr.enbox (par u)).ext j * (q' j : K) := by linarith
        have h4 := mul_left_cancel₀ (by positivity) h3
        exact_mod_cast h4
      have c1 := bit _ _ (a5.symm.trans e1)
      have c2 := bit _ _ (b5.symm.trans e2)
      exact hrj (by rw [← c1, ← c2]; exact (hb j hj).2)
  -- ancestors
  have hanc : ∀ k l, ∀ u < R.arr.nNode, R.arr.level u = l + k → ∃ w < R.arr.nNode, R.arr.level w = l ∧ Desc R.arr u w ∧ ∀ j < ptDim, cellOf par bits (l + k) u j / 2 ^ k = cellOf par bits l w j := by
    intro k
    induction k with
    | zero => intro l u hu hl; exact ⟨u, hu, hl, .refl u, fun j _ => by simp⟩
    | succ k ih =>
      intro l u hu hl
      obtain ⟨a1, a2, a3, a4, a5⟩ := hpar (l + k) u hu hl
      obtain ⟨w, w1, w2, w3, w4⟩ := ih l (par u) a1 a2
      refine ⟨w, w1, w2, (Desc.step a3 (.refl u)).trans w3, fun j hj => ?_⟩
      rw [← w4 j hj, ← Nat.add_assoc, cellOf, pow_succ', ← Nat.div_div_eq_div_mul]
      congr 1
      have := a4 j hj
      omega
  refine ⟨fun v j => cellOf par bits (R.arr.level v) v j, fun v j => onesOf par bits (R.arr.level v) v j, ?_, ?_, ?_, ?_⟩
  · exact fun v hv j => (hbox _ v hv rfl j).1
  · exact fun v hv j => (hbox _ v hv rfl j).2
  · have : ∀ l, ∀ v < R.arr.nNode, R.arr.level v = l → ∀ j < ptDim, onesOf par bits l v j ≤ l := by
      intro l
      induction l with
      | zero => intro v _ _ j _; exact Nat.le_refl _
      | succ l ih =>
        intro v hv hl j hj
        obtain ⟨a1, a2, a3, a4, a5⟩ := hpar l v hv hl
        have := ih (par v) a1 a2 j hj
        have := a4 j hj
        simp only [onesOf]
        omega
    exact fun v hv j hj => this _ v hv rfl j hj
  · intro u hu t ht hl he
    obtain ⟨w, w1, w2, w3, w4⟩ := hanc (R.arr.level u - R.arr.level t) (R.arr.level t) u hu (by omega)
    have hlu : R.arr.level t + (R.arr.level u - R.arr.level t) = R.arr.level u := by omega
    rw [hlu] at w4
    have := hinj (R.arr.level t) w w1 w2 t ht rfl fun j hj => by rw [← w4 j hj]; exact he j hj
    rwa [← this]

/-! ## Neighbours -/

/-- The cell of `t`, at the resolution of level `level v`, nearest to the cell of `v`. -/
def nearCell (A : Arr K) (cell : Nat → Nat → Nat) (v t j : Nat) : Nat :=
  min (max (cell v j) (cell t j * 2 ^ (A.level v - A.level t))) ((cell t j + 1) * 2 ^ (A.level v - A.level t) - 1)

theorem nearCell_div (A : Arr K) (cell : Nat → Nat → Nat) (v t j : Nat) : nearCell A cell v t j / 2 ^ (A.level v - A.level t) = cell t j := by
  unfold nearCell
  have hp : 0 < 2 ^ (A.level v - A.level t) := by positivity
  generalize 2 ^ (A.level v - A.level t) = P at hp
  have h1 : (cell t j + 1) * P = cell t j * P + P := by ring
  rw [h1]
  apply Nat.div_eq_of_lt_le
  · omega
  · rw [h1]; omega

section
variable {A : Arr K} {n ptDim : Nat} {lo0 D : Nat → K} {cell ones : Nat → Nat → Nat}

/-- Boxes on level at most that of `v` whose nearest cell is two or more cells away are separated by almost a cell. -/
theorem far_gap (G : Grid A ptDim lo0 D cell ones) {v t j : Nat} (hv : v < A.nNode) (ht : t < A.nNode) (hj : j < ptDim) (hl : A.level t ≤ A.level v) (hD : 0 ≤ D j)
    (hfar : cell v j + 2 ≤ nearCell A cell v t j ∨ nearCell A cell v t j + 2 ≤ cell v j) :
    D j / 2 ^ A.level v - (2 * A.level v + 4) * eps ≤ gap (A.enbox v) (A.enbox t) j := by
  have e0 : (0 : K) < eps := eps_pos
  obtain ⟨s, hs⟩ : ∃ s, A.level v = A.level t + s := ⟨A.level v - A.level t, by omega⟩
  have hss : A.level v - A.level t = s := by omega
  unfold nearCell at hfar
  rw [hss] at hfar
  have o1 : (ones v j : K) ≤ A.level v := by exact_mod_cast G.ones_le v hv j hj
  have o2 : (ones t j : K) ≤ A.level t := by exact_mod_cast G.ones_le t ht j hj
  have o3 : (0 : K) ≤ ones v j := Nat.cast_nonneg _
  have o4 : (0 : K) ≤ ones t j := Nat.cast_nonneg _
  have o5 : (A.level t : K) ≤ A.level v := by exact_mod_cast hl
  have hpow : (2 : K) ^ A.level v = 2 ^ A.level t * 2 ^ s := by rw [hs, pow_add]
  have p1 : (0 : K) < 2 ^ A.level t := by positivity
  have p2 : (0 : K) < 2 ^ s := by positivity
  have ht' : D j / 2 ^ A.level t = D j / 2 ^ A.level v * 2 ^ s := by rw [hpow]; field_simp
  have lt' : D j * cell t j / 2 ^ A.level t = D j / 2 ^ A.level v * (cell t j * 2 ^ s) := by rw [hpow]; field_simp
  have lv' : D j * cell v j / 2 ^ A.level v = D j / 2 ^ A.level v * cell v j := by field_simp
  have hh : 0 ≤ D j / 2 ^ A.level v := by positivity
  have hP : 0 < 2 ^ s := by positivity
  unfold gap
  rw [G.lo v hv j, G.lo t ht j, G.ext v hv j, G.ext t ht j, lv', lt', ht']
  generalize D j / 2 ^ A.level v = h at *
  rw [le_max_iff]
  have hc1 : (cell t j + 1) * 2 ^ s = cell t j * 2 ^ s + 2 ^ s := by ring
  rw [hc1] at hfar
  rcases hfar with hf | hf
  · right
    have : cell v j + 2 ≤ cell t j * 2 ^ s := by omega
    have : (cell v j : K) + 2 ≤ cell t j * 2 ^ s := by exact_mod_cast this
    nlinarith
  · left
    have : cell t j * 2 ^ s + 2 ^ s + 1 ≤ cell v j := by omega
    have : (cell t j : K) * 2 ^ s + 2 ^ s + 1 ≤ cell v j := by exact_mod_cast this
    nlinarith

/-- At most `3 ^ ptDim` nodes, of which none lies below another one, have a nearest cell adjacent to `v`. -/
theorem count_near (T : ClusterTree A n) (G : Grid A ptDim lo0 D cell ones) {v : Nat} (L : List Nat) (hn : L.Nodup) (hL : ∀ t ∈ L, t < A.nNode ∧ A.level t ≤ A.level v)
    (hleaf : ∀ t ∈ L, A.level t < A.level v → A.nChild t = 0)
    (hnear : ∀ t ∈ L, ∀ j < ptDim, nearCell A cell v t j < cell v j + 2 ∧ cell v j < nearCell A cell v t j + 2) : L.length ≤ 3 ^ ptDim := by
  classical
  let f : Nat → Fin ptDim → Fin 3 := fun t j => ⟨(nearCell A cell v t j + 1 - cell v j) % 3, Nat.mod_lt _ (by omega)⟩
  have hinj : ∀ t ∈ L, ∀ u ∈ L, A.level t ≤ A.level u → f t = f u → t = u := by
    intro t ht u hu hl he
    have hcell : ∀ j < ptDim, nearCell A cell v t j = nearCell A cell v u j := by
      intro j hj
      have := congrArg Fin.val (congrFun he ⟨j, hj⟩)
      simp only [f] at this
      have h1 := hnear t ht j hj
      have h2 := hnear u hu j hj
      omega
    have hd : Desc A u t := by
      refine G.under u (hL u hu).1 t (hL t ht).1 hl fun j hj => ?_
      rw [← nearCell_div A cell v u j, ← nearCell_div A cell v t j, hcell j hj, Nat.div_div_eq_div_mul, ← pow_add]
      congr 2
      have := (hL u hu).2
      omega
    rcases Nat.lt_or_ge (A.level t) (A.level v) with h | h
    · exact (H2Pack.ULV.leaf_desc hd (hleaf t ht h)).symm
    · have := (hL u hu).2
      exact ((H2Pack.SPD.desc_level T hd (hL t ht).1).2 (by omega)).symm
  have hinj' : Set.InjOn f (L.toFinset : Set Nat) := by
    intro t ht u hu he
    simp only [Finset.mem_coe, List.mem_toFinset] at ht hu
    rcases Nat.le_total (A.level t) (A.level u) with h | h
    · exact hinj t ht u hu h he
    · exact (hinj u hu t ht h he.symm).symm
  have := Finset.card_le_card_of_injOn f (fun t _ => Finset.mem_univ (f t)) hinj'
  rwa [List.toFinset_card_of_nodup hn, Finset.card_univ, Fintype.card_fun, Fintype.card_fin, Fintype.card_fin] at this

end

end H2Pack.Part
