import Verif.Model.SPDSample
import Verif.Proof.ULV3

set_option linter.unusedSectionVars false

/-! # Sampling: the level of the lowest common ancestor -/

namespace H2Pack.SPD
open H2Pack.MV (Rep WF)
open H2Pack.Part
open H2Pack.ULV (InRow inRow_iff comparable row_desc)

section
variable {K : Type} {A : Arr K} {n : Nat}

theorem desc_lt (T : ClusterTree A n) {u v : Nat} (d : Desc A u v) (hv : v < A.nNode) : u < A.nNode := by
  have := T.desc_le d hv; omega

theorem desc_level (T : ClusterTree A n) {u v : Nat} (d : Desc A u v) (hv : v < A.nNode) : A.level v ≤ A.level u ∧ (A.level u = A.level v → u = v) := by
  induction d with
  | refl => exact ⟨le_refl _, fun _ => rfl⟩
  | @step c w hc _ ih =>
    have h1 := ih (T.kid_lt hv hc)
    have h2 := T.childLevel _ hv _ hc
    exact ⟨by omega, fun h => by omega⟩

theorem fillPath_high (A : Arr K) : ∀ (l : Nat) (p : Int) (w : Nat → Int) (i : Nat), l < i → fillPath A l p w i = w i := by
  intro l
  induction l with
  | zero => intro p w i hi; rw [fillPath, Function.update_of_ne (by omega)]
  | succ l ih => intro p w i hi; rw [fillPath, ih _ _ _ (by omega), Function.update_of_ne (by omega)]

/-- Entry `i` of the path is the node above `v` on level `i`. -/
theorem fillPath_spec (T : ClusterTree A n) : ∀ (l v : Nat) (w : Nat → Int), v < A.nNode → A.level v = l → ∀ i ≤ l,
    ∃ u < A.nNode, fillPath A l (v : Int) w i = (u : Int) ∧ Desc A v u ∧ A.level u = i := by
  intro l
  induction l with
  | zero =>
    intro v w hv hl i hi
    obtain rfl : i = 0 := by omega
    exact ⟨v, hv, by rw [fillPath, Function.update_self], .refl v, hl⟩
  | succ l ih =>
    intro v w hv hl i hi
    have hne : v + 1 < A.nNode := by
      by_contra h
      have : v = A.nNode - 1 := by omega
      rw [this, T.rootLevel] at hl; omega
    obtain ⟨p, hp, e, hm⟩ := T.childOfParent v hne
    have hlv := T.childLevel p hp v hm
    rw [fillPath, Int.toNat_natCast, e]
    rcases Nat.lt_or_ge l i with h | h
    · refine ⟨v, hv, ?_, .refl v, by omega⟩
      rw [fillPath_high _ _ _ _ _ h]
      obtain rfl : i = l + 1 := by omega
      rw [Function.update_self]
    · obtain ⟨u, hu, e1, d, hlu⟩ := ih p (Function.update w (l + 1) (v : Int)) hp (by omega) i h
      exact ⟨u, hu, e1, (Desc.step hm (.refl v)).trans d, hlu⟩

end

section
variable {K : Type} [Field K] {R : Rep K}

theorem row_exists (h : WF R) {v : Nat} (hv : v < R.arr.nNode) : InRow R v (R.rowS v) := by
  exact ⟨le_refl _, H2Pack.MV.rowS_lt_rowE h hv⟩

theorem anc_unique (h : WF R) {v u w : Nat} (hu : u < R.arr.nNode) (hw : w < R.arr.nNode) (d1 : Desc R.arr v u) (d2 : Desc R.arr v w)
    (hl : R.arr.level u = R.arr.level w) : u = w := by
  have hr := row_exists h (desc_lt h.tree d1 hu)
  rcases comparable h hu hw (row_desc h hu d1 hr) (row_desc h hw d2 hr) with d | d
  · exact (desc_level h.tree d hw).2 hl
  · exact ((desc_level h.tree d hu).2 hl.symm).symm

/-- For two nodes without common rows: a node `w` above the first lies above the second exactly when its level is at most that of the lowest common
ancestor. -/
theorem commonLevel_spec (h : WF R) {a b : Nat} (ha : a < R.arr.nNode) (hb : b < R.arr.nNode) (hd : ∀ r, ¬ (InRow R a r ∧ InRow R b r)) :
    0 ≤ commonLevel R.arr a b ∧ (commonLevel R.arr a b).toNat < R.arr.level a ∧ (commonLevel R.arr a b).toNat < R.arr.level b ∧
    ∀ w < R.arr.nNode, Desc R.arr a w → (Desc R.arr b w ↔ R.arr.level w ≤ (commonLevel R.arr a b).toNat) := by
  have T := h.tree
  have P0 := fillPath_spec T (R.arr.level a) a (fun _ => 0) ha rfl
  have P1 := fillPath_spec T (R.arr.level b) b (fun _ => 0) hb rfl
  have hroot : R.arr.nNode - 1 < R.arr.nNode := by have := T.nonempty; omega
  unfold commonLevel
  dsimp only
  generalize fillPath R.arr (R.arr.level a) (a : Int) (fun _ => 0) = p0 at P0 ⊢
  generalize fillPath R.arr (R.arr.level b) (b : Int) (fun _ => 0) = p1 at P1 ⊢
  cases hf : (List.range (min (R.arr.level a) (R.arr.level b) + 1)).find? fun i => decide (p0 i ≠ p1 i) with
  | none =>
    exfalso
    rw [List.find?_eq_none] at hf
    have hm := hf (min (R.arr.level a) (R.arr.level b)) (by rw [List.mem_range]; omega)
    have hm : p0 (min (R.arr.level a) (R.arr.level b)) = p1 (min (R.arr.level a) (R.arr.level b)) := by simpa using hm
    obtain ⟨u, hu, e1, d1, l1⟩ := P0 _ (min_le_left _ _)
    obtain ⟨w, hw, e2, d2, l2⟩ := P1 _ (min_le_right _ _)
    obtain rfl : u = w := by have := e1.symm.trans (hm.trans e2); exact_mod_cast this
    rcases Nat.le_total (R.arr.level a) (R.arr.level b) with hle | hle
    · rw [min_eq_left hle] at l1
      obtain rfl : a = u := (desc_level T d1 hu).2 (by omega)
      have hr := row_exists h hb
      exact hd _ ⟨row_desc h ha d2 hr, hr⟩
    · rw [min_eq_right hle] at l1
      obtain rfl : b = u := (desc_level T d2 hu).2 (by omega)
      have hr := row_exists h ha
      exact hd _ ⟨hr, row_desc h hb d1 hr⟩
  | some i =>
    rw [List.find?_range_eq_some] at hf
    obtain ⟨h1, h2, h3⟩ := hf
    have h1 : p0 i ≠ p1 i := by simpa using h1
    rw [List.mem_range] at h2
    have h3 : ∀ j < i, p0 j = p1 j := by
      intro j hj
      have := h3 j hj
      simpa using this
    have hi : 0 < i := by
      rcases Nat.eq_zero_or_pos i with h0 | h0
      · exfalso
        subst h0
        obtain ⟨u, hu, e1, d1, l1⟩ := P0 0 (Nat.zero_le _)
        obtain ⟨w, hw, e2, d2, l2⟩ := P1 0 (Nat.zero_le _)
        have q1 := (desc_level T (T.desc_root hu) hroot).2 (by rw [T.rootLevel, l1])
        have q2 := (desc_level T (T.desc_root hw) hroot).2 (by rw [T.rootLevel, l2])
        exact h1 (by rw [e1, e2, q1, q2])
      · exact h0
    dsimp only
    have he : ((i : Int) - 1).toNat = i - 1 := by omega
    rw [he]
    refine ⟨by omega, by omega, by omega, ?_⟩
    intro w hw dw
    have lw := (desc_level T dw hw).1
    obtain ⟨u, hu, e1, d1, l1⟩ := P0 (R.arr.level w) lw
    obtain rfl := anc_unique h hu hw d1 dw l1
    constructor
    · intro dbu
      by_contra hlt
      have lb := (desc_level T dbu hu).1
      obtain ⟨x, hx, e2, d2, l2⟩ := P1 i (by omega)
      obtain ⟨y, hy, e3, d3, l3⟩ := P0 i (by omega)
      apply h1
      rw [e2, e3]
      -- both `x` and `y` are the node above `u` on level `i`
      obtain ⟨z, hz, _, d4, l4⟩ := fillPath_spec T (R.arr.level u) u (fun _ => 0) hu rfl i (by omega)
      have q1 := anc_unique h hx hz d2 (dbu.trans d4) (by omega)
      have q2 := anc_unique h hy hz d3 (d1.trans d4) (by omega)
      rw [q1, q2]
    · intro hle
      obtain ⟨x, hx, e2, d2, l2⟩ := P1 (R.arr.level u) (by omega)
      have := h3 (R.arr.level u) (by omega)
      rw [e1, e2] at this
      obtain rfl : u = x := by exact_mod_cast this
      exact d2

end
end H2Pack.SPD
