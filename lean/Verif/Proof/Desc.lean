import Verif.Proof.ClusterTree

/-! # Descendants in a cluster tree -/

namespace H2Pack.Part
variable {K : Type}

/-- `Desc A u v`: node `u` is `v` or lies below `v`. -/
inductive Desc (A : Arr K) : Nat → Nat → Prop where
  | refl (v) : Desc A v v
  | step {u c v} : c ∈ kids A v → Desc A u c → Desc A u v

theorem Desc.trans {A : Arr K} {u v w : Nat} (h1 : Desc A u v) (h2 : Desc A v w) : Desc A u w := by
  induction h2 with
  | refl => exact h1
  | step hc _ ih => exact .step hc ih

theorem kids_nil_iff {A : Arr K} {v : Nat} : kids A v = [] ↔ A.nChild v = 0 := by
  rw [← List.length_eq_zero_iff]; unfold kids; rw [List.length_map, List.length_range]

namespace ClusterTree
variable {A : Arr K} {n : Nat}

theorem kid_lt (T : ClusterTree A n) {v c : Nat} (hv : v < A.nNode) (hc : c ∈ kids A v) : c < A.nNode := by
  have := T.childLt v hv c hc; omega

theorem desc_le (T : ClusterTree A n) {u v : Nat} (h : Desc A u v) (hv : v < A.nNode) : u ≤ v := by
  induction h with
  | refl => exact Nat.le_refl _
  | step hc _ ih => have := T.childLt _ hv _ hc; have := ih (by omega); omega

/-- Everything lies below the root. -/
theorem desc_root (T : ClusterTree A n) {u : Nat} (hu : u < A.nNode) : Desc A u (A.nNode - 1) := by
  have key : ∀ k w, w + k = A.nNode - 1 → Desc A u w → Desc A u (A.nNode - 1) := by
    intro k
    induction k using Nat.strong_induction_on with
    | _ k ih =>
      intro w hw hd
      rcases Nat.eq_zero_or_pos k with h0 | hk
      · rw [show A.nNode - 1 = w by omega]; exact hd
      · obtain ⟨v, hv, _, hm⟩ := T.childOfParent w (by omega)
        have := T.childLt v hv w hm
        exact ih (A.nNode - 1 - v) (by omega) v (by omega) (hd.trans (.step hm (.refl w)))
  exact key (A.nNode - 1 - u) u (by omega) (.refl u)

theorem tiles_cover : ∀ (l : List (Nat × Nat)) (a b : Nat), Tiles a b l → ∀ p, a ≤ p → p < b → ∃ x ∈ l, x.1 ≤ p ∧ p ≤ x.2 := by
  intro l
  induction l with
  | nil => intro a b h p h1 h2; have : a = b := h; omega
  | cons x l ih =>
    obtain ⟨s, e⟩ := x
    intro a b h p h1 h2
    obtain ⟨r1, r2, r3⟩ := h
    rcases Nat.lt_or_ge e p with hp | hp
    · obtain ⟨y, hy, hh⟩ := ih (e+1) b r3 p hp h2
      exact ⟨y, List.mem_cons_of_mem _ hy, hh⟩
    · exact ⟨(s, e), by simp, by simp; omega⟩

theorem tiles_ge : ∀ (l : List (Nat × Nat)) (a b : Nat), Tiles a b l → ∀ x ∈ l, a ≤ x.1 ∧ x.1 ≤ x.2 ∧ x.2 < b := by
  intro l
  induction l with
  | nil => intro a b h x hx; simp at hx
  | cons y l ih =>
    intro a b h x hx
    obtain ⟨s, e⟩ := y
    obtain ⟨h1, h2, h3⟩ := h
    have hle : e + 1 ≤ b := by
      clear ih hx
      induction l generalizing e with
      | nil => exact Nat.le_of_eq h3
      | cons z l ih2 =>
        obtain ⟨s', e'⟩ := z
        obtain ⟨q1, q2, q3⟩ := h3
        have := ih2 e' (by omega) q3
        omega
    rcases List.mem_cons.1 hx with rfl | hx
    · exact ⟨by omega, h2, by omega⟩
    · have := ih _ _ h3 x hx; exact ⟨by omega, this.2.1, this.2.2⟩

theorem tiles_unique {α : Type} (f : α → Nat × Nat) : ∀ (l : List α) (a b : Nat), Tiles a b (l.map f) → l.Nodup → ∀ p x y, x ∈ l → y ∈ l →
    (f x).1 ≤ p → p ≤ (f x).2 → (f y).1 ≤ p → p ≤ (f y).2 → x = y := by
  intro l
  induction l with
  | nil => intro a b _ _ p x y hx; simp at hx
  | cons z l ih =>
    intro a b h hnd p x y hx hy h1 h2 h3 h4
    rw [List.map_cons] at h
    have hz : Tiles a b (((f z).1, (f z).2) :: l.map f) := h
    obtain ⟨q1, q2, q3⟩ := hz
    rcases List.mem_cons.1 hx with hx' | hx' <;> rcases List.mem_cons.1 hy with hy' | hy'
    · rw [hx', hy']
    · rw [hx'] at h1 h2; have := tiles_ge _ _ _ q3 (f y) (List.mem_map_of_mem hy'); omega
    · rw [hy'] at h3 h4; have := tiles_ge _ _ _ q3 (f x) (List.mem_map_of_mem hx'); omega
    · exact ih _ _ q3 (List.nodup_cons.1 hnd).2 p x y hx' hy' h1 h2 h3 h4

theorem kid_cluster (T : ClusterTree A n) {v c : Nat} (hv : v < A.nNode) (hc : c ∈ kids A v) :
    A.ptS v ≤ A.ptS c ∧ A.ptE c ≤ A.ptE v := by
  have hne : A.nChild v ≠ 0 := by intro h; rw [kids_nil_iff.2 h] at hc; simp at hc
  have := tiles_ge _ _ _ (T.tile v hv hne) (A.ptS c, A.ptE c) (List.mem_map.2 ⟨c, hc, rfl⟩)
  dsimp only at this
  omega

theorem desc_cluster (T : ClusterTree A n) {u v : Nat} (h : Desc A u v) (hv : v < A.nNode) : A.ptS v ≤ A.ptS u ∧ A.ptE u ≤ A.ptE v := by
  induction h with
  | refl => omega
  | step hc _ ih => have := T.kid_cluster hv hc; have := ih (T.kid_lt hv hc); omega

/-- The child holding a point. -/
theorem kid_at (T : ClusterTree A n) {v : Nat} (hv : v < A.nNode) (hne : A.nChild v ≠ 0) {p : Nat} (h1 : A.ptS v ≤ p) (h2 : p ≤ A.ptE v) :
    ∃ c ∈ kids A v, A.ptS c ≤ p ∧ p ≤ A.ptE c := by
  obtain ⟨x, hx, hh⟩ := tiles_cover _ _ _ (T.tile v hv hne) p h1 (by omega)
  obtain ⟨c, hc, rfl⟩ := List.mem_map.1 hx
  exact ⟨c, hc, hh⟩

theorem kid_unique (T : ClusterTree A n) {v : Nat} (hv : v < A.nNode) {p c d : Nat} (hc : c ∈ kids A v) (hd : d ∈ kids A v)
    (h1 : A.ptS c ≤ p) (h2 : p ≤ A.ptE c) (h3 : A.ptS d ≤ p) (h4 : p ≤ A.ptE d) : c = d := by
  have hne : A.nChild v ≠ 0 := by intro h; rw [kids_nil_iff.2 h] at hc; simp at hc
  exact tiles_unique (fun c => (A.ptS c, A.ptE c)) _ _ _ (T.tile v hv hne) (T.kidsNodup v hv) p c d hc hd h1 h2 h3 h4

/-- Below a node, the leaf holding a point exists and is unique. -/
theorem leaf_at (T : ClusterTree A n) : ∀ v < A.nNode, ∀ p, A.ptS v ≤ p → p ≤ A.ptE v →
    ∃ u, (Desc A u v ∧ A.nChild u = 0 ∧ A.ptS u ≤ p ∧ p ≤ A.ptE u) ∧
      ∀ u', Desc A u' v → A.nChild u' = 0 → A.ptS u' ≤ p → p ≤ A.ptE u' → u' = u := by
  intro v
  induction v using Nat.strong_induction_on with
  | _ v ih =>
    intro hv p h1 h2
    by_cases hne : A.nChild v = 0
    · refine ⟨v, ⟨.refl v, hne, h1, h2⟩, ?_⟩
      intro u' hd _ _ _
      cases hd with
      | refl => rfl
      | step hc _ => rw [kids_nil_iff.2 hne] at hc; simp at hc
    · obtain ⟨c, hc, h3, h4⟩ := T.kid_at hv hne h1 h2
      obtain ⟨u, ⟨q1, q2⟩, q3⟩ := ih c (T.childLt v hv c hc) (T.kid_lt hv hc) p h3 h4
      refine ⟨u, ⟨.step hc q1, q2⟩, ?_⟩
      intro u' hd h0 h5 h6
      cases hd with
      | refl => exact absurd h0 hne
      | step hc' hd' =>
        rename_i d
        have := T.desc_cluster hd' (T.kid_lt hv hc')
        have hcd := T.kid_unique hv hc hc' h3 h4 (by omega) (by omega)
        subst hcd
        exact q3 u' hd' h0 h5 h6

end ClusterTree
end H2Pack.Part
