import Verif.Props.Partition
import Verif.Props.AdmPairs

/-! # The leaves in the order of their numbers tile the points -/

namespace H2Pack.Part
open H2Pack.Utils (Box)

section
variable {K : Type}

theorem tiles_append : ∀ (l l' : List (Nat × Nat)) (a b c : Nat), Tiles a b l → Tiles b c l' → Tiles a c (l ++ l') := by
  intro l
  induction l with
  | nil => intro l' a b c h h'; have : a = b := h; subst this; exact h'
  | cons x l ih =>
    rintro l' a b c ⟨h1, h2, h3⟩ h'
    exact ⟨h1, h2, ih l' _ _ _ h3 h'⟩

theorem tiles_flatMap (f : Tree K → List (Nat × Nat)) : ∀ (ts : List (Tree K)) (a b : Nat), Tiles a b (ts.map fun c => (c.s, c.e)) →
    (∀ c ∈ ts, Tiles c.s (c.e + 1) (f c)) → Tiles a b (ts.flatMap f) := by
  intro ts
  induction ts with
  | nil => intro a b h _; exact h
  | cons t ts ih =>
    rintro a b ⟨h1, h2, h3⟩ h
    rw [List.flatMap_cons]
    refine tiles_append _ _ a (t.e + 1) b ?_ (ih _ _ h3 (fun c hc => h c (List.mem_cons_of_mem _ hc)))
    have := h t List.mem_cons_self
    have h1' : t.s = a := h1
    rw [h1'] at this
    exact this

/-- The leaves below a node in post-order. -/
theorem leaves_tile [Field K] [LinearOrder K] (P : Params K) : ∀ t : Tree K, (∀ t' ∈ postorder t, NodeOK P t') →
    Tiles t.s (t.e + 1) (((postorder t).filter (fun t => decide (t.children.length = 0))).map fun c => (c.s, c.e)) := by
  intro t
  induction t using Tree.ind with
  | _ t ih =>
    intro h
    rw [postorder_eq, List.filter_append, List.map_append]
    by_cases h0 : t.children = []
    · rw [h0]
      have hl := (h t (self_mem t)).le
      simp only [List.flatMap_nil, List.filter_nil, List.map_nil, List.nil_append]
      have : ([t].filter (fun t => decide (t.children.length = 0))) = [t] := by simp [h0]
      rw [this]
      exact ⟨rfl, hl, rfl⟩
    · have : ([t].filter (fun t => decide (t.children.length = 0))) = [] := by simp [h0]
      rw [this, List.map_nil, List.append_nil, List.filter_flatMap, List.map_flatMap]
      refine tiles_flatMap _ _ _ _ ((h t (self_mem t)).inner h0).2.2.1 (fun c hc => ?_)
      exact ih c hc (fun t' ht' => h t' ((mem_postorder t t').2 (Or.inl ⟨c, hc, ht'⟩)))

end

variable {K : Type} [Field K] [LinearOrder K] [IsStrictOrderedRing K]

theorem leaf_order (ptDim xptDim n : Nat) (hn : 0 < n) (hx : ptDim ≤ xptDim) (coord : Nat → Nat → K) (mlp : Int) (mls : K)
    (rb : Option (Box K)) (rnd : Nat → K) (junk : Arr K) (g : Nat → Nat → Nat) (fuel : Nat) (R : Partitioned K)
    (h : partitionPoints ptDim xptDim n coord mlp mls rb rnd junk g fuel = .ok R) :
    Tiles 0 n ((leaves R.arr).map fun v => (R.arr.ptS v, R.arr.ptE v)) := by
  unfold partitionPoints at h
  dsimp only at h
  have hm : (if mlp ≤ 0 then (if ptDim = 2 then 200 else 400) else mlp.toNat) = effLeafPoints ptDim mlp := rfl
  rw [hm] at h
  generalize rb.getD (rootBox ptDim n coord rnd) = box at h
  have hs := partition_spec ⟨ptDim, xptDim, n, mls, effLeafPoints ptDim mlp⟩ hx g fuel 0 0 (n-1) box ⟨coord, fun i => i, 0, 0, 0⟩
    (Nat.zero_le _) (show n - 1 < n by omega)
  cases hp : partition ⟨ptDim, xptDim, n, mls, effLeafPoints ptDim mlp⟩ g fuel 0 0 (n-1) box ⟨coord, fun i => i, 0, 0, 0⟩ with
  | diverge => rw [hp] at h; cases h
  | ub => rw [hp] at h; cases h
  | ok r =>
    obtain ⟨root, st⟩ := r
    rw [hp] at hs h
    have hpost : Post _ 0 0 (n-1) box _ root st := hs
    obtain ⟨B, hB, hT, hB1, hB2, hB3, hB4⟩ := tree_arrays _ n hn box _ st root rfl rfl rfl hpost rfl
      { junk with nNode := root.nNode, nLeaf := st.nLeaf, maxLevel := st.maxLevel, maxChild := 2 ^ ptDim, levelN := fun _ => 0, heightN := fun _ => 0 }
      rfl rfl rfl rfl (fun _ => rfl) (fun _ => rfl)
    simp only [Res.bind_ok] at h
    rw [hB] at h
    simp only [Res.bind_ok] at h
    injection h with h
    subst h
    have hl := leaves_tile _ root hpost.ok
    rw [hpost.hs, hpost.he, Nat.sub_add_cancel hn] at hl
    have e : leaves { B with parent := Function.update B.parent (root.nNode - 1) (-1) } =
        ((postorder root).filter (fun t => decide (t.children.length = 0))).map Tree.po := by
      show (List.range B.nNode).filter (fun v => decide (B.nChild v = 0)) = _
      rw [hB1]
      exact filter_po hB3 _ _ (fun t ht => by rw [(hB4 t ht).2.2.2.1])
    show Tiles 0 n ((leaves { B with parent := Function.update B.parent (root.nNode - 1) (-1) }).map fun v => (B.ptS v, B.ptE v))
    rw [e, List.map_map]
    have : ((postorder root).filter (fun t => decide (t.children.length = 0))).map ((fun v => (B.ptS v, B.ptE v)) ∘ Tree.po) =
        ((postorder root).filter (fun t => decide (t.children.length = 0))).map fun c => (c.s, c.e) := by
      apply List.map_congr_left
      intro t ht
      have := hB4 t (List.mem_filter.1 ht).1
      show (B.ptS t.po, B.ptE t.po) = _
      rw [this.2.1, this.2.2.1]
    rw [this]
    exact hl

end H2Pack.Part
