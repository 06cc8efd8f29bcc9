import Verif.Model.FSAIKnn
import Verif.Proof.QSort
import Verif.Props.BlockJacobi
import Verif.Props.Entries
import Mathlib.Data.List.GetD

/-! # Lemmas on the search of the nearest neighbours with the tree -/

namespace H2Pack.FKnn
open H2Pack.Part
open H2Pack.Utils (checkBoxAdmissible)
open H2Pack.CSR

/-- The candidates are the points of the inadmissible leaves in ascending order. -/
theorem flatMap_tiles {s e : Nat → Nat} (f : Nat → Bool) : ∀ (l : List Nat) (a b : Nat), Tiles a b (l.map fun w => (s w, e w)) →
    (l.flatMap fun w => if f w = true then [] else List.range' (s w) (e w + 1 - s w)) =
      (List.range' a (b - a)).filter fun q => l.any fun w => decide (s w ≤ q) && decide (q ≤ e w) && !f w := by
  intro l
  induction l with
  | nil =>
    intro a b h
    have : a = b := h
    subst this
    simp
  | cons w l ih =>
    intro a b h
    obtain ⟨h1, h2, h3⟩ := h
    have hle := H2Pack.Part.tiles_le _ _ _ h3
    have hge : ∀ x ∈ l, e w + 1 ≤ s x := fun x hx =>
      (H2Pack.Part.tiles_mem _ _ _ h3 (s x, e x) (List.mem_map_of_mem (f := fun w => (s w, e w)) hx)).1
    have hsplit : List.range' a (b - a) = List.range' a (e w + 1 - a) ++ List.range' (e w + 1) (b - (e w + 1)) := by
      have e1 : b - a = (e w + 1 - a) + (b - (e w + 1)) := by omega
      have e2 : e w + 1 = a + 1 * (e w + 1 - a) := by omega
      conv_rhs => rw [e2]
      rw [e1]
      conv_rhs => rw [show a + 1 * (e w + 1 - a) - a = e w + 1 - a by omega]
      rw [show b - (a + 1 * (e w + 1 - a)) = b - (e w + 1) by omega, List.range'_append]
    rw [List.flatMap_cons, ih _ _ h3, hsplit, List.filter_append]
    congr 1
    · by_cases hf : f w = true
      · rw [if_pos hf, eq_comm, List.filter_eq_nil_iff]
        intro q hq
        rw [List.mem_range'_1] at hq
        rw [List.any_eq_true]
        rintro ⟨x, hx, hc⟩
        simp only [Bool.and_eq_true, decide_eq_true_eq, Bool.not_eq_true'] at hc
        rcases List.mem_cons.1 hx with rfl | hx
        · rw [hf] at hc; cases hc.2
        · have := hge x hx; omega
      · rw [if_neg hf, h1, eq_comm, List.filter_eq_self]
        intro q hq
        rw [List.mem_range'_1] at hq
        rw [List.any_eq_true]
        refine ⟨w, List.mem_cons_self, ?_⟩
        simp only [Bool.and_eq_true, decide_eq_true_eq, Bool.not_eq_true']
        exact ⟨⟨by omega, by omega⟩, by simpa using hf⟩
    · apply List.filter_congr
      intro q hq
      rw [List.mem_range'_1] at hq
      rw [List.any_cons]
      have : (decide (s w ≤ q) && decide (q ≤ e w) && !f w) = false := by
        rw [decide_eq_false (p := q ≤ e w) (by omega)]; simp
      rw [this, Bool.false_or]

/-- A loop that writes one entry per element. -/
theorem foldM_update {β : Type} (f : Nat → Nat → Res β) (val : Nat → β) : ∀ (l : List Nat) (g : Nat → β),
    (∀ p ∈ l, Returns (f p) (val p)) →
    Returns (fun fuel => l.foldlM (fun g p => do
      let L ← f p fuel
      .ok (Function.update g p L)) g) (fun p => if p ∈ l then val p else g p) := by
  intro l
  induction l with
  | nil => intro g _; exact ⟨0, fun _ _ => by simp [List.foldlM_nil]⟩
  | cons a l ih =>
    intro g h
    obtain ⟨F1, h1⟩ := h a List.mem_cons_self
    obtain ⟨F2, h2⟩ := ih (Function.update g a (val a)) fun p hp => h p (List.mem_cons_of_mem _ hp)
    refine ⟨F1 + F2, fun fuel hf => ?_⟩
    have e2 := h2 fuel (by omega)
    dsimp only at e2 ⊢
    rw [List.foldlM_cons, h1 fuel (by omega)]
    simp only [Res.bind_ok]
    rw [e2]
    congr 1
    funext p
    by_cases hp : p ∈ l
    · simp [hp]
    · by_cases hpa : p = a
      · subst hpa; simp [hp]
      · simp [hp, hpa]

variable {K : Type} [Field K] [LinearOrder K]

/-- What row `p` must hold when the candidates are `cs`. -/
def RowOK (D : Nat → Nat → K) (cs : List Nat) (k p : Nat) (L : List Nat) : Prop :=
  (k < cs.length → L.length = k ∧ L.Nodup ∧ (∀ q ∈ L, q ∈ cs) ∧ ∀ q ∈ L, ∀ q' ∈ cs, q' ∉ L → D p q ≤ D p q') ∧
  (cs.length ≤ k → L = cs ++ List.replicate (k - cs.length) p)

theorem rowKnn_spec (D : Nat → Nat → K) (cs : List Nat) (hcs : cs.Nodup) (k p : Nat) :
    ∃ L, Returns (rowKnn D cs k p) L ∧ RowOK D cs k p L := by
  by_cases hk : cs.length > k
  · obtain ⟨kv, ⟨F, hF⟩, ⟨σ, hσ, hkey, hval⟩, hs⟩ := qsort_spec (κ := K) (ν := Nat) cs.length ((cs.length : Int) - 1 - 0).toNat
      ⟨fun j => D p (cs.getD j.toNat 0), fun j => cs.getD j.toNat 0⟩ 0 ((cs.length : Int) - 1) (le_refl _) (le_refl _) (by omega) (by omega)
    have hmem : ∀ a : Nat, a < cs.length → 0 ≤ σ a ∧ σ a ≤ (cs.length : Int) - 1 := fun a h => perm_mem hσ ⟨by omega, by omega⟩
    have hv : ∀ a : Nat, a < cs.length → ∃ b, b < cs.length ∧ (b : Int) = σ a ∧ ∃ hb : b < cs.length, kv.val a = cs[b] := by
      intro a ha
      have := hmem a ha
      refine ⟨(σ a).toNat, by omega, by omega, by omega, ?_⟩
      rw [hval]
      show cs.getD (σ a).toNat 0 = _
      rw [List.getD_eq_getElem _ _ (by omega)]
    have hkv : ∀ a : Nat, a < cs.length → kv.key a = D p (kv.val a) := by
      intro a ha; rw [hkey, hval]
    have hL : ∀ q, q ∈ (List.range k).map (fun j : Nat => kv.val j) ↔ ∃ a : Nat, a < k ∧ kv.val a = q := by
      intro q; simp
    refine ⟨(List.range k).map (fun j : Nat => kv.val j), ⟨F, fun fuel hf => ?_⟩, fun _ => ⟨by simp, ?_, ?_, ?_⟩, fun h => absurd h (by omega)⟩
    · unfold rowKnn
      rw [if_pos hk]
      have e := hF fuel hf
      dsimp only at e
      rw [e]
      simp only [Res.bind_ok]
    · rw [List.nodup_map_iff_inj_on List.nodup_range]
      intro a ha b hb he
      have ha := List.mem_range.1 ha
      have hb := List.mem_range.1 hb
      obtain ⟨a', _, ha2, ha3, ha4⟩ := hv a (by omega)
      obtain ⟨b', _, hb2, hb3, hb4⟩ := hv b (by omega)
      rw [ha4, hb4] at he
      have := (List.Nodup.getElem_inj_iff hcs).1 he
      subst this
      have := σ.injective (ha2.symm.trans hb2)
      omega
    · intro q hq
      obtain ⟨a, ha, rfl⟩ := (hL q).1 hq
      obtain ⟨b, _, _, hb, e⟩ := hv a (by omega)
      rw [e]; exact List.getElem_mem _
    · intro q hq q' hq' hn
      obtain ⟨a, ha, rfl⟩ := (hL q).1 hq
      obtain ⟨b, hb, rfl⟩ := List.mem_iff_getElem.1 hq'
      -- position of `b` after sorting
      have hinv : 0 ≤ σ.symm (b : Int) ∧ σ.symm (b : Int) ≤ (cs.length : Int) - 1 := by
        by_contra hc
        have h1 := hσ (σ.symm b) hc
        rw [Equiv.apply_symm_apply] at h1
        omega
      obtain ⟨c, hc⟩ : ∃ c : Nat, (c : Int) = σ.symm (b : Int) := ⟨(σ.symm (b : Int)).toNat, by omega⟩
      have hcv : kv.val (c : Int) = cs[b] := by
        rw [hval, hc, Equiv.apply_symm_apply]
        show cs.getD ((b : Int)).toNat 0 = _
        rw [List.getD_eq_getElem _ _ (by omega)]
        simp
      have hck : ¬ c < k := fun h => hn ((hL _).2 ⟨c, h, hcv⟩)
      rw [← hkv a (by omega), ← hcv, ← hkv c (by omega)]
      exact hs a c (by omega) (by omega) (by omega)
  · refine ⟨cs ++ List.replicate (k - cs.length) p, ⟨0, fun _ _ => by unfold rowKnn; rw [if_neg hk]⟩, fun h => absurd h hk, fun _ => rfl⟩

/-- The fit of one leaf in the buffers. -/
def FitOK (A : Arr K) (ptDim mlp mn v : Nat) : Prop :=
  (cands A ptDim v).length ≤ mlp * mn ∧ (A.ptE v + 1 - A.ptS v) * (cands A ptDim v).length ≤ mlp * (mlp * mn)

theorem leafKnn_spec (A : Arr K) (ptDim : Nat) (c : Nat → Nat → K) (mlp mn k v : Nat) (hf : FitOK A ptDim mlp mn v) (hn : (cands A ptDim v).Nodup) (g : Nat → List Nat) :
    ∃ G, Returns (fun fuel => leafKnn A ptDim c mlp mn k fuel g v) G ∧
      (∀ p, ¬ (A.ptS v ≤ p ∧ p ≤ A.ptE v) → G p = g p) ∧ ∀ p, A.ptS v ≤ p → p ≤ A.ptE v → RowOK (pairDist ptDim c) (cands A ptDim v) k p (G p) := by
  choose val hval using fun p => rowKnn_spec (pairDist ptDim c) (cands A ptDim v) hn k p
  refine ⟨fun p => if p ∈ List.range' (A.ptS v) (A.ptE v + 1 - A.ptS v) then val p else g p, ?_, ?_, ?_⟩
  · obtain ⟨F, hF⟩ := foldM_update (fun p => rowKnn (pairDist ptDim c) (cands A ptDim v) k p) val (List.range' (A.ptS v) (A.ptE v + 1 - A.ptS v)) g fun p _ => (hval p).1
    refine ⟨F, fun fuel hfu => ?_⟩
    have e := hF fuel hfu
    dsimp only at e ⊢
    unfold leafKnn
    dsimp only
    rw [if_neg (by unfold FitOK at hf; omega)]
    exact e
  · intro p hp
    dsimp only
    rw [if_neg]
    rw [List.mem_range'_1]; omega
  · intro p h1 h2
    dsimp only
    rw [if_pos (by rw [List.mem_range'_1]; omega)]
    exact (hval p).2

theorem fold_spec (A : Arr K) (ptDim : Nat) (c : Nat → Nat → K) (mlp mn k : Nat) : ∀ (l : List Nat) (g : Nat → List Nat),
    (∀ v ∈ l, FitOK A ptDim mlp mn v ∧ (cands A ptDim v).Nodup) →
    (∀ v ∈ l, ∀ w ∈ l, ∀ p, A.ptS v ≤ p → p ≤ A.ptE v → A.ptS w ≤ p → p ≤ A.ptE w → v = w) →
    ∃ G, Returns (fun fuel => l.foldlM (leafKnn A ptDim c mlp mn k fuel) g) G ∧ (∀ p, (∀ v ∈ l, ¬ (A.ptS v ≤ p ∧ p ≤ A.ptE v)) → G p = g p) ∧
      ∀ v ∈ l, ∀ p, A.ptS v ≤ p → p ≤ A.ptE v → RowOK (pairDist ptDim c) (cands A ptDim v) k p (G p) := by
  intro l
  induction l with
  | nil => intro g _ _; exact ⟨g, ⟨0, fun _ _ => rfl⟩, fun _ _ => rfl, fun v hv => absurd hv (by simp)⟩
  | cons v l ih =>
    intro g hl hu
    obtain ⟨g1, ⟨F1, h1⟩, ho1, hr1⟩ := leafKnn_spec A ptDim c mlp mn k v (hl v List.mem_cons_self).1 (hl v List.mem_cons_self).2 g
    obtain ⟨G, ⟨F2, h2⟩, ho2, hr2⟩ := ih g1 (fun w hw => hl w (List.mem_cons_of_mem _ hw))
      fun x hx y hy => hu x (List.mem_cons_of_mem _ hx) y (List.mem_cons_of_mem _ hy)
    refine ⟨G, ⟨F1 + F2, fun fuel hf => ?_⟩, fun p hp => ?_, fun w hw p hp1 hp2 => ?_⟩
    · have e1 := h1 fuel (by omega)
      have e2 := h2 fuel (by omega)
      dsimp only at e1 e2 ⊢
      rw [List.foldlM_cons, e1]
      exact e2
    · rw [ho2 p fun w hw => hp w (List.mem_cons_of_mem _ hw), ho1 p (hp v List.mem_cons_self)]
    · rcases List.mem_cons.1 hw with rfl | hw
      · by_cases hx : ∃ x ∈ l, A.ptS x ≤ p ∧ p ≤ A.ptE x
        · obtain ⟨x, hx, h3, h4⟩ := hx
          have := hu w List.mem_cons_self x (List.mem_cons_of_mem _ hx) p hp1 hp2 h3 h4
          subst this
          exact hr2 w hx p hp1 hp2
        · rw [ho2 p fun x hx' hc => hx ⟨x, hx', hc⟩]
          exact hr1 p hp1 hp2
      · exact hr2 w hw p hp1 hp2

/-- A leaf that does not fit. -/
theorem fold_ub (A : Arr K) (ptDim : Nat) (c : Nat → Nat → K) (mlp mn k fuel v : Nat) (hv : ¬ FitOK A ptDim mlp mn v) : ∀ (l : List Nat) (g : Nat → List Nat),
    v ∈ l → ∀ G, l.foldlM (leafKnn A ptDim c mlp mn k fuel) g ≠ .ok G := by
  intro l
  induction l with
  | nil => intro g h; simp at h
  | cons a l ih =>
    intro g h G
    rw [List.foldlM_cons]
    by_cases ha : a = v
    · subst ha
      have : leafKnn A ptDim c mlp mn k fuel g a = .ub := by
        unfold leafKnn
        dsimp only
        rw [if_pos (by unfold FitOK at hv; omega)]
      rw [this]
      intro hc; cases hc
    · cases hl : leafKnn A ptDim c mlp mn k fuel g a with
      | ub => intro hc; cases hc
      | diverge => intro hc; cases hc
      | ok g1 =>
        rw [Res.bind_ok]
        exact ih g1 ((List.mem_cons.1 h).resolve_left (Ne.symm ha)) G

end H2Pack.FKnn
