import Verif.Proof.Sample6

/-! # The sweeps in terms of the specification -/

namespace H2Pack.Sample
open Finset
open H2Pack.Part (Arr kids ClusterTree Tiles)

theorem anchorDim_equi (lo hi : ℝ) (g j : Nat) : anchorDim 6 lo hi (hi - lo) g j = equi lo hi g j := (anchor6 lo hi g j).1

theorem anchorDim_cheb (lo hi : ℝ) (g j : Nat) : anchorDim 2 lo hi (hi - lo) g j = cheb lo hi g j := anchor2 lo hi g j

theorem anchors_grid {algo : Nat} {node : ℝ → ℝ → Nat → Nat → ℝ} (hn : ∀ lo hi g j, anchorDim algo lo hi (hi - lo) g j = node lo hi g j) (dim : Nat) (lo hi : Nat → ℝ) (g : Nat → Nat) :
    AnchorGrid dim node lo hi g (anchors algo dim lo hi (fun i => hi i - lo i) g) where
  size := anchors_length ..
  mem := fun a ha => by
    obtain ⟨c, h1, h2⟩ := anchors_mem _ _ _ _ _ _ ha
    exact ⟨c, fun i _ => ⟨h1 i, by rw [h2 i, hn]⟩⟩
  all := fun c hc => by
    obtain ⟨a, h1, h2⟩ := anchors_all algo dim lo hi (fun i => hi i - lo i) g c hc
    exact ⟨a, h1, fun i hi' => by rw [h2 i hi', hn]⟩

theorem clusterSample_chosen {algo : Nat} {node : ℝ → ℝ → Nat → Nat → ℝ} (hn : ∀ lo hi g j, anchorDim algo lo hi (hi - lo) g j = node lo hi g j) {dim : Nat} {P : List Pt} (h : P ≠ []) (g : Nat → Nat)
    {sched : List Pt → List Pt} (hs : ∀ L, (sched L).Perm L) :
    ∃ s, clusterSample dim P g algo sched = .ok s ∧ Chosen dim node P g s ∧ s ≠ [] ∧ s.length ≤ P.length ∧ s.length ≤ ∏ j ∈ range dim, (g j + 1) := by
  obtain ⟨s, h1, h2, h3, h4, h5, h6⟩ := clusterSample_ok dim h g algo sched hs
  exact ⟨s, h1, ⟨_, _, _, fun i _ => bounds_of h i, anchors_grid hn dim _ _ g, h2, h3⟩, h4, h5, h6⟩

/-- Distributing over the sides of the box. -/
theorem decompose_side {dim : Nat} (hd : 0 < dim) {r : Int} (hr : 0 ≤ r) {P : List Pt} (hs : Spread dim P) :
    ∃ d : Nat → Int, decompose dim r (side P) = .ok (d, ∏ i ∈ range dim, (d i + 1)) ∧ Apportioned dim r (side P) d ∧ ∀ i < dim, 0 ≤ d i := by
  obtain ⟨d, e, hA⟩ := decompose_ok hd r (side P) ((spread_iff hs.ne_nil).mpr hs)
  exact ⟨d, e, hA, apportioned_nonneg hA (share_nonneg hr (Or.inl fun i _ => side_nonneg hs.ne_nil i))⟩

theorem thinned_aux {algo : Nat} {node : ℝ → ℝ → Nat → Nat → ℝ} (hn : ∀ lo hi g j, anchorDim algo lo hi (hi - lo) g j = node lo hi g j) {dim : Nat} (hd : 0 < dim) {r : Int} (hr : 0 ≤ r) {P R : List Pt}
    (hs : Spread dim P) (h : (do
      let e ← boxSize dim P
      let d ← decompose dim r e
      if d.2 < P.length then do
        let s ← clusterSample dim P (fun i => (d.1 i).toNat) algo id
        .ok (select P s)
      else .ok P : Res (List Pt)) = .ok R) : Thinned dim r node P R := by
  obtain ⟨d, e, hA, h0⟩ := decompose_side hd hr hs
  rw [boxSize_ok dim hs.ne_nil, Res.bind_ok, e, Res.bind_ok] at h
  dsimp only at h
  refine ⟨fun i => minC (crd P i) P.length, fun i => maxC (crd P i) P.length, d, fun i _ => bounds_of hs.ne_nil i, hA, h0, ?_⟩
  split_ifs at h with hlt
  · left
    obtain ⟨s, h1, h2, _⟩ := clusterSample_chosen hn (dim := dim) hs.ne_nil (fun i => (d i).toNat) (sched := id) (fun L => List.Perm.refl L)
    rw [h1, Res.bind_ok] at h
    exact ⟨hlt, s, h2, (Res.ok.inj h).symm⟩
  · right
    exact ⟨by omega, (Res.ok.inj h).symm⟩

theorem refineUp_thinned {dim : Nat} (hd : 0 < dim) {r : Int} (hr : 0 ≤ r) {P R : List Pt} (h : refineUp dim r P = .ok R) :
    (P.length ≤ 5 ∧ R = P) ∨ (5 < P.length ∧ Thinned dim r equi P R) := by
  by_cases h5 : P.length ≤ 5
  · left
    unfold refineUp at h
    rw [if_pos h5] at h
    exact ⟨h5, (Res.ok.inj h).symm⟩
  · right
    have hs : Spread dim P := by
      by_contra hc
      rw [(refineUp_cases hd hr P).1 ⟨by omega, hc⟩] at h
      simp at h
    unfold refineUp at h
    rw [if_neg h5] at h
    exact ⟨by omega, thinned_aux anchorDim_equi hd hr hs h⟩

theorem refineDown_thinned {dim : Nat} (hd : 0 < dim) {r : Int} (hr : 0 ≤ r) {P R : List Pt} (h : refineDown dim r P = .ok R) : Thinned dim r cheb P R :=
  thinned_aux anchorDim_cheb hd hr (refineDown_inv hd hr h).1 h

theorem farPoints_chosen {dim : Nat} (hd : 0 < dim) {alg : Nat} {r : Int} (hr : 0 ≤ r) {far : List (List Pt)} (hR : InRange far.flatten) {y : List Pt} (h : farPoints dim alg r far = .ok y) :
    FarChosen dim alg r far y := by
  by_cases hne : far.flatten = []
  · rw [farPoints_nil hd alg hr hne] at h
    exact Or.inl ⟨hne, (Res.ok.inj h).symm⟩
  · right
    have hs : Spread dim far.flatten := by
      by_contra hc
      rw [farPoints_ub alg r hne hR hc] at h
      simp at h
    obtain ⟨d, e, hA, h0⟩ := decompose_side hd hr hs
    have hb := far_bounds hne hR
    have hside := far_side hne hR
    unfold farPoints at h
    dsimp only at h
    rw [hside, e, Res.bind_ok] at h
    dsimp only at h
    refine ⟨farLo far.flatten, farHi far.flatten, d, fun i _ => hb i, by rw [hside]; exact hA, h0, ?_⟩
    split_ifs at h with hc
    · left
      refine ⟨?_, (Res.ok.inj h).symm⟩
      rcases hc with hc | hc
      · right; omega
      · exact Or.inl hc
    · right
      push Not at hc
      refine ⟨hc.2, anchors 2 dim (farLo far.flatten) (farHi far.flatten) (fun i => farHi far.flatten i - farLo far.flatten i) (fun i => (d i).toNat), anchors_grid anchorDim_cheb _ _ _ _, ?_⟩
      have hall : ∀ P ∈ far, P ≠ [] := by
        intro P hP hP'
        unfold pickFar at h
        rw [if_pos ⟨P, hP, hP'⟩] at h
        simp at h
      have h00 : far ≠ [] := by rintro rfl; exact hne rfl
      obtain ⟨y', h1, h2, _⟩ := pickFar_ok dim h00 hall (farLo far.flatten) (farHi far.flatten) (fun i => (d i).toNat)
      rw [h1] at h
      obtain rfl := Res.ok.inj h
      exact h2

theorem admList_eq (S : In) (v : Nat) : S.admList v = partners S.adm v := by
  have key : ∀ (L : List (Nat × Nat)) (f : Nat → List Nat), (L.foldl (fun (f : Nat → List Nat) (p : Nat × Nat) =>
      let f := Function.update f p.1 (f p.1 ++ [p.2])
      Function.update f p.2 (f p.2 ++ [p.1])) f) v = f v ++ partners L v := by
    intro L
    induction L with
    | nil => intro f; simp [partners]
    | cons p L ih =>
      intro f
      rw [List.foldl_cons, ih]
      unfold partners
      rw [List.flatMap_cons, ← List.append_assoc]
      congr 1
      by_cases h2 : p.2 = v
      · subst h2
        rw [Function.update_self]
        by_cases h1 : p.1 = p.2
        · rw [h1]; simp
        · rw [Function.update_of_ne (fun h => h1 h.symm)]; simp [h1]
      · rw [Function.update_of_ne (fun h => h2 h.symm)]
        by_cases h1 : p.1 = v
        · subst h1; simp [h2]
        · rw [Function.update_of_ne (fun h => h1 h.symm)]; simp [h1, h2]
  exact (key S.adm _).trans (List.nil_append _)

theorem refined_points {S : In} (hd : 0 < S.dim) {r : Int} (hr : 0 ≤ r) {clu : Nat → List Pt} (h : Refined S r clu) : RefinedPoints S r clu where
  node := fun v hv hl => by
    refine ⟨_, rfl, ?_⟩
    rcases refineUp_thinned hd hr (h.node v hv hl) with h' | h'
    · exact Or.inl h'
    · exact Or.inr h'
  above := h.above

theorem inherits_from {S : In} {sp : Nat → List Pt} {v : Nat} {I : List Pt} (h : Inherits S sp v I) : FromParent S sp v I := by
  unfold Inherits at h
  simp only [admList_eq] at h
  exact h

theorem sampled_points {S : In} (hd : 0 < S.dim) {r : Int} (hr : 0 ≤ r) {clu sp : Nat → List Pt} (hR : FarInRange S clu) (h : Sampled S r clu sp) : SamplePoints S r clu sp where
  node := fun v hv hl => by
    obtain ⟨I, h1, h2⟩ := h.node v hv hl
    refine ⟨I, inherits_from h1, ?_⟩
    rw [← admList_eq]
    by_cases h0 : S.admList v = []
    · rw [if_pos h0] at h2; exact Or.inl ⟨h0, h2⟩
    · rw [if_neg h0] at h2
      obtain ⟨y, h3, h4⟩ := h2
      exact Or.inr ⟨h0, y, farPoints_chosen hd hr (hR v) h3, refineDown_thinned hd hr h4⟩
  above := h.above

end H2Pack.Sample
