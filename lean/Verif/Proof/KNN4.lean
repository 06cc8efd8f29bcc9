import Verif.Proof.KNN3

/-! # Neighbour search through the tree: the loop over the nodes -/

namespace H2Pack.AFN
open H2Pack.Part
open H2Pack.CSR
open H2Pack.Utils (Box gap)

section
variable {K : Type} [Field K] [LinearOrder K]

/-- The points with positions `ps` write their rows. -/
theorem pts_fold (I : KnnIn K) (cap : Nat) (C : List Nat) (fuel : Nat) (S : Nat → List Nat) (ps : List Nat)
    (h : ∀ p ∈ ps, ∀ k, h2idx I p = some k → ∃ L, cand1 I.m cap k C = .ok L ∧ selRow I.dim I.coord I.m k L fuel = .ok (S k)) :
    ∀ g : Nat → List Nat, ∃ g', ps.foldlM (fun g p => ptStep I cap C fuel g (h2idx I p)) g = .ok g' ∧
      ∀ k, ((∃ p ∈ ps, h2idx I p = some k) → g' k = S k) ∧ ((∀ p ∈ ps, h2idx I p ≠ some k) → g' k = g k) := by
  induction ps with
  | nil => intro g; exact ⟨g, rfl, fun k => ⟨fun h => by simp at h, fun _ => rfl⟩⟩
  | cons p ps ih =>
    intro g
    have ih := ih fun q hq => h q (List.mem_cons_of_mem _ hq)
    rw [List.foldlM_cons]
    rcases hp : h2idx I p with _ | k
    · obtain ⟨g', e, hg⟩ := ih g
      refine ⟨g', by simp only [ptStep, Res.bind_ok]; exact e, fun j => ⟨?_, fun hj => (hg j).2 fun q hq => hj q (List.mem_cons_of_mem _ hq)⟩⟩
      rintro ⟨q, hq, hj⟩
      rcases List.mem_cons.1 hq with rfl | hq
      · rw [hp] at hj; cases hj
      · exact (hg j).1 ⟨q, hq, hj⟩
    · obtain ⟨L, e1, e2⟩ := h p (by simp) k hp
      obtain ⟨g', e, hg⟩ := ih (Function.update g k (S k))
      refine ⟨g', by simp only [ptStep, e1, e2, Res.bind_ok]; exact e, fun j => ⟨?_, fun hj => ?_⟩⟩
      · rintro ⟨q, hq, hj⟩
        by_cases hlater : ∃ q ∈ ps, h2idx I q = some j
        · exact (hg j).1 hlater
        · have hq' : q = p := by
            rcases List.mem_cons.1 hq with h | h
            · exact h
            · exact absurd ⟨q, h, hj⟩ hlater
          subst hq'
          rw [hp] at hj
          cases hj
          rw [(hg k).2 fun q hq hc => hlater ⟨q, hq, hc⟩, Function.update_self]
      · have hne : j ≠ k := by rintro rfl; exact hj p (by simp) hp
        rw [(hg j).2 fun q hq => hj q (List.mem_cons_of_mem _ hq), Function.update_of_ne hne]

/-- The nodes of `order` write the rows of their points. -/
theorem nodes_fold (I : KnnIn K) (cap : Nat) (nb : Nat → List Nat) (fuel : Nat) (S : Nat → List Nat) (order : List Nat)
    (h0 : ∀ t ∈ order, (cand0 I (nb t)).length ≤ cap)
    (h : ∀ t ∈ order, ∀ p ∈ List.range' (I.arr.ptS (slv I.arr t)) (nodeNpt I.arr (slv I.arr t)), ∀ k, h2idx I p = some k →
      ∃ L, cand1 I.m cap k (cand0 I (nb t)) = .ok L ∧ selRow I.dim I.coord I.m k L fuel = .ok (S k)) :
    ∀ g : Nat → List Nat, ∃ g', order.foldlM (nodeStep I cap nb fuel) g = .ok g' ∧
      ∀ k, ((∃ t ∈ order, ∃ p ∈ List.range' (I.arr.ptS (slv I.arr t)) (nodeNpt I.arr (slv I.arr t)), h2idx I p = some k) → g' k = S k) ∧
        ((∀ t ∈ order, ∀ p ∈ List.range' (I.arr.ptS (slv I.arr t)) (nodeNpt I.arr (slv I.arr t)), h2idx I p ≠ some k) → g' k = g k) := by
  induction order with
  | nil => intro g; exact ⟨g, rfl, fun k => ⟨fun h => by simp at h, fun _ => rfl⟩⟩
  | cons t order ih =>
    intro g
    obtain ⟨g1, e1, hg1⟩ := pts_fold I cap (cand0 I (nb t)) fuel S _ (h t (by simp)) g
    obtain ⟨g', e, hg⟩ := ih (fun t ht => h0 t (List.mem_cons_of_mem _ ht)) (fun t ht => h t (List.mem_cons_of_mem _ ht)) g1
    have es : nodeStep I cap nb fuel g t = .ok g1 := by
      unfold nodeStep
      rw [if_pos (h0 t (by simp))]
      exact e1
    refine ⟨g', by rw [List.foldlM_cons, es, Res.bind_ok]; exact e, fun k => ⟨?_, fun hk => ?_⟩⟩
    · rintro ⟨u, hu, p, hp, hj⟩
      by_cases hlater : ∃ t ∈ order, ∃ p ∈ List.range' (I.arr.ptS (slv I.arr t)) (nodeNpt I.arr (slv I.arr t)), h2idx I p = some k
      · exact (hg k).1 hlater
      · have hu' : u = t := by
          rcases List.mem_cons.1 hu with h | h
          · exact h
          · exact absurd ⟨u, h, p, hp, hj⟩ hlater
        subst hu'
        rw [(hg k).2 fun t ht p hp hc => hlater ⟨t, ht, p, hp, hc⟩]
        exact (hg1 k).1 ⟨p, hp, hj⟩
    · rw [(hg k).2 fun u hu => hk u (List.mem_cons_of_mem _ hu)]
      exact (hg1 k).2 (hk t (by simp))

end

end H2Pack.AFN
