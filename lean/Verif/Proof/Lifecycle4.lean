import Verif.Proof.Lifecycle3
import Mathlib.Tactic.Tauto

/-! # One call: resources created once stay owned; a resource created twice is lost -/

namespace H2Pack.Life

theorem guard_inv {c : Prop} [Decidable c] {x : Res Heap} {h : Heap} (e : (if c then x else .ub) = .ok h) : c ∧ x = .ok h := by
  by_cases hc : c
  · rw [if_pos hc] at e; exact ⟨hc, e⟩
  · rw [if_neg hc] at e; cases e

theorem same_renew {h h' : Heap} {f : Fld} (e : (Op.renew f).apply h = .ok h') (c : Con) : h'.ptr (.arr c) = h.ptr (.arr c) := by
  obtain ⟨k, h1, h2⟩ := bind_inv e
  simp only [Res.ok.injEq] at h2
  have hk : k.ptr = h.ptr := by rcases free_cases h1 with ⟨_, rfl⟩ | ⟨b, _, _, rfl⟩ <;> rfl
  rw [← h2, malloc_ptr, if_neg (by simp), hk]

/-- The mode and the dimension after a call. -/
theorem mode_exec {h h' : Heap} {c : Call} (e : exec h c = .ok h') : h'.mode = h.mode.next c ∧ h'.dim = h.dim := by
  have key : ∀ {L : List Op} {k k' : Heap}, ops k L = .ok k' → k'.mode = k.mode ∧ k'.dim = k.dim := fun e => ⟨(same_ops e).mode, (same_ops e).dim⟩
  have kb : ∀ {k k' : Heap} {j p : Bool}, build k j p = .ok k' → k'.mode = k.mode ∧ k'.dim = k.dim := by
    intro k k' j p e
    obtain ⟨u, e1, e2⟩ := bind_inv e
    simp only [Res.ok.injEq] at e2
    subst e2
    exact (have := key e1; this)
  cases c with
  | enclosingBox => exact key e
  | runHSS => simp only [exec, Res.ok.injEq] at e; subst e; exact ⟨rfl, rfl⟩
  | runRPY => simp only [exec, Res.ok.injEq] at e; subst e; exact ⟨rfl, rfl⟩
  | runEwald =>
    simp only [exec] at e
    by_cases hm : (h.mode.hss || h.mode.rpy) = true
    · rw [if_pos hm] at e
      simp only [Res.ok.injEq] at e; subst e
      simp [Mode.next, hm]
    · rw [if_neg hm] at e
      have hm' : h.mode.next .runEwald = ⟨false, false, true⟩ := by
        simp only [Mode.next, if_neg hm]
        simp only [Bool.or_eq_true, not_or, Bool.not_eq_true] at hm
        rw [hm.1, hm.2]
      rw [hm']
      split at e
      · exact key e
      · split at e
        · exact key e
        · simp only [Res.ok.injEq] at e; subst e; exact ⟨rfl, rfl⟩
  | partition n =>
    obtain ⟨u, e1, e2⟩ := bind_inv e
    simp only at e2
    split at e2
    · exact ⟨(key e2).1.trans (key e1).1, (key e2).2.trans (key e1).2⟩
    · simp only [Res.ok.injEq] at e2; subst e2; exact (have := key e1; this)
  | partitionPer n =>
    obtain ⟨u, e1, e2⟩ := bind_inv e
    simp only [Res.ok.injEq] at e2; subst e2; exact (have := key e1; this)
  | hssPairs =>
    simp only [exec] at e
    obtain ⟨hh, e⟩ := guard_inv e
    exact key e
  | build a j =>
    simp only [exec] at e
    split at e
    · obtain ⟨hh, e⟩ := guard_inv e
      exact kb e
    · simp only [Res.ok.injEq] at e; subst e; exact ⟨rfl, rfl⟩
  | buildPer a j =>
    simp only [exec] at e
    split at e
    · obtain ⟨hh, e⟩ := guard_inv e
      exact kb e
    · simp only [Res.ok.injEq] at e; subst e; exact ⟨rfl, rfl⟩
  | buildSample a j =>
    simp only [exec] at e
    split at e
    · obtain ⟨hh, e⟩ := guard_inv e
      exact kb e
    · simp only [Res.ok.injEq] at e; subst e; exact ⟨rfl, rfl⟩
  | matvec per =>
    simp only [exec] at e
    obtain ⟨hh, e⟩ := guard_inv e
    exact key e
  | matmul per nvec =>
    obtain ⟨u, e1, e2⟩ := bind_inv e
    split at e2
    · simp only [Res.ok.injEq] at e2; subst e2; exact (have := key e1; this)
    · obtain ⟨hh, e2⟩ := guard_inv e2
      exact ⟨(key e2).1.trans (key e1).1, (key e2).2.trans (key e1).2⟩
  | lu a b c d =>
    simp only [exec] at e
    split at e
    · obtain ⟨hh, e⟩ := guard_inv e
      exact key e
    · simp only [Res.ok.injEq] at e; subst e; exact ⟨rfl, rfl⟩
  | chol a b c =>
    simp only [exec] at e
    split at e
    · obtain ⟨hh, e⟩ := guard_inv e
      exact key e
    · simp only [Res.ok.injEq] at e; subst e; exact ⟨rfl, rfl⟩
  | solve => simp only [exec, Res.ok.injEq] at e; subst e; exact ⟨rfl, rfl⟩

theorem Own.mem {done : List Kind} {h : Heap} (H : Own done h) {s : Slot} {k : Kind} (hs : kindOf s.grp = some k) (hh : has h s = true) : k ∈ done := by
  by_contra hn
  rw [has, H.null s k hs hn] at hh
  cases hh

theorem ops_det {h a b : Heap} {L : List Op} (h1 : ops h L = .ok a) (h2 : ops h L = .ok b) : a = b := by
  rw [h1] at h2; exact Res.ok.inj h2

theorem own_box {done : List Kind} {h h' : Heap} (H : Own done h) (e : ops h [.one .root_enbox] = .ok h') (hk : Kind.box ∉ done) : Own (done ++ [.box]) h' := by
  obtain ⟨k, e', O⟩ := own_add' H hk [.one .root_enbox] (by simp [Op.pure]) (by simp) (by simp [Op.grp, kindOf, kindF]) (by simp) (by simp [Op.grp]) (by simp) (by simp)
  exact ops_det e' e ▸ O

theorem own_lattice {done : List Kind} {h h' : Heap} (H : Own done h) (e : ops h [.one .per_lattices] = .ok h') (hk : Kind.lattice ∉ done) : Own (done ++ [.lattice]) h' := by
  obtain ⟨k, e', O⟩ := own_add' H hk [.one .per_lattices] (by simp [Op.pure]) (by simp) (by simp [Op.grp, kindOf, kindF]) (by simp) (by simp [Op.grp]) (by simp) (by simp)
  exact ops_det e' e ▸ O

theorem own_pairs {done : List Kind} {h h' : Heap} (H : Own done h) (e : ops h pairOps = .ok h') (hk : Kind.pairs ∉ done) : Own (done ++ [.pairs]) h' := by
  obtain ⟨k, e', O⟩ := own_add' H hk pairOps (by simp [Op.pure, pairOps]) (by simp [pairOps, Op.grp]) (by simp [pairOps, Op.grp, kindOf, kindF]) (by simp [pairOps])
    (by simp [pairOps, Op.grp]) (by simp) (by simp)
  exact ops_det e' e ▸ O

theorem own_part {done : List Kind} {h h' : Heap} {sh : Bool} (H : Own done h) (e : ops h (partOps h.nThread sh) = .ok h') (hk : Kind.part ∉ done) (n : Nat) :
    Own (done ++ [.part]) { h' with nNode := n } := by
  have hm : Kind.mat ∉ done := fun h => hk (H.ord1 h)
  have hf : Kind.fact ∉ done := fun h => hm (H.ord2 h)
  obtain ⟨k, e', O⟩ := own_add H hk (partOps h.nThread sh) (by cases sh <;> simp [Op.pure, partOps]) (by cases sh <;> simp [partOps, Op.grp])
    (by cases sh <;> simp [partOps, Op.grp, kindOf, kindF, kindC]) n h.nUJ
    (by
      intro c n' p hm
      have : c = .tb ∧ n' = h.nThread := by cases sh <;> (simp [partOps] at hm; tauto)
      rcases this with ⟨rfl, rfl⟩; rfl)
    (fun c hc _ => by
      have h0 : ∀ c, kindC c = some .fact → h.ptr (.arr c) = none := fun c hc => H.null (.arr c) .fact hc hf
      have hy : h.ptr (.arr .y0) = none := by
        by_contra h0
        exact hm (H.yb h0)
      cases c with
      | J | J_coord | U | tb => rfl
      | y0 => exact absurd hy hc
      | y1 => exact absurd (H.yy.1 hy) hc
      | ULV_idx => exact absurd (h0 _ rfl) hc
      | ULV_p => exact absurd (h0 _ rfl) hc
      | ULV_Q => exact absurd (h0 _ rfl) hc
      | ULV_L => exact absurd (h0 _ rfl) hc)
    (by cases sh <;> simp [partOps, Op.grp]) (by simp) (by simp)
  have := ops_det e' e
  subst this
  have S := same_ops e'
  rw [← S.nUJ] at O
  exact O

theorem own_build {done : List Kind} {h h' : Heap} {jit per : Bool} (H : Own done h) (e : build h jit per = .ok h') (hk : Kind.mat ∉ done) (hp : Kind.part ∈ done) :
    Own (done ++ [.mat]) h' := by
  obtain ⟨u, e1, e2⟩ := bind_inv e
  simp only [Res.ok.injEq] at e2
  obtain ⟨k, e', O⟩ := own_add H hk (matOps h.nNode jit per) (by cases jit <;> cases per <;> simp [Op.pure, matOps]) (by cases jit <;> cases per <;> simp [matOps, Op.grp])
    (by cases jit <;> cases per <;> simp [matOps, Op.grp, kindOf, kindF, kindC]) h.nNode h.nNode
    (by
      intro c n p hm
      have : n = h.nNode ∧ (c = .U ∨ c = .J ∨ c = .J_coord) := by
        cases jit <;> cases per <;> (simp [matOps] at hm; tauto)
      rcases this with ⟨rfl, rfl | rfl | rfl⟩ <;> rfl)
    (fun c hc hn => by
      have h0 : ∀ c, kindC c = some .mat → h.ptr (.arr c) = none := fun c hc => H.null (.arr c) .mat hc hk
      cases c with
      | J => exact absurd (h0 _ rfl) hc
      | J_coord => exact absurd (h0 _ rfl) hc
      | U => exact absurd (h0 _ rfl) hc
      | _ => rfl)
    (by cases jit <;> cases per <;> simp [matOps, Op.grp]) (fun _ => hp) (by simp)
  have := ops_det e' e1
  subst this
  have S := same_ops e'
  rw [← e2]
  have : ({ k with nNode := h.nNode, nUJ := h.nNode } : Heap) = { k with nUJ := h.nNode } := by rw [← S.nNode]
  rw [this] at O
  exact O

theorem own_fact {done : List Kind} {h h' : Heap} {i : Nat → Bool} {p : Option (Nat → Bool)} {q l : Nat → Bool} (H : Own done h)
    (e : ops h (factOps h.nNode i p q l) = .ok h') (hk : Kind.fact ∉ done) (hm : Kind.mat ∈ done) : Own (done ++ [.fact]) h' := by
  obtain ⟨k, e', O⟩ := own_add' H hk (factOps h.nNode i p q l) (by cases p <;> simp [Op.pure, factOps]) (by cases p <;> simp [factOps, Op.grp])
    (by cases p <;> simp [factOps, Op.grp, kindOf, kindF, kindC])
    (by
      intro c n p' hm
      have : n = h.nNode ∧ (c = .ULV_idx ∨ c = .ULV_p ∨ c = .ULV_Q ∨ c = .ULV_L) := by
        cases p <;> (simp [factOps] at hm; tauto)
      rcases this with ⟨rfl, rfl | rfl | rfl | rfl⟩ <;> rfl)
    (by cases p <;> simp [factOps, Op.grp]) (by simp) (fun _ => hm)
  exact ops_det e' e ▸ O

/-- One call that creates only new resources. -/
theorem own_exec {done : List Kind} {h h' : Heap} {c : Call} (H : Own done h) (e : exec h c = .ok h') (hnd : (done ++ makes h.dim h.mode c).Nodup)
    (hz : ∀ per, c = .matmul per 0 → Kind.part ∈ done) : Own (done ++ makes h.dim h.mode c) h' := by
  have hnew : ∀ k ∈ makes h.dim h.mode c, k ∉ done := fun k hk hd => (List.nodup_append.1 hnd).2.2 k hd k hk rfl
  have done_nil : ∀ {k : Heap}, Own done k → makes h.dim h.mode c = [] → Own (done ++ makes h.dim h.mode c) k := by
    intro k hk he; rw [he, List.append_nil]; exact hk
  cases c with
  | enclosingBox => exact own_box H e (hnew _ (by simp [makes]))
  | runHSS => simp only [exec, Res.ok.injEq] at e; subst e; exact done_nil (own_mode H _) rfl
  | runRPY => simp only [exec, Res.ok.injEq] at e; subst e; exact done_nil (own_mode H _) rfl
  | runEwald =>
    simp only [exec] at e
    by_cases hm : (h.mode.hss || h.mode.rpy) = true
    · rw [if_pos hm] at e
      simp only [Res.ok.injEq] at e; subst e
      exact done_nil H (by simp [makes, hm])
    · rw [if_neg hm] at e
      have hm' := Bool.not_eq_true _ ▸ hm
      split at e
      · rename_i hd
        have hmk : makes h.dim h.mode .runEwald = [.lattice] := by simp only [makes]; rw [if_pos ⟨hm', Or.inl hd⟩]
        rw [hmk]
        exact own_lattice (own_mode H _) e (hnew _ (by simp [hmk]))
      · split at e
        · rename_i _ hd
          have hmk : makes h.dim h.mode .runEwald = [.lattice] := by simp only [makes]; rw [if_pos ⟨hm', Or.inr hd⟩]
          rw [hmk]
          exact own_lattice (own_mode H _) e (hnew _ (by simp [hmk]))
        · rename_i d2 d3
          simp only [Res.ok.injEq] at e; subst e
          refine done_nil (own_mode H _) ?_
          simp only [makes]
          rw [if_neg]
          rintro ⟨_, h2 | h3⟩
          · exact d2 h2
          · exact d3 h3
  | partition n =>
    obtain ⟨u, e1, e2⟩ := bind_inv e
    have hp : Kind.part ∉ done := hnew _ (by simp only [makes]; split <;> simp)
    have O := own_part H e1 hp n
    simp only at e2
    have hmo := (same_ops e1).mode
    split at e2
    · rename_i hm
      have hmk : makes h.dim h.mode (.partition n) = [.part, .pairs] := by simp only [makes]; rw [if_pos (hmo ▸ hm)]
      rw [hmk]
      have := own_pairs O e2 (by
        intro hq
        rcases List.mem_append.1 hq with hq | hq
        · exact hnew .pairs (by simp [hmk]) hq
        · simp at hq)
      rw [List.append_assoc] at this
      exact this
    · rename_i hm
      have hmk : makes h.dim h.mode (.partition n) = [.part] := by simp only [makes]; rw [if_neg (hmo ▸ hm)]
      simp only [Res.ok.injEq] at e2; subst e2
      rw [hmk]; exact O
  | partitionPer n =>
    obtain ⟨u, e1, e2⟩ := bind_inv e
    simp only [Res.ok.injEq] at e2; subst e2
    exact own_part H e1 (hnew _ (by simp [makes])) n
  | hssPairs =>
    simp only [exec] at e
    obtain ⟨hh, e⟩ := guard_inv e
    exact own_pairs H e (hnew _ (by simp [makes]))
  | build a j =>
    simp only [exec] at e
    split at e
    · rename_i ha
      have hmk : makes h.dim h.mode (.build a j) = [.mat] := by simp [makes, ha]
      obtain ⟨hh, e⟩ := guard_inv e
      rw [Bool.and_eq_true] at hh
      rw [hmk]
      exact own_build H e (hnew _ (by simp [hmk])) (H.mem (s := .arr .tb) rfl hh.1)
    · rename_i ha
      simp only [Res.ok.injEq] at e; subst e; exact done_nil H (by simp [makes, ha])
  | buildPer a j =>
    simp only [exec] at e
    split at e
    · rename_i ha
      have hmk : makes h.dim h.mode (.buildPer a j) = [.mat] := by simp only [makes]; rw [if_pos ha]
      obtain ⟨hh, e⟩ := guard_inv e
      rw [Bool.and_eq_true, Bool.and_eq_true] at hh
      rw [hmk]
      exact own_build H e (hnew _ (by simp [hmk])) (H.mem (s := .arr .tb) rfl hh.1.1)
    · rename_i ha
      simp only [Res.ok.injEq] at e; subst e; exact done_nil H (by simp only [makes]; rw [if_neg ha])
  | buildSample a j =>
    simp only [exec] at e
    split at e
    · rename_i ha
      have hmk : makes h.dim h.mode (.buildSample a j) = [.mat] := by simp [makes, ha]
      obtain ⟨hh, e⟩ := guard_inv e
      rw [Bool.and_eq_true, Bool.and_eq_true] at hh
      rw [hmk]
      exact own_build H e (hnew _ (by simp [hmk])) (H.mem (s := .arr .tb) rfl hh.1.1)
    · rename_i ha
      simp only [Res.ok.injEq] at e; subst e; exact done_nil H (by simp [makes, ha])
  | matvec per =>
    refine done_nil ?_ rfl
    simp only [exec] at e
    obtain ⟨hh, e⟩ := guard_inv e
    rw [Bool.and_eq_true, Bool.and_eq_true] at hh
    obtain ⟨k, e', O⟩ := own_prod H (H.mem (s := .arr .U) rfl hh.1.1)
    exact ops_det e' e ▸ O
  | matmul per nvec =>
    refine done_nil ?_ rfl
    obtain ⟨u, e1, e2⟩ := bind_inv e
    obtain ⟨u1, r1, e1⟩ := foldlM_ok e1
    obtain ⟨u2, r2, e1⟩ := foldlM_ok e1
    simp only [List.foldlM_nil, Res.pure_eq, Res.ok.injEq] at e1
    subst e1
    have hpU : has u2 (.arr .U) = has h (.arr .U) := by
      unfold has; rw [same_renew r2, same_renew r1]
    have hU : ∀ {x y : Bool}, (has u2 (.arr .U) && x && y) = true → Kind.mat ∈ done := by
      intro x y hh
      rw [Bool.and_eq_true, Bool.and_eq_true] at hh
      rw [hpU] at hh
      exact H.mem (s := .arr .U) rfl hh.1.1
    have hO : Kind.part ∈ done → Own done u2 := fun hp => own_renew (own_renew H rfl hp r1) rfl hp r2
    split at e2
    · rename_i hn
      simp only [Res.ok.injEq] at e2; subst e2
      exact hO (hz per (by rw [hn]))
    · obtain ⟨hh, e2⟩ := guard_inv e2
      have hm := hU hh
      obtain ⟨k, e', O⟩ := own_prod (hO (H.ord1 hm)) hm
      exact ops_det e' e2 ▸ O
  | lu a b c d =>
    simp only [exec] at e
    split at e
    · rename_i hs
      have hmk : makes h.dim h.mode (.lu a b c d) = [.fact] := by simp [makes, hs]
      obtain ⟨hh, e⟩ := guard_inv e
      rw [hmk]
      exact own_fact H e (hnew _ (by simp [hmk])) (H.mem (s := .arr .U) rfl hh)
    · rename_i hs
      simp only [Res.ok.injEq] at e; subst e; exact done_nil H (by simp [makes, hs])
  | chol a b c =>
    simp only [exec] at e
    split at e
    · rename_i hs
      have hmk : makes h.dim h.mode (.chol a b c) = [.fact] := by simp [makes, hs]
      obtain ⟨hh, e⟩ := guard_inv e
      rw [hmk]
      exact own_fact H e (hnew _ (by simp [hmk])) (H.mem (s := .arr .U) rfl hh)
    · rename_i hs
      simp only [Res.ok.injEq] at e; subst e; exact done_nil H (by simp [makes, hs])
  | solve => simp only [exec, Res.ok.injEq] at e; subst e; exact done_nil H rfl

end H2Pack.Life
