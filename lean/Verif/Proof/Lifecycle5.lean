import Verif.Proof.Lifecycle4

/-! # Histories of calls -/

namespace H2Pack.Life

/-- Effects together with changes of the counters. -/
inductive Eff : Heap → List Op → Heap → Prop
  | nil (h : Heap) : Eff h [] h
  | ops {h h' : Heap} {L : List Op} (e : ops h L = .ok h') : Eff h L h'
  | ctr (h : Heap) (n u : Nat) (m : Mode) : Eff h [] { h with nNode := n, nUJ := u, mode := m }
  | trans {a b c : Heap} {L M : List Op} (h1 : Eff a L b) (h2 : Eff b M c) : Eff a (L ++ M) c

theorem Eff.core {a b : Heap} {L : List Op} (E : Eff a L b) (H : Core a) : Core b := by
  induction E with
  | nil h => exact H
  | ops e => exact core_ops H e
  | ctr h n u m => exact ⟨H.inj, H.live, H.fresh⟩
  | trans _ _ i1 i2 => exact i2 (i1 H)

theorem Eff.lost {a b : Heap} {L : List Op} (E : Eff a L b) {x : Nat} (H : Lost x a) : Lost x b := by
  induction E with
  | nil h => exact H
  | ops e => exact lost_ops H e
  | ctr h n u m => exact H
  | trans _ _ i1 i2 => exact i2 (i1 H)

theorem Eff.keep {a b : Heap} {L : List Op} (E : Eff a L b) {f : Fld} (H : a.ptr (.one f) ≠ none) : b.ptr (.one f) ≠ none := by
  induction E with
  | nil h => exact H
  | ops e => exact keep_ops e H
  | ctr h n u m => exact H
  | trans _ _ i1 i2 => exact i2 (i1 H)

theorem Eff.set {a b : Heap} {L : List Op} (E : Eff a L b) {f : Fld} (hf : Op.one f ∈ L) : b.ptr (.one f) ≠ none := by
  induction E with
  | nil h => simp at hf
  | ops e => exact set_ops e hf
  | ctr h n u m => simp at hf
  | trans _ e2 i1 i2 =>
    rcases List.mem_append.1 hf with h1 | h1
    · exact e2.keep (i1 h1)
    · exact i2 h1

theorem Eff.overwrite {a b : Heap} {L : List Op} (E : Eff a L b) (H : Core a) {f : Fld} (hf : Op.one f ∈ L) (hp : a.ptr (.one f) ≠ none) : ∃ x, Lost x b := by
  induction E with
  | nil h => simp at hf
  | ops e => exact overwrite_ops H e hf hp
  | ctr h n u m => simp at hf
  | trans e1 e2 i1 i2 =>
    rcases List.mem_append.1 hf with h1 | h1
    · obtain ⟨x, hx⟩ := i1 H h1 hp
      exact ⟨x, e2.lost hx⟩
    · exact i2 (e1.core H) h1 (e1.keep hp)

/-- A field that every creation of the resource writes. -/
def rep : Kind → Fld
  | .box => .root_enbox
  | .lattice => .per_lattices
  | .part => .coord_idx
  | .pairs => .node_inadm_lists
  | .mat => .fwd_pmt_idx
  | .fact => .ULV_Ls

/-- Pointers that every creation of the resource writes and that other calls read. -/
def reqs : Kind → List Slot
  | .part => [.arr .tb, .one .upward_tq, .one .enbox]
  | .pairs => [.one .node_inadm_lists, .one .HSS_r_adm_pairs, .one .node_n_r_inadm]
  | .mat => [.arr .U, .one .node_n_r_adm]
  | _ => []

/-- The pointer an effect writes. -/
def Op.target : Op → Slot
  | .one f => .one f
  | .con c _ _ => .arr c
  | .renew f => .one f

theorem Eff.ctr' (h : Heap) (n u : Nat) (m : Mode) {h' : Heap} (e : h' = { h with nNode := n, nUJ := u, mode := m }) : Eff h [] h' := e ▸ .ctr h n u m

theorem build_eff {h h' : Heap} {j p : Bool} (e : build h j p = .ok h') : ∃ L, Eff h L h' ∧ Op.one .fwd_pmt_idx ∈ L ∧ ∀ s ∈ reqs .mat, s ∈ L.map Op.target := by
  obtain ⟨u, e1, e2⟩ := bind_inv e
  simp only [Res.ok.injEq] at e2
  refine ⟨_, .trans (.ops e1) (.ctr' u u.nNode h.nNode u.mode e2.symm), ?_⟩
  cases j <;> cases p <;> simp [matOps, reqs, Op.target]

/-- The effects of a call contain a write to the representative of each resource it creates. -/
theorem exec_eff {h h' : Heap} {c : Call} (e : exec h c = .ok h') : ∃ L, Eff h L h' ∧ ∀ k ∈ makes h.dim h.mode c, Op.one (rep k) ∈ L ∧ ∀ s ∈ reqs k, s ∈ L.map Op.target := by
  cases c with
  | enclosingBox => exact ⟨_, .ops e, by simp [makes, rep, reqs]⟩
  | runHSS => simp only [exec, Res.ok.injEq] at e; exact ⟨_, .ctr' h h.nNode h.nUJ _ e.symm, by simp [makes]⟩
  | runRPY => simp only [exec, Res.ok.injEq] at e; exact ⟨_, .ctr' h h.nNode h.nUJ _ e.symm, by simp [makes]⟩
  | runEwald =>
    simp only [exec] at e
    by_cases hm : (h.mode.hss || h.mode.rpy) = true
    · rw [if_pos hm] at e
      simp only [Res.ok.injEq] at e; subst e
      exact ⟨_, .nil h, by simp [makes, hm]⟩
    · rw [if_neg hm] at e
      split at e
      · exact ⟨_, .trans (.ctr h h.nNode h.nUJ _) (.ops e), by simp only [makes]; split <;> simp [rep, reqs]⟩
      · split at e
        · exact ⟨_, .trans (.ctr h h.nNode h.nUJ _) (.ops e), by simp only [makes]; split <;> simp [rep, reqs]⟩
        · rename_i d2 d3
          simp only [Res.ok.injEq] at e
          refine ⟨_, .ctr' h h.nNode h.nUJ _ e.symm, ?_⟩
          simp only [makes]
          rw [if_neg]
          · simp
          · rintro ⟨_, h2 | h3⟩
            · exact d2 h2
            · exact d3 h3
  | partition n =>
    obtain ⟨u, e1, e2⟩ := bind_inv e
    simp only at e2
    have hmo := (same_ops e1).mode
    have E1 := Eff.trans (.ops e1) (Eff.ctr u n u.nUJ u.mode)
    split at e2
    · rename_i hm
      refine ⟨_, E1.trans (.ops e2), ?_⟩
      simp only [makes]
      rw [if_pos (hmo ▸ hm)]
      simp [rep, partOps, pairOps, reqs, Op.target]
    · rename_i hm
      simp only [Res.ok.injEq] at e2; subst e2
      refine ⟨_, E1, ?_⟩
      simp only [makes]
      rw [if_neg (hmo ▸ hm)]
      simp [rep, partOps, reqs, Op.target]
  | partitionPer n =>
    obtain ⟨u, e1, e2⟩ := bind_inv e
    simp only [Res.ok.injEq] at e2; subst e2
    exact ⟨_, Eff.trans (.ops e1) (Eff.ctr u n u.nUJ u.mode), by simp [makes, rep, partOps, reqs, Op.target]⟩
  | hssPairs =>
    obtain ⟨_, e⟩ := guard_inv e
    exact ⟨_, .ops e, by simp [makes, rep, pairOps, reqs, Op.target]⟩
  | build a j =>
    simp only [exec] at e
    by_cases ha : a = true
    · rw [if_pos ha] at e
      obtain ⟨_, e⟩ := guard_inv e
      obtain ⟨L, E, hL⟩ := build_eff e
      exact ⟨L, E, by simp only [makes, ha, if_true, List.mem_singleton, forall_eq]; exact hL⟩
    · rw [if_neg ha] at e
      simp only [Res.ok.injEq] at e; subst e
      exact ⟨_, .nil h, by simp [makes, ha]⟩
  | buildPer a j =>
    simp only [exec] at e
    by_cases ha : (a && j) = true
    · rw [if_pos ha] at e
      obtain ⟨_, e⟩ := guard_inv e
      obtain ⟨L, E, hL⟩ := build_eff e
      refine ⟨L, E, ?_⟩
      simp only [makes]; rw [if_pos ha]
      simp only [List.mem_singleton, forall_eq]; exact hL
    · rw [if_neg ha] at e
      simp only [Res.ok.injEq] at e; subst e
      refine ⟨_, .nil h, ?_⟩
      simp only [makes]; rw [if_neg ha]; simp
  | buildSample a j =>
    simp only [exec] at e
    by_cases ha : a = true
    · rw [if_pos ha] at e
      obtain ⟨_, e⟩ := guard_inv e
      obtain ⟨L, E, hL⟩ := build_eff e
      exact ⟨L, E, by simp only [makes, ha, if_true, List.mem_singleton, forall_eq]; exact hL⟩
    · rw [if_neg ha] at e
      simp only [Res.ok.injEq] at e; subst e
      exact ⟨_, .nil h, by simp [makes, ha]⟩
  | matvec per =>
    simp only [exec] at e
    obtain ⟨_, e⟩ := guard_inv e
    exact ⟨_, .ops e, by simp [makes]⟩
  | matmul per nvec =>
    obtain ⟨u, e1, e2⟩ := bind_inv e
    split at e2
    · simp only [Res.ok.injEq] at e2; subst e2
      exact ⟨_, .ops e1, by simp [makes]⟩
    · obtain ⟨_, e2⟩ := guard_inv e2
      exact ⟨_, .trans (.ops e1) (.ops e2), by simp [makes]⟩
  | lu a b c d =>
    simp only [exec] at e
    by_cases ha : h.mode.hss = true
    · rw [if_pos ha] at e
      obtain ⟨_, e⟩ := guard_inv e
      exact ⟨_, .ops e, by simp [makes, ha, rep, factOps, reqs]⟩
    · rw [if_neg ha] at e
      simp only [Res.ok.injEq] at e; subst e
      exact ⟨_, .nil h, by simp [makes, ha]⟩
  | chol a b c =>
    simp only [exec] at e
    by_cases ha : h.mode.hss = true
    · rw [if_pos ha] at e
      obtain ⟨_, e⟩ := guard_inv e
      exact ⟨_, .ops e, by simp [makes, ha, rep, factOps, reqs]⟩
    · rw [if_neg ha] at e
      simp only [Res.ok.injEq] at e; subst e
      exact ⟨_, .nil h, by simp [makes, ha]⟩
  | solve =>
    simp only [exec, Res.ok.injEq] at e; subst e
    exact ⟨_, .nil h, by simp [makes]⟩

theorem makes_nodup (dim : Nat) (m : Mode) (c : Call) : (makes dim m c).Nodup := by
  cases c <;> simp only [makes] <;> (try split) <;> simp

theorem lost_run {b : Nat} {cs : List Call} {h h' : Heap} (H : Lost b h) (e : run h cs = .ok h') : Lost b h' :=
  foldlM_inv (Lost b) (fun c _ s t hs e => by
    obtain ⟨L, E, _⟩ := exec_eff e
    exact E.lost hs) H e

/-- A resource that exists is created again: something is lost. -/
theorem leak_run (cs : List Call) {done : List Kind} {h h' : Heap} (H : Core h) (hd : done.Nodup) (hr : ∀ k ∈ done, h.ptr (.one (rep k)) ≠ none) (e : run h cs = .ok h')
    (hn : ¬ (done ++ made h.dim h.mode cs).Nodup) : ∃ b, Lost b h' := by
  induction cs generalizing done h with
  | nil => simp only [made, List.append_nil] at hn; exact absurd hd hn
  | cons c cs ih =>
    obtain ⟨u, e1, e2⟩ := foldlM_ok e
    obtain ⟨L, E, hL⟩ := exec_eff e1
    by_cases hdup : (done ++ makes h.dim h.mode c).Nodup
    · refine ih (E.core H) hdup (fun k hk => ?_) e2 ?_
      · rcases List.mem_append.1 hk with hk | hk
        · exact E.keep (hr k hk)
        · exact E.set (hL k hk).1
      · rw [(mode_exec e1).1, (mode_exec e1).2, List.append_assoc]
        exact hn
    · rw [List.nodup_append] at hdup
      have : ∃ k ∈ makes h.dim h.mode c, k ∈ done := by
        by_contra hne
        push Not at hne
        refine hdup ⟨hd, makes_nodup _ _ _, fun a ha b hb hab => ?_⟩
        exact hne b hb (hab ▸ ha)
      obtain ⟨k, hk1, hk2⟩ := this
      obtain ⟨b, hb⟩ := E.overwrite H (hL k hk1).1 (hr k hk2)
      exact ⟨b, lost_run hb e2⟩

theorem zeroOk_mono (cs : List Call) : ∀ {p q : Bool}, (p = true → q = true) → zeroOk p cs = true → zeroOk q cs = true := by
  induction cs with
  | nil => intros; rfl
  | cons c cs ih =>
    intro p q hpq hz
    cases c with
    | matmul per nvec =>
      simp only [zeroOk, Bool.and_eq_true, Bool.or_eq_true] at hz ⊢
      exact ⟨hz.1.imp hpq id, ih hpq hz.2⟩
    | partition n => exact hz
    | partitionPer n => exact hz
    | _ => exact ih hpq hz

/-- Each resource is created once: everything is owned. -/
theorem own_run (cs : List Call) {done : List Kind} {h h' : Heap} (H : Own done h) (e : run h cs = .ok h') (hn : (done ++ made h.dim h.mode cs).Nodup)
    (hz : zeroOk (decide (Kind.part ∈ done)) cs = true) : Own (done ++ made h.dim h.mode cs) h' := by
  induction cs generalizing done h with
  | nil =>
    simp only [run, List.foldlM_nil, Res.pure_eq, Res.ok.injEq] at e
    subst e
    simpa [made] using H
  | cons c cs ih =>
    obtain ⟨u, e1, e2⟩ := foldlM_ok e
    simp only [made] at hn ⊢
    rw [← List.append_assoc] at hn ⊢
    have O := own_exec H e1 (List.nodup_append.1 hn).1 (fun per hc => by
      subst hc
      simp only [zeroOk, Bool.and_eq_true] at hz
      simpa using hz.1)
    have hm := mode_exec e1
    suffices hs : zeroOk (decide (Kind.part ∈ done ++ makes h.dim h.mode c)) cs = true by
      have := ih O e2 (by rw [hm.1, hm.2]; exact hn) hs
      rw [hm.1, hm.2] at this
      exact this
    have gen : zeroOk (decide (Kind.part ∈ done)) cs = true → zeroOk (decide (Kind.part ∈ done ++ makes h.dim h.mode c)) cs = true :=
      zeroOk_mono cs (fun hp => by simp only [decide_eq_true_eq] at hp ⊢; exact List.mem_append.2 (Or.inl hp))
    cases c with
    | matmul per nvec =>
      simp only [zeroOk, Bool.and_eq_true] at hz
      exact gen hz.2
    | partition n =>
      refine zeroOk_mono cs (fun _ => ?_) hz
      simp only [decide_eq_true_eq]
      refine List.mem_append.2 (Or.inr ?_)
      simp only [makes]; split <;> simp
    | partitionPer n =>
      refine zeroOk_mono cs (fun _ => ?_) hz
      simp [makes]
    | _ => exact gen hz

/-- From a state in which the resources `done` are owned: destroying frees everything exactly when no resource has been created twice. -/
theorem exact_run (cs : List Call) {done : List Kind} {h h' : Heap} (H : Own done h) (hd : done.Nodup) (hr : ∀ k ∈ done, h.ptr (.one (rep k)) ≠ none) (e : run h cs = .ok h')
    (hz : zeroOk (decide (Kind.part ∈ done)) cs = true) :
    (∃ k, destroy h' = .ok k ∧ k.live = ∅) ↔ (done ++ made h.dim h.mode cs).Nodup := by
  constructor
  · rintro ⟨k, e', hk⟩
    by_contra hn
    obtain ⟨b, hb⟩ := leak_run cs H.toCore hd hr e hn
    have := lost_destroy hb e'
    rw [Lost, hk] at this
    simp at this
  · intro hn
    exact destroy_complete (own_run cs H e hn hz).toComplete

end H2Pack.Life
