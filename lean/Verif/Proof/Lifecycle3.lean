import Verif.Proof.Lifecycle2

/-! # Destroying a complete handle; every accepted call keeps handles complete -/

namespace H2Pack.Life

/-- State of `H2P_destroy` after the arrays of pointers in `D`. -/
structure Stage (h : Heap) (D : List Con) (k : Heap) : Prop where
  rem : Rem (fun s => s = .one .self ∨ ∃ c, s.grp = .con c ∧ c ∉ D) k
  keeps : Keeps (fun s => (∃ f, s = .one f ∧ f ≠ .self) ∨ ∃ c ∈ D, s.grp = .con c) h k

theorem stage_step {h k : Heap} (H : Complete h) {D : List Con} (S : Stage h D k) (cs test : List Con) (n : Nat) (hd : cs.Nodup) (hD : ∀ c ∈ cs, c ∉ D) (ht : ∀ c ∈ test, c ∈ cs)
    (hne : test ≠ []) (hn : ∀ c ∈ cs, count h c = n) (hall : ∀ c ∈ cs, ∀ d ∈ cs, h.ptr (.arr c) = none → h.ptr (.arr d) = none) :
    ∃ k', destroyCons cs test n k = .ok k' ∧ Stage h (D ++ cs) k' := by
  have hp : ∀ c ∈ cs, ∀ s : Slot, s.grp = .con c → k.ptr s = h.ptr s := by
    intro c hc s hs
    refine S.keeps.ptr s ?_
    rintro (⟨f, rfl, _⟩ | ⟨d, hd', he⟩)
    · cases hs
    · rw [hs] at he; simp only [Grp.con.injEq] at he
      exact hD c hc (he ▸ hd')
  obtain ⟨k', e, R, K⟩ := destroyCons_spec (cs := cs) (test := test) (n := n) S.rem hd (fun c hc s hs => Or.inr ⟨c, hs, hD c hc⟩) (Or.inl rfl)
    (by rw [S.keeps.ptr]
        · exact H.self
        · rintro (⟨f, he, hf⟩ | ⟨d, _, he⟩)
          · simp only [Slot.one.injEq] at he; exact hf he.symm
          · cases he) ht hne
    (fun c hc i hi => by
      rw [hp c hc _ rfl] at hi ⊢
      rw [S.keeps.cap]
      exact H.els c i hi)
    (fun c hc hi => by
      rw [hp c hc _ rfl] at hi
      rw [S.keeps.cap, H.caps c hi, hn c hc])
    (fun c hc d hd' hi => by
      rw [hp c hc _ rfl] at hi
      rw [hp d hd' _ rfl]
      exact hall c hc d hd' hi)
  refine ⟨k', e, R.congr (fun s => ?_), (S.keeps.trans K).mono (fun s hs => ?_)⟩
  · constructor
    · rintro ⟨rfl | ⟨c, h1, h2⟩, h3⟩
      · exact Or.inl rfl
      · refine Or.inr ⟨c, h1, fun hm => ?_⟩
        rcases List.mem_append.1 hm with hm | hm
        · exact h2 hm
        · exact h3 c hm h1
    · rintro (rfl | ⟨c, h1, h2⟩)
      · exact ⟨Or.inl rfl, fun c _ he => by cases he⟩
      · rw [List.mem_append, not_or] at h2
        refine ⟨Or.inr ⟨c, h1, h2.1⟩, fun d hd' he => ?_⟩
        rw [h1] at he; simp only [Grp.con.injEq] at he
        exact h2.2 (he ▸ hd')
  · rcases hs with (h1 | ⟨c, h1, h2⟩) | ⟨c, h1, h2⟩
    · exact Or.inl h1
    · exact Or.inr ⟨c, List.mem_append.2 (Or.inl h1), h2⟩
    · exact Or.inr ⟨c, List.mem_append.2 (Or.inr h1), h2⟩

theorem plain_nodup : (plain.map Slot.one).Nodup := by decide

theorem fields_all (f : Fld) : f = .self ∨ f ∈ plain ∨ f ∈ [Fld.upward_tq, .B_blk, .D_blk0, .D_blk1] := by
  cases f <;> decide

/-- `H2P_destroy` frees a complete handle completely. -/
theorem destroy_complete {h : Heap} (H : Complete h) : ∃ h', destroy h = .ok h' ∧ h'.live = ∅ := by
  have R0 : Rem (fun _ => True) h := ⟨fun s s' b _ _ => H.inj s s' b, fun s b _ => H.live s b, fun b hb => by
    obtain ⟨s, hs⟩ := H.owned b hb
    exact ⟨s, trivial, hs⟩⟩
  obtain ⟨h1, e1, R1, K1⟩ := rem_list false (plain.map .one) R0 plain_nodup (by
    intro s hs
    obtain ⟨f, hf, rfl⟩ := List.mem_map.1 hs
    refine ⟨trivial, trivial, fun t ht => ?_⟩
    have : t = .one .self := by
      cases f <;> simp_all [base, plain]
    subst this
    exact ⟨trivial, by decide, H.self⟩)
  have hs1 : h1.ptr (.one .self) ≠ none := by rw [K1.ptr _ (by decide)]; exact H.self
  obtain ⟨h2, e2, R2, K2⟩ := rem_list true ([Fld.upward_tq, .B_blk, .D_blk0, .D_blk1].map .one) R1 (by decide) (by
    intro s hs
    obtain ⟨f, hf, rfl⟩ := List.mem_map.1 hs
    refine ⟨⟨trivial, ?_⟩, trivial, fun t ht => ?_⟩
    · simp only [List.mem_cons, List.not_mem_nil, or_false] at hf
      rcases hf with rfl | rfl | rfl | rfl <;> decide
    · have : t = .one .self := by
        cases f <;> simp_all [base]
      subst this
      exact ⟨⟨trivial, by decide⟩, by decide, hs1⟩)
  have S2 : Stage h [] h2 := by
    refine ⟨R2.congr (fun s => ?_), (K1.trans K2).mono (fun s hs => Or.inl ?_)⟩
    · constructor
      · rintro ⟨⟨_, h1⟩, h2⟩
        cases s with
        | one f =>
          rcases fields_all f with rfl | hf | hf
          · exact Or.inl rfl
          · exact absurd (List.mem_map.2 ⟨f, hf, rfl⟩) h1
          · exact absurd (List.mem_map.2 ⟨f, hf, rfl⟩) h2
        | arr c => exact Or.inr ⟨c, rfl, by simp⟩
        | el c i => exact Or.inr ⟨c, rfl, by simp⟩
      · rintro (rfl | ⟨c, h1, _⟩)
        · exact ⟨⟨trivial, by decide⟩, by decide⟩
        · refine ⟨⟨trivial, fun hm => ?_⟩, fun hm => ?_⟩ <;>
          · obtain ⟨f, _, rfl⟩ := List.mem_map.1 hm
            cases h1
    · rcases hs with hm | hm
      · obtain ⟨f, hf, rfl⟩ := List.mem_map.1 hm
        exact ⟨f, rfl, by rintro rfl; exact absurd hf (by decide)⟩
      · obtain ⟨f, hf, rfl⟩ := List.mem_map.1 hm
        exact ⟨f, rfl, by rintro rfl; exact absurd hf (by decide)⟩
  obtain ⟨h3, e3, S3⟩ := stage_step H S2 [.J] [.J] h2.nUJ (by decide) (by decide) (by decide) (by decide) (by simp [count, S2.keeps.same.nUJ]) (by simp)
  obtain ⟨h4, e4, S4⟩ := stage_step H S3 [.ULV_idx] [.ULV_idx] h3.nNode (by decide) (by decide) (by decide) (by decide) (by simp [count, S3.keeps.same.nNode]) (by simp)
  obtain ⟨h5, e5, S5⟩ := stage_step H S4 [.ULV_p] [.ULV_p] h4.nNode (by decide) (by decide) (by decide) (by decide) (by simp [count, S4.keeps.same.nNode]) (by simp)
  obtain ⟨h6, e6, S6⟩ := stage_step H S5 [.J_coord] [.J_coord] h5.nUJ (by decide) (by decide) (by decide) (by decide) (by simp [count, S5.keeps.same.nUJ]) (by simp)
  obtain ⟨h7, e7, S7⟩ := stage_step H S6 [.U] [.U] h6.nUJ (by decide) (by decide) (by decide) (by decide) (by simp [count, S6.keeps.same.nUJ]) (by simp)
  obtain ⟨h8, e8, S8⟩ := stage_step H S7 [.ULV_Q, .ULV_L] [.ULV_Q] h7.nNode (by decide) (by decide) (by decide) (by decide) (by simp [count, S7.keeps.same.nNode])
    (by simp [H.ql])
  obtain ⟨h9, e9, S9⟩ := stage_step H S8 [.y0, .y1] [.y0, .y1] h8.nNode (by decide) (by decide) (by decide) (by decide) (by simp [count, S8.keeps.same.nNode])
    (by simp [H.yy])
  obtain ⟨h10, e10, S10⟩ := stage_step H S9 [.tb] [.tb] h9.nThread (by decide) (by decide) (by decide) (by decide) (by simp [count, S9.keeps.same.nThread]) (by simp)
  obtain ⟨h11, e11, R11, -⟩ := rem_free S10.rem (s := .one .self) (Or.inl rfl) rfl false
  refine ⟨h11, ?_, ?_⟩
  · unfold destroy
    have e1' : plain.foldlM (fun h f => free h (.one f)) h = .ok h1 := by
      rw [← e1]; exact foldlM_map' (drop1 false) Slot.one plain h
    have e2' : [Fld.upward_tq, .B_blk, .D_blk0, .D_blk1].foldlM (fun h f => release h (.one f)) h1 = .ok h2 := by
      rw [← e2]; exact foldlM_map' (drop1 true) Slot.one _ h1
    rw [e1', Res.bind_ok, e2', Res.bind_ok, e3, Res.bind_ok, e4, Res.bind_ok, e5, Res.bind_ok, e6, Res.bind_ok, e7, Res.bind_ok, e8, Res.bind_ok, e9, Res.bind_ok, e10,
      Res.bind_ok]
    exact e11
  · rw [Finset.eq_empty_iff_forall_notMem]
    intro b hb
    obtain ⟨s, ⟨h1 | ⟨c, _, h2⟩, h3⟩, _⟩ := R11.owned b hb
    · exact h3 h1
    · exact h2 (by cases c <;> decide)

/-! ## Calls -/

/-- A handle on which the resources `done` have been created, each once. -/
structure Own (done : List Kind) (h : Heap) : Prop extends Complete h where
  null : ∀ (s : Slot) (k : Kind), kindOf s.grp = some k → k ∉ done → h.ptr s = none
  yb : h.ptr (.arr .y0) ≠ none → Kind.mat ∈ done
  ord1 : Kind.mat ∈ done → Kind.part ∈ done
  ord2 : Kind.fact ∈ done → Kind.mat ∈ done

/-- A new resource. -/
theorem own_adds {done : List Kind} {h : Heap} (H : Own done h) {ks : List Kind} (hk : ∀ k ∈ ks, k ∉ done) (L : List Op) (hp : ∀ o ∈ L, o.pure = true) (hd : (L.map Op.grp).Nodup)
    (hkind : ∀ o ∈ L, ∃ k ∈ ks, kindOf o.grp = some k) (nNode nUJ : Nat)
    (hcnt : ∀ c n p, Op.con c n p ∈ L → n = count { h with nNode := nNode, nUJ := nUJ } c)
    (hold : ∀ c, h.ptr (.arr c) ≠ none → Grp.con c ∉ L.map Op.grp → count { h with nNode := nNode, nUJ := nUJ } c = count h c)
    (hql : Grp.con .ULV_Q ∈ L.map Op.grp ↔ Grp.con .ULV_L ∈ L.map Op.grp) (ho1 : .mat ∈ ks → Kind.part ∈ done ++ ks) (ho2 : .fact ∈ ks → Kind.mat ∈ done ++ ks) :
    ∃ h', ops h L = .ok h' ∧ Own (done ++ ks) { h' with nNode := nNode, nUJ := nUJ } := by
  obtain ⟨h', e, T, S, P, C, A, -⟩ := tidy_ops L H.toTidy hp hd (fun o ho s hs => by
    obtain ⟨k, hk1, hk2⟩ := hkind o ho
    exact H.null s k (by rw [hs]; exact hk2) (hk k hk1))
  have hmem : ∀ g, g ∈ L.map Op.grp → ∃ k ∈ ks, kindOf g = some k := by
    intro g hg
    obtain ⟨o, ho, rfl⟩ := List.mem_map.1 hg
    exact hkind o ho
  have hcon : ∀ c, Grp.con c ∈ L.map Op.grp → ∃ n p, Op.con c n p ∈ L := by
    intro c hc
    obtain ⟨o, ho, he⟩ := List.mem_map.1 hc
    cases o with
    | con c' n p => simp only [Op.grp, Grp.con.injEq] at he; subst he; exact ⟨n, p, ho⟩
    | one f => cases he
    | renew f => cases he
  have hcount : ∀ c, count { h' with nNode := nNode, nUJ := nUJ } c = count { h with nNode := nNode, nUJ := nUJ } c := by
    intro c
    cases c <;> simp [count, S.nThread]
  have harr : ∀ c, Grp.con c ∈ L.map Op.grp → h'.ptr (.arr c) ≠ none := by
    intro c hc
    obtain ⟨n, p, hm⟩ := hcon c hc
    exact (A c n p hm).1
  have hy : ∀ c, kindC c = none → h'.ptr (.arr c) = h.ptr (.arr c) := by
    intro c hc
    refine P (.arr c) (fun hm => ?_)
    obtain ⟨k, _, this⟩ := hmem _ hm
    change kindC c = some k at this
    rw [hc] at this; cases this
  refine ⟨h', e, ⟨⟨⟨⟨T.inj, T.live, T.fresh⟩, T.owned, T.els⟩, fun c hc => ?_, ?_, ?_, ?_⟩, fun s k' hk' hn => ?_, fun hh => ?_, fun hm => ?_, fun hm => ?_⟩⟩
  · rw [hcount]
    by_cases hm : Grp.con c ∈ L.map Op.grp
    · obtain ⟨n, p, hm'⟩ := hcon c hm
      exact ((A c n p hm').2).trans (hcnt c n p hm')
    · have hc' : h.ptr (.arr c) ≠ none := by
        have h0 : h'.ptr (.arr c) ≠ none := hc
        rwa [P (.arr c) hm] at h0
      rw [hold c hc' hm]
      exact (C c hm).trans (H.caps c hc')
  · show h'.ptr _ = none ↔ h'.ptr _ = none
    by_cases hm : Grp.con .ULV_Q ∈ L.map Op.grp
    · have := harr _ hm
      have := harr _ (hql.1 hm)
      simp_all
    · rw [P (.arr .ULV_Q) hm, P (.arr .ULV_L) (fun h => hm (hql.2 h))]
      exact H.ql
  · show h'.ptr _ = none ↔ h'.ptr _ = none
    rw [hy _ rfl, hy _ rfl]; exact H.yy
  · show h'.ptr (.one .self) ≠ none
    rw [P (.one .self) (fun hm => by obtain ⟨k, _, this⟩ := hmem _ hm; cases this)]
    exact H.self
  · show h'.ptr s = none
    rw [List.mem_append, not_or] at hn
    rw [P s (fun hm => by
      obtain ⟨k, hk1, this⟩ := hmem _ hm
      rw [hk'] at this
      simp only [Option.some.injEq] at this
      exact hn.2 (this ▸ hk1))]
    exact H.null s k' hk' hn.1
  · have h0 : h'.ptr (.arr .y0) ≠ none := hh
    rw [hy _ rfl] at h0
    exact List.mem_append.2 (Or.inl (H.yb h0))
  · rcases List.mem_append.1 hm with hm | hm
    · exact List.mem_append.2 (Or.inl (H.ord1 hm))
    · exact ho1 hm
  · rcases List.mem_append.1 hm with hm | hm
    · exact List.mem_append.2 (Or.inl (H.ord2 hm))
    · exact ho2 hm

/-- One new resource. -/
theorem own_add {done : List Kind} {h : Heap} (H : Own done h) {k : Kind} (hk : k ∉ done) (L : List Op) (hp : ∀ o ∈ L, o.pure = true) (hd : (L.map Op.grp).Nodup)
    (hkind : ∀ o ∈ L, kindOf o.grp = some k) (nNode nUJ : Nat)
    (hcnt : ∀ c n p, Op.con c n p ∈ L → n = count { h with nNode := nNode, nUJ := nUJ } c)
    (hold : ∀ c, h.ptr (.arr c) ≠ none → Grp.con c ∉ L.map Op.grp → count { h with nNode := nNode, nUJ := nUJ } c = count h c)
    (hql : Grp.con .ULV_Q ∈ L.map Op.grp ↔ Grp.con .ULV_L ∈ L.map Op.grp) (ho1 : k = .mat → Kind.part ∈ done) (ho2 : k = .fact → Kind.mat ∈ done) :
    ∃ h', ops h L = .ok h' ∧ Own (done ++ [k]) { h' with nNode := nNode, nUJ := nUJ } :=
  own_adds H (ks := [k]) (by simpa using hk) L hp hd (fun o ho => ⟨k, by simp, hkind o ho⟩) nNode nUJ hcnt hold hql
    (fun h => List.mem_append.2 (Or.inl (ho1 (List.mem_singleton.1 h).symm))) (fun h => List.mem_append.2 (Or.inl (ho2 (List.mem_singleton.1 h).symm)))

/-- The same without a change of the counters. -/
theorem own_add' {done : List Kind} {h : Heap} (H : Own done h) {k : Kind} (hk : k ∉ done) (L : List Op) (hp : ∀ o ∈ L, o.pure = true) (hd : (L.map Op.grp).Nodup)
    (hkind : ∀ o ∈ L, kindOf o.grp = some k) (hcnt : ∀ c n p, Op.con c n p ∈ L → n = count h c)
    (hql : Grp.con .ULV_Q ∈ L.map Op.grp ↔ Grp.con .ULV_L ∈ L.map Op.grp) (ho1 : k = .mat → Kind.part ∈ done) (ho2 : k = .fact → Kind.mat ∈ done) :
    ∃ h', ops h L = .ok h' ∧ Own (done ++ [k]) h' := by
  obtain ⟨h', e, O⟩ := own_add H hk L hp hd hkind h.nNode h.nUJ hcnt (fun _ _ _ => rfl) hql ho1 ho2
  refine ⟨h', e, ?_⟩
  have S := same_ops e
  have : ({ h' with nNode := h.nNode, nUJ := h.nUJ } : Heap) = h' := by
    rw [← S.nNode, ← S.nUJ]
  rwa [this] at O

/-- The buffers of the products. -/
theorem own_prod {done : List Kind} {h : Heap} (H : Own done h) (hm : Kind.mat ∈ done) : ∃ h', ops h (prodOps h) = .ok h' ∧ Own done h' := by
  by_cases h0 : h.ptr (.arr .y0) = none
  · have h1 := H.yy.1 h0
    have hL : prodOps h = [.con .y0 h.nNode every, .con .y1 h.nNode every] := by simp [prodOps, h0, h1]
    rw [hL]
    have hnone : ∀ c, (c = .y0 ∨ c = .y1) → ∀ s : Slot, s.grp = .con c → h.ptr s = none := by
      intro c hc s hs
      have ha : h.ptr (.arr c) = none := by rcases hc with rfl | rfl <;> assumption
      cases s with
      | one f => cases hs
      | arr c' => simp only [Slot.grp, Grp.con.injEq] at hs; rw [hs]; exact ha
      | el c' i =>
        simp only [Slot.grp, Grp.con.injEq] at hs
        subst hs
        by_contra hne
        exact (H.els _ i hne).1 ha
    obtain ⟨h', e, T, S, P, C, A, -⟩ := tidy_ops [.con .y0 h.nNode every, .con .y1 h.nNode every] H.toTidy (by simp [Op.pure]) (by simp [Op.grp]) (by
      intro o ho s hs
      simp only [List.mem_cons, List.not_mem_nil, or_false] at ho
      rcases ho with rfl | rfl
      · exact hnone _ (Or.inl rfl) s hs
      · exact hnone _ (Or.inr rfl) s hs)
    have hc : ∀ c, count h' c = count h c := by intro c; cases c <;> simp [count, S.nThread, S.nNode, S.nUJ]
    have hP : ∀ s : Slot, s.grp ≠ .con .y0 → s.grp ≠ .con .y1 → h'.ptr s = h.ptr s := fun s a b => P s (by simp [Op.grp, a, b])
    have a0 := A .y0 h.nNode every (by simp)
    have a1 := A .y1 h.nNode every (by simp)
    refine ⟨h', e, ⟨⟨T, fun c hne => ?_, ?_, ?_, ?_⟩, fun s k hk hn => ?_, fun _ => hm, H.ord1, H.ord2⟩⟩
    · rw [hc]
      by_cases c0 : c = .y0
      · subst c0; exact a0.2
      · by_cases c1 : c = .y1
        · subst c1; exact a1.2
        · rw [hP (.arr c) (by simp [Slot.grp, c0]) (by simp [Slot.grp, c1])] at hne
          rw [C c (by simp [Op.grp, c0, c1])]
          exact H.caps c hne
    · rw [hP _ (by simp [Slot.grp]) (by simp [Slot.grp]), hP _ (by simp [Slot.grp]) (by simp [Slot.grp])]; exact H.ql
    · simp [a0.1, a1.1]
    · rw [hP _ (by simp [Slot.grp]) (by simp [Slot.grp])]; exact H.self
    · rw [hP s (by intro he; rw [he] at hk; cases hk) (by intro he; rw [he] at hk; cases hk)]
      exact H.null s k hk hn
  · have h1 : h.ptr (.arr .y1) ≠ none := fun h1 => h0 (H.yy.2 h1)
    have hL : prodOps h = [] := by simp [prodOps, h0, h1]
    rw [hL]
    exact ⟨h, rfl, H⟩

/-- A buffer of the partitioning is replaced. -/
theorem own_renew {done : List Kind} {h h' : Heap} (H : Own done h) {f : Fld} (hf : kindF f = some .part) (hm : Kind.part ∈ done) (e : (Op.renew f).apply h = .ok h') : Own done h' := by
  have S := same_apply e
  have Hc := core_apply H.toCore e
  have hfs : f ≠ .self := by rintro rfl; cases hf
  obtain ⟨k, h1, h2⟩ := bind_inv e
  simp only [Res.ok.injEq] at h2
  have hk : k.ptr = h.ptr ∧ k.cap = h.cap := by rcases free_cases h1 with ⟨_, rfl⟩ | ⟨b, _, _, rfl⟩ <;> exact ⟨rfl, rfl⟩
  have hP : ∀ s, s ≠ .one f → h'.ptr s = h.ptr s := by
    intro s hs
    rw [← h2, malloc_ptr, if_neg hs, hk.1]
  have hC : h'.cap = h.cap := by rw [← h2]; exact hk.2
  have hc : ∀ c, count h' c = count h c := by intro c; cases c <;> simp [count, S.nThread, S.nNode, S.nUJ]
  refine ⟨⟨⟨Hc, fun b hb => ?_, fun c i hi => ?_⟩, fun c hne => ?_, ?_, ?_, ?_⟩, fun s k' hk' hn => ?_, fun hy => ?_, H.ord1, H.ord2⟩
  · rw [← h2] at hb
    simp only [malloc, Finset.mem_insert] at hb
    rcases hb with rfl | hb
    · exact ⟨.one f, by rw [← h2, malloc_ptr, if_pos rfl]⟩
    · have hbl : b ∈ h.live ∧ h.ptr (.one f) ≠ some b := by
        rcases free_cases h1 with ⟨hn, rfl⟩ | ⟨b', hb', _, rfl⟩
        · exact ⟨hb, by rw [hn]; simp⟩
        · simp only [Finset.mem_erase] at hb
          exact ⟨hb.2, by rw [hb']; simp only [ne_eq, Option.some.injEq]; exact fun he => hb.1 he.symm⟩
      obtain ⟨s, hs⟩ := H.owned b hbl.1
      exact ⟨s, by rw [hP s (by rintro rfl; exact hbl.2 hs)]; exact hs⟩
  · rw [hP _ (by simp)] at hi
    rw [hP _ (by simp), hC]
    exact H.els c i hi
  · rw [hP _ (by simp)] at hne
    rw [hC, hc]; exact H.caps c hne
  · rw [hP _ (by simp), hP _ (by simp)]; exact H.ql
  · rw [hP _ (by simp), hP _ (by simp)]; exact H.yy
  · rw [hP _ (by simpa using hfs.symm)]; exact H.self
  · have hne : s ≠ .one f := by
      rintro rfl
      have : kindF f = some k' := hk'
      rw [hf] at this
      simp only [Option.some.injEq] at this
      exact hn (this ▸ hm)
    rw [hP s hne]
    exact H.null s k' hk' hn
  · rw [hP _ (by simp)] at hy; exact H.yb hy

/-- Modes do not matter for ownership. -/
theorem own_mode {done : List Kind} {h : Heap} (H : Own done h) (m : Mode) : Own done { h with mode := m } :=
  ⟨⟨⟨⟨H.inj, H.live, H.fresh⟩, H.owned, H.els⟩, fun c hc => by
    have := H.caps c hc
    cases c <;> exact this, H.ql, H.yy, H.self⟩, H.null, H.yb, H.ord1, H.ord2⟩

theorem own_init (dim T : Nat) : Own [] (init dim T) := by
  refine ⟨⟨⟨?_, fun b hb => ?_, fun c i hi => ?_⟩, fun c hc => ?_, ?_, ?_, ?_⟩, fun s k hk hn => ?_, fun h => ?_, by simp, by simp⟩
  · have H0 : Core ⟨fun _ => none, fun _ => 0, ∅, 0, 0, 0, T, dim, ⟨false, false, false⟩⟩ := ⟨by simp, by simp, by simp⟩
    exact core_malloc (core_malloc (core_malloc (core_malloc H0 _) _) _) _
  · simp only [init, List.foldl_cons, List.foldl_nil, malloc, Finset.mem_insert, Finset.notMem_empty, or_false] at hb
    rcases hb with rfl | rfl | rfl | rfl
    · exact ⟨.one .D_blk1, by simp [init, malloc_ptr]; rfl⟩
    · exact ⟨.one .D_blk0, by simp [init, malloc_ptr]; rfl⟩
    · exact ⟨.one .B_blk, by simp [init, malloc_ptr]; rfl⟩
    · exact ⟨.one .self, by simp [init, malloc_ptr]⟩
  · exact absurd rfl hi
  · exact absurd rfl hc
  · exact ⟨fun _ => rfl, fun _ => rfl⟩
  · exact ⟨fun _ => rfl, fun _ => rfl⟩
  · simp [init, malloc_ptr]
  · cases s with
    | one f => cases f <;> first | rfl | cases hk
    | arr c => rfl
    | el c i => rfl
  · exact absurd rfl h

end H2Pack.Life
