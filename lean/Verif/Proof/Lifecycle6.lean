import Verif.Proof.Lifecycle5

/-! # Ordered histories are executed -/

namespace H2Pack.Life

theorem apply_target {h h' : Heap} {o : Op} (e : o.apply h = .ok h') (hs : ∀ s, o.target = s → h'.ptr s ≠ none) {s : Slot} (ht : s ∈ [Slot.arr .tb, .arr .U] ∨ ∃ f, s = .one f)
    (hn : h.ptr s ≠ none) : h'.ptr s ≠ none := by
  rcases ht with ht | ⟨f, rfl⟩
  · obtain ⟨c, rfl⟩ : ∃ c, s = .arr c := by
      simp only [List.mem_cons, List.not_mem_nil, or_false] at ht
      rcases ht with rfl | rfl <;> exact ⟨_, rfl⟩
    by_cases hc : o.target = .arr c
    · exact hs _ hc
    · cases o with
      | one f => simp only [Op.apply, Res.ok.injEq] at e; subst e; rw [malloc_ptr, if_neg (by simp)]; exact hn
      | con c' n p =>
        simp only [Op.apply, Res.ok.injEq] at e; subst e
        rw [mallocCon_ptr]
        · exact hn
        · intro he
          simp only [Slot.grp, Grp.con.injEq] at he
          exact hc (by rw [Op.target, he])
      | renew f => rw [same_renew e]; exact hn
  · exact keep_apply e hn

theorem apply_set {h h' : Heap} {o : Op} (e : o.apply h = .ok h') : h'.ptr o.target ≠ none := by
  cases o with
  | one f => simp only [Op.apply, Res.ok.injEq] at e; subst e; rw [Op.target, malloc_ptr, if_pos rfl]; simp
  | con c n p => simp only [Op.apply, Res.ok.injEq] at e; subst e; exact mallocCon_arr _ _ _ _
  | renew f =>
    obtain ⟨k, h1, h2⟩ := bind_inv e
    simp only [Res.ok.injEq] at h2
    rw [← h2, Op.target, malloc_ptr, if_pos rfl]; simp

/-- The pointer is a field or one of two arrays. -/
def Plain (s : Slot) : Prop := s ∈ [Slot.arr .tb, .arr .U] ∨ ∃ f, s = .one f

theorem apply_keep {h h' : Heap} {o : Op} (e : o.apply h = .ok h') {s : Slot} (ht : Plain s) (hn : h.ptr s ≠ none) : h'.ptr s ≠ none :=
  apply_target e (fun _ hs => hs ▸ apply_set e) ht hn

theorem ops_keep {h h' : Heap} {L : List Op} (e : ops h L = .ok h') {s : Slot} (ht : Plain s) (hn : h.ptr s ≠ none) : h'.ptr s ≠ none :=
  foldlM_inv (fun h => h.ptr s ≠ none) (fun _ _ _ _ hs e => apply_keep e ht hs) hn e

theorem ops_set {h h' : Heap} {L : List Op} (e : ops h L = .ok h') {s : Slot} (ht : Plain s) (hm : s ∈ L.map Op.target) : h'.ptr s ≠ none := by
  induction L generalizing h with
  | nil => simp at hm
  | cons o L ih =>
    obtain ⟨u, h1, h2⟩ := foldlM_ok e
    rcases List.mem_cons.1 hm with rfl | hm
    · exact ops_keep h2 ht (apply_set h1)
    · exact ih h2 hm

theorem Eff.keeps {a b : Heap} {L : List Op} (E : Eff a L b) {s : Slot} (ht : Plain s) (H : a.ptr s ≠ none) : b.ptr s ≠ none := by
  induction E with
  | nil h => exact H
  | ops e => exact ops_keep e ht H
  | ctr h n u m => exact H
  | trans _ _ i1 i2 => exact i2 (i1 H)

theorem Eff.sets {a b : Heap} {L : List Op} (E : Eff a L b) {s : Slot} (ht : Plain s) (hm : s ∈ L.map Op.target) : b.ptr s ≠ none := by
  induction E with
  | nil h => simp at hm
  | ops e => exact ops_set e ht hm
  | ctr h n u m => simp at hm
  | trans _ e2 i1 i2 =>
    rw [List.map_append, List.mem_append] at hm
    rcases hm with h1 | h1
    · exact e2.keeps ht (i1 h1)
    · exact i2 h1

theorem apply_total {h : Heap} (H : Core h) (hs : h.ptr (.one .self) ≠ none) (o : Op) : ∃ h', o.apply h = .ok h' := by
  cases o with
  | one f => exact ⟨_, rfl⟩
  | con c n p => exact ⟨_, rfl⟩
  | renew f =>
    have ha : alive h (.one .self) = true := by
      obtain ⟨b, hb⟩ := Option.ne_none_iff_exists'.1 hs
      simp [alive, hb, H.live _ b hb]
    have hr : readable h (.one f) = true := by cases f <;> first | rfl | exact ha
    have : ∃ k, free h (.one f) = .ok k := by
      unfold free
      rw [if_pos hr]
      cases hp : h.ptr (.one f) with
      | none => exact ⟨_, rfl⟩
      | some b => exact ⟨_, if_pos (H.live _ b hp)⟩
    obtain ⟨k, hk⟩ := this
    exact ⟨_, by simp only [Op.apply]; rw [hk]; rfl⟩

theorem ops_total (L : List Op) {h : Heap} (H : Core h) (hs : h.ptr (.one .self) ≠ none) : ∃ h', ops h L = .ok h' := by
  induction L generalizing h with
  | nil => exact ⟨h, rfl⟩
  | cons o L ih =>
    obtain ⟨u, hu⟩ := apply_total H hs o
    obtain ⟨h', e⟩ := ih (core_apply H hu) (keep_apply hu hs)
    refine ⟨h', ?_⟩
    unfold ops at e ⊢
    rw [List.foldlM_cons, hu, Res.bind_ok]
    exact e

/-- What the calls read is there. -/
structure Ready (done : List Kind) (per : Bool) (h : Heap) : Prop where
  core : Core h
  self : h.ptr (.one .self) ≠ none
  reqs : ∀ k ∈ done, ∀ s ∈ reqs k, h.ptr s ≠ none
  per : per = true → h.ptr (.one .per_adm_shifts) ≠ none

theorem reqs_plain {k : Kind} {s : Slot} (hs : s ∈ H2Pack.Life.reqs k) : Plain s := by
  cases k <;> simp [H2Pack.Life.reqs] at hs
  · rcases hs with rfl | rfl | rfl
    · exact Or.inl (by simp)
    · exact Or.inr ⟨_, rfl⟩
    · exact Or.inr ⟨_, rfl⟩
  · rcases hs with rfl | rfl | rfl <;> exact Or.inr ⟨_, rfl⟩
  · rcases hs with rfl | rfl
    · exact Or.inl (by simp)
    · exact Or.inr ⟨_, rfl⟩

theorem Ready.has {done : List Kind} {per : Bool} {h : Heap} (R : Ready done per h) {k : Kind} (hk : k ∈ done) {s : Slot} (hs : s ∈ H2Pack.Life.reqs k) : has h s = true := by
  have := R.reqs k hk s hs
  obtain ⟨b, hb⟩ := Option.ne_none_iff_exists'.1 this
  simp [H2Pack.Life.has, hb]

theorem has_of {h : Heap} {s : Slot} (hs : h.ptr s ≠ none) : has h s = true := by
  obtain ⟨b, hb⟩ := Option.ne_none_iff_exists'.1 hs
  simp [has, hb]

theorem build_total {h : Heap} (H : Core h) (hs : h.ptr (.one .self) ≠ none) (j p : Bool) : ∃ h', build h j p = .ok h' := by
  obtain ⟨k, e⟩ := ops_total (matOps h.nNode j p) H hs
  exact ⟨_, by unfold build; rw [e]; rfl⟩

/-- A call whose needs are met is executed. -/
theorem exec_total {done : List Kind} {per : Bool} {h : Heap} (R : Ready done per h) (c : Call) (hn : ∀ k ∈ needs h.mode c, k ∈ done) (hp : isPer c = true → per = true) :
    ∃ h', exec h c = .ok h' := by
  have guard : ∀ {P : Prop} [Decidable P] {x : Res Heap}, P → (∃ k, x = .ok k) → ∃ k, (if P then x else .ub) = .ok k := by
    intro P _ x hP hx; rw [if_pos hP]; exact hx
  have tot : ∀ L, ∃ h', ops h L = .ok h' := fun L => ops_total L R.core R.self
  have prodOk : ∀ k : Heap, Core k → k.ptr (.one .self) ≠ none → (∀ s, Plain s → h.ptr s ≠ none → k.ptr s ≠ none) → k.mode = h.mode → ∀ pp : Bool, (pp = true → per = true) →
      (∀ x ∈ (if h.mode.hss then [Kind.mat, .pairs] else [.mat]), x ∈ done) →
      ∃ k', (if (H2Pack.Life.has k (.arr .U) && H2Pack.Life.has k (.one (if k.mode.hss then .node_n_r_inadm else .node_n_r_adm)) && (!pp || H2Pack.Life.has k (.one .per_adm_shifts))) = true
        then ops k (prodOps k) else .ub) = .ok k' := by
    intro k kc ks kk km pp hpp hx
    refine guard ?_ (ops_total _ kc ks)
    have hU : H2Pack.Life.has k (.arr .U) = true := has_of (kk _ (Or.inl (by simp)) (R.reqs .mat (hx _ (by split <;> simp)) _ (by simp [H2Pack.Life.reqs])))
    have hN : H2Pack.Life.has k (.one (if k.mode.hss then .node_n_r_inadm else .node_n_r_adm)) = true := by
      rw [km]
      split
      · rename_i hh
        rw [if_pos hh] at hx
        exact has_of (kk _ (Or.inr ⟨_, rfl⟩) (R.reqs .pairs (hx _ (by simp)) _ (by simp [H2Pack.Life.reqs])))
      · exact has_of (kk _ (Or.inr ⟨_, rfl⟩) (R.reqs .mat (hx _ (by split <;> simp)) _ (by simp [H2Pack.Life.reqs])))
    have hS : (!pp || H2Pack.Life.has k (.one .per_adm_shifts)) = true := by
      cases pp with
      | false => rfl
      | true => simpa using has_of (kk _ (Or.inr ⟨_, rfl⟩) (R.per (hpp rfl)))
    rw [hU, hN, hS]; rfl
  cases c with
  | enclosingBox => exact tot _
  | runHSS => exact ⟨_, rfl⟩
  | runRPY => exact ⟨_, rfl⟩
  | runEwald =>
    simp only [exec]
    split
    · exact ⟨_, rfl⟩
    · split
      · exact ops_total _ (Eff.core (.ctr h h.nNode h.nUJ _) R.core) R.self
      · split
        · exact ops_total _ (Eff.core (.ctr h h.nNode h.nUJ _) R.core) R.self
        · exact ⟨_, rfl⟩
  | partition n =>
    obtain ⟨u, e⟩ := tot (partOps h.nThread false)
    simp only [exec]
    rw [e, Res.bind_ok]
    split
    · exact ops_total _ (Eff.core (.ctr u n u.nUJ u.mode) (core_ops R.core e)) (keep_ops e R.self)
    · exact ⟨_, rfl⟩
  | partitionPer n =>
    obtain ⟨u, e⟩ := tot (partOps h.nThread true)
    simp only [exec]
    rw [e, Res.bind_ok]
    exact ⟨_, rfl⟩
  | hssPairs => exact guard (R.has (hn .part (by simp [needs])) (by simp [H2Pack.Life.reqs])) (tot _)
  | build a j =>
    simp only [exec]
    by_cases ha : a = true
    · rw [if_pos ha]
      simp only [needs, ha, if_true] at hn
      refine guard ?_ (build_total R.core R.self _ _)
      rw [R.has (hn .part (by split <;> simp)) (s := .arr .tb) (by simp [H2Pack.Life.reqs]), Bool.true_and]
      split
      · rename_i hh
        rw [if_pos hh] at hn
        rw [R.has (hn .pairs (by simp)) (s := .one .node_inadm_lists) (by simp [H2Pack.Life.reqs]), R.has (hn .pairs (by simp)) (s := .one .HSS_r_adm_pairs) (by simp [H2Pack.Life.reqs])]
        rfl
      · exact R.has (hn .part (by split <;> simp)) (by simp [H2Pack.Life.reqs])
    · rw [if_neg ha]; exact ⟨_, rfl⟩
  | buildPer a j =>
    simp only [exec]
    by_cases ha : (a && j) = true
    · rw [if_pos ha]
      simp only [needs] at hn
      rw [if_pos ha] at hn
      refine guard ?_ (build_total R.core R.self _ _)
      rw [R.has (hn .part (by split <;> simp)) (s := .arr .tb) (by simp [H2Pack.Life.reqs]), R.has (hn .part (by split <;> simp)) (s := .one .upward_tq) (by simp [H2Pack.Life.reqs])]
      cases hh : h.mode.hss with
      | false => rfl
      | true =>
        rw [hh] at hn
        rw [R.has (hn .pairs (by simp)) (s := .one .HSS_r_adm_pairs) (by simp [H2Pack.Life.reqs])]; rfl
    · rw [if_neg ha]; exact ⟨_, rfl⟩
  | buildSample a j =>
    simp only [exec]
    by_cases ha : a = true
    · rw [if_pos ha]
      simp only [needs, ha, if_true] at hn
      refine guard ?_ (build_total R.core R.self _ _)
      rw [R.has (hn .part (by split <;> simp)) (s := .arr .tb) (by simp [H2Pack.Life.reqs]), R.has (hn .part (by split <;> simp)) (s := .one .upward_tq) (by simp [H2Pack.Life.reqs])]
      cases hh : h.mode.hss with
      | false => rfl
      | true =>
        rw [hh] at hn
        rw [R.has (hn .pairs (by simp)) (s := .one .HSS_r_adm_pairs) (by simp [H2Pack.Life.reqs])]; rfl
    · rw [if_neg ha]; exact ⟨_, rfl⟩
  | matvec pp =>
    simp only [exec]
    exact prodOk h R.core R.self (fun _ _ h => h) rfl pp hp (by simpa only [needs] using hn)
  | matmul pp nvec =>
    obtain ⟨u, e⟩ := tot [.renew .pmt_x, .renew .pmt_y]
    simp only [exec]
    rw [e, Res.bind_ok]
    by_cases h0 : nvec = 0
    · rw [if_pos h0]; exact ⟨_, rfl⟩
    · rw [if_neg h0]
      simp only [needs] at hn
      rw [if_neg h0] at hn
      exact prodOk u (core_ops R.core e) (keep_ops e R.self) (fun s hs hh => ops_keep e hs hh) (same_ops e).mode pp hp hn
  | lu a b c d =>
    simp only [exec]
    by_cases ha : h.mode.hss = true
    · rw [if_pos ha]
      simp only [needs, ha, if_true] at hn
      exact guard (R.has (hn .mat (by simp)) (by simp [H2Pack.Life.reqs])) (tot _)
    · rw [if_neg ha]; exact ⟨_, rfl⟩
  | chol a b c =>
    simp only [exec]
    by_cases ha : h.mode.hss = true
    · rw [if_pos ha]
      simp only [needs, ha, if_true] at hn
      exact guard (R.has (hn .mat (by simp)) (by simp [H2Pack.Life.reqs])) (tot _)
    · rw [if_neg ha]; exact ⟨_, rfl⟩
  | solve => exact ⟨_, rfl⟩

theorem exec_ready {done : List Kind} {per : Bool} {h h' : Heap} {c : Call} (R : Ready done per h) (e : exec h c = .ok h') :
    Ready (done ++ makes h.dim h.mode c) (per || isPartPer c) h' := by
  obtain ⟨L, E, hL⟩ := exec_eff e
  refine ⟨E.core R.core, E.keep R.self, fun k hk s hs => ?_, fun hp => ?_⟩
  · rcases List.mem_append.1 hk with hk | hk
    · exact E.keeps (reqs_plain hs) (R.reqs k hk s hs)
    · exact E.sets (reqs_plain hs) ((hL k hk).2 s hs)
  · rw [Bool.or_eq_true] at hp
    rcases hp with hp | hp
    · exact E.keep (R.per hp)
    · cases c with
      | partitionPer n =>
        obtain ⟨u, e1, e2⟩ := bind_inv e
        simp only [Res.ok.injEq] at e2; subst e2
        have := set_ops e1 (f := .per_adm_shifts) (by simp [partOps])
        exact this
      | _ => cases hp

/-- An ordered history is executed. -/
theorem run_total (cs : List Call) {done : List Kind} {per : Bool} {h : Heap} (R : Ready done per h) (ho : ordered h.dim h.mode done per cs) : ∃ h', run h cs = .ok h' := by
  induction cs generalizing done per h with
  | nil => exact ⟨h, rfl⟩
  | cons c cs ih =>
    obtain ⟨u, e⟩ := exec_total R c ho.1 ho.2.1
    have hm := mode_exec e
    obtain ⟨h', e'⟩ := ih (exec_ready R e) (by rw [hm.1, hm.2]; exact ho.2.2)
    refine ⟨h', ?_⟩
    unfold run at e' ⊢
    rw [List.foldlM_cons, e, Res.bind_ok]
    exact e'

end H2Pack.Life
