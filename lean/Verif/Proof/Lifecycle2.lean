import Verif.Proof.Lifecycle1

/-! # Handles whose resources have been created at most once: destroying frees everything -/

namespace H2Pack.Life

/-- A field, or an array with its elements. -/
inductive Grp
  | fld (f : Fld)
  | con (c : Con)
deriving DecidableEq

def Slot.grp : Slot → Grp
  | .one f => .fld f
  | .arr c => .con c
  | .el c _ => .con c

def Op.grp : Op → Grp
  | .one f => .fld f
  | .con c _ _ => .con c
  | .renew f => .fld f

/-- The resource a field belongs to (`none`: the handle itself or the buffers of the products). -/
def kindF : Fld → Option Kind
  | .self | .B_blk | .D_blk0 | .D_blk1 => none
  | .root_enbox => some .box
  | .per_lattices => some .lattice
  | .HSS_r_inadm_pairs | .HSS_r_adm_pairs | .node_inadm_lists | .node_n_r_inadm => some .pairs
  | .ULV_Ls => some .fact
  | .node_n_r_adm | .fwd_pmt_idx | .bwd_pmt_idx | .B_p2i_rowptr | .B_p2i_colidx | .B_p2i_val | .D_p2i_rowptr | .D_p2i_colidx | .D_p2i_val
  | .B_nrow | .B_ncol | .D_nrow | .D_ncol | .B_ptr | .D_ptr | .B_data | .D_data | .per_blk => some .mat
  | _ => some .part

def kindC : Con → Option Kind
  | .J | .J_coord | .U => some .mat
  | .ULV_idx | .ULV_p | .ULV_Q | .ULV_L => some .fact
  | .y0 | .y1 => none
  | .tb => some .part

def kindOf : Grp → Option Kind
  | .fld f => kindF f
  | .con c => kindC c

/-- The number of elements `H2P_destroy` expects. -/
def count (h : Heap) : Con → Nat
  | .J | .J_coord | .U => h.nUJ
  | .tb => h.nThread
  | _ => h.nNode

/-- Nothing is lost, and the elements of arrays are in range. -/
structure Tidy (h : Heap) : Prop extends Core h where
  owned : ∀ b ∈ h.live, ∃ s, h.ptr s = some b
  els : ∀ c i, h.ptr (.el c i) ≠ none → h.ptr (.arr c) ≠ none ∧ i < h.cap c

/-- Not an effect that frees. -/
def Op.pure : Op → Bool
  | .renew _ => false
  | _ => true

theorem owned_malloc {h : Heap} (H : ∀ b ∈ h.live, ∃ s, h.ptr s = some b) {s : Slot} (hs : h.ptr s = none) : ∀ b ∈ (malloc h s).live, ∃ t, (malloc h s).ptr t = some b := by
  intro b hb
  simp only [malloc, Finset.mem_insert] at hb
  rcases hb with rfl | hb
  · exact ⟨s, by rw [malloc_ptr, if_pos rfl]⟩
  · obtain ⟨t, ht⟩ := H b hb
    refine ⟨t, ?_⟩
    rw [malloc_ptr, if_neg, ht]
    intro he; rw [he, hs] at ht; cases ht

theorem owned_fill {c : Con} (I : List Nat) {h : Heap} (H : ∀ b ∈ h.live, ∃ s, h.ptr s = some b) (hd : I.Nodup) (hI : ∀ i ∈ I, h.ptr (.el c i) = none) :
    ∀ b ∈ (I.foldl (fun h i => malloc h (.el c i)) h).live, ∃ t, (I.foldl (fun h i => malloc h (.el c i)) h).ptr t = some b := by
  induction I generalizing h with
  | nil => exact H
  | cons i I ih =>
    rw [List.nodup_cons] at hd
    refine ih (owned_malloc H (hI i List.mem_cons_self)) hd.2 (fun j hj => ?_)
    rw [malloc_ptr, if_neg]
    · exact hI j (List.mem_cons_of_mem _ hj)
    · intro he
      simp only [Slot.el.injEq, true_and] at he
      exact hd.1 (he ▸ hj)

theorem mallocCon_ptr {h : Heap} {c : Con} {n : Nat} {p : Nat → Bool} {s : Slot} (hs : s.grp ≠ .con c) : (mallocCon h c n p).ptr s = h.ptr s := by
  unfold mallocCon
  rw [fill_ptr _ _ _ _ (by rintro i _ rfl; exact hs rfl), mallocArr_eq, malloc_ptr, if_neg (by rintro rfl; exact hs rfl)]
  cases s with
  | el c' i => simp only [cleared]; rw [if_neg (by rintro rfl; exact hs rfl)]
  | _ => rfl

theorem mallocCon_arr (h : Heap) (c : Con) (n : Nat) (p : Nat → Bool) : (mallocCon h c n p).ptr (.arr c) ≠ none := by
  unfold mallocCon
  rw [fill_ptr _ _ _ _ (by simp), mallocArr_eq, malloc_ptr, if_pos rfl]
  simp

theorem mallocCon_cap (h : Heap) (c : Con) (n : Nat) (p : Nat → Bool) : (mallocCon h c n p).cap = Function.update h.cap c n := by
  unfold mallocCon
  rw [(fill_same _ _ _).2]
  rfl

theorem mallocCon_el {h : Heap} {c : Con} {n : Nat} {p : Nat → Bool} {i : Nat} (hi : (mallocCon h c n p).ptr (.el c i) ≠ none) : i < n := by
  by_contra hn
  apply hi
  unfold mallocCon
  rw [fill_ptr, mallocArr_eq, malloc_ptr, if_neg (by simp)]
  · simp [cleared]
  · intro j hj he
    simp only [List.mem_filter, List.mem_range] at hj
    simp only [Slot.el.injEq, true_and] at he
    omega

/-- One allocation for a field or array that was `NULL`. -/
theorem tidy_apply {h : Heap} (H : Tidy h) {o : Op} (hp : o.pure = true) (hn : ∀ s : Slot, s.grp = o.grp → h.ptr s = none) :
    ∃ h', o.apply h = .ok h' ∧ Tidy h' ∧ Same h h' ∧ (∀ s : Slot, s.grp ≠ o.grp → h'.ptr s = h.ptr s) ∧ (∀ c, o.grp ≠ .con c → h'.cap c = h.cap c) ∧
      (∀ c n p, o = .con c n p → h'.ptr (.arr c) ≠ none ∧ h'.cap c = n) ∧ ∀ f, o = .one f → h'.ptr (.one f) ≠ none := by
  cases o with
  | renew f => cases hp
  | one f =>
    refine ⟨_, rfl, ⟨core_malloc H.toCore _, owned_malloc H.owned (hn _ rfl), fun c i hi => ?_⟩, ⟨rfl, rfl, rfl, rfl, rfl⟩, fun s hs => ?_, fun _ _ => rfl, by simp, fun g hg => ?_⟩
    · rw [malloc_ptr, if_neg (by simp)] at hi ⊢
      exact H.els c i hi
    · rw [malloc_ptr, if_neg]
      rintro rfl; exact hs rfl
    · simp only [Op.one.injEq] at hg
      subst hg
      simp [malloc_ptr]
  | con c n p =>
    have hcl : ∀ s, (cleared h c n).ptr s = h.ptr s := by
      intro s
      rcases cleared_ptr h c n s with e | e
      · cases s with
        | el c' i =>
          by_cases hc : c' = c
          · subst hc; rw [e, hn _ rfl]
          · simp [cleared, hc]
        | _ => rfl
      · exact e
    refine ⟨_, rfl, ⟨core_mallocCon H.toCore c n p, ?_, fun c' i hi => ?_⟩, Same.trans (b := mallocArr h c n) ⟨rfl, rfl, rfl, rfl, rfl⟩ (fill_same _ _ _).1,
      fun s hs => mallocCon_ptr hs, fun c' hc => ?_, fun c' n' p' he => ?_, by simp⟩
    · refine owned_fill _ (owned_malloc (h := cleared h c n) (fun b hb => ?_) ?_) (List.Nodup.filter _ List.nodup_range) (fun i _ => ?_)
      · obtain ⟨s, hs⟩ := H.owned b hb
        exact ⟨s, (hcl s).trans hs⟩
      · rw [hcl]; exact hn _ rfl
      · rw [mallocArr_eq, malloc_ptr, if_neg (by simp), hcl]; exact hn _ rfl
    · rw [mallocCon_cap]
      by_cases hc : c' = c
      · subst hc
        exact ⟨mallocCon_arr h _ n p, by rw [Function.update_self]; exact mallocCon_el hi⟩
      · rw [mallocCon_ptr (by simp [Slot.grp, hc])] at hi ⊢
        rw [Function.update_of_ne hc]
        exact H.els c' i hi
    · rw [mallocCon_cap, Function.update_of_ne]
      rintro rfl; exact hc rfl
    · simp only [Op.con.injEq] at he
      obtain ⟨rfl, rfl, rfl⟩ := he
      exact ⟨mallocCon_arr h c n p, by rw [mallocCon_cap, Function.update_self]⟩

/-- Allocations for different fields and arrays that were all `NULL`. -/
theorem tidy_ops (L : List Op) {h : Heap} (H : Tidy h) (hp : ∀ o ∈ L, o.pure = true) (hd : (L.map Op.grp).Nodup) (hn : ∀ o ∈ L, ∀ s : Slot, s.grp = o.grp → h.ptr s = none) :
    ∃ h', ops h L = .ok h' ∧ Tidy h' ∧ Same h h' ∧ (∀ s : Slot, s.grp ∉ L.map Op.grp → h'.ptr s = h.ptr s) ∧ (∀ c, .con c ∉ L.map Op.grp → h'.cap c = h.cap c) ∧
      (∀ c n p, .con c n p ∈ L → h'.ptr (.arr c) ≠ none ∧ h'.cap c = n) ∧ ∀ f, .one f ∈ L → h'.ptr (.one f) ≠ none := by
  induction L generalizing h with
  | nil => exact ⟨h, rfl, H, .refl h, fun _ _ => rfl, fun _ _ => rfl, by simp, by simp⟩
  | cons o L ih =>
    rw [List.map_cons, List.nodup_cons] at hd
    obtain ⟨h1, e1, T1, S1, P1, C1, A1, F1⟩ := tidy_apply H (hp o List.mem_cons_self) (hn o List.mem_cons_self)
    obtain ⟨h2, e2, T2, S2, P2, C2, A2, F2⟩ := ih T1 (fun o' ho' => hp o' (List.mem_cons_of_mem _ ho')) hd.2 (fun o' ho' s hs => by
      rw [P1 s (fun he => hd.1 (List.mem_map.2 ⟨o', ho', hs.symm.trans he⟩))]
      exact hn o' (List.mem_cons_of_mem _ ho') s hs)
    refine ⟨h2, by unfold ops at *; rw [List.foldlM_cons, e1]; exact e2, T2, S1.trans S2, fun s hs => ?_, fun c hc => ?_, fun c n p hm => ?_, fun f hm => ?_⟩
    · rw [List.map_cons, List.mem_cons, not_or] at hs
      exact (P2 s hs.2).trans (P1 s hs.1)
    · rw [List.map_cons, List.mem_cons, not_or] at hc
      exact (C2 c hc.2).trans (C1 c (fun he => hc.1 he.symm))
    · rcases List.mem_cons.1 hm with rfl | hm
      · have hnot : Grp.con c ∉ L.map Op.grp := hd.1
        rw [P2 (.arr c) hnot, C2 _ hnot]
        exact A1 c n p rfl
      · exact A2 c n p hm
    · rcases List.mem_cons.1 hm with rfl | hm
      · have hnot : Grp.fld f ∉ L.map Op.grp := hd.1
        rw [P2 (.one f) hnot]
        exact F1 f rfl
      · exact F2 f hm

/-- A handle that `H2P_destroy` can free completely. -/
structure Complete (h : Heap) : Prop extends Tidy h where
  caps : ∀ c, h.ptr (.arr c) ≠ none → h.cap c = count h c
  ql : h.ptr (.arr .ULV_Q) = none ↔ h.ptr (.arr .ULV_L) = none
  yy : h.ptr (.arr .y0) = none ↔ h.ptr (.arr .y1) = none
  self : h.ptr (.one .self) ≠ none

theorem foldlM_append' {β σ : Type} (f : σ → β → Res σ) (L M : List β) (s : σ) : (L ++ M).foldlM f s = L.foldlM f s >>= fun s => M.foldlM f s := by
  induction L generalizing s with
  | nil => rfl
  | cons a L ih =>
    rw [List.cons_append, List.foldlM_cons, List.foldlM_cons]
    cases f s a with
    | ok u => exact ih u
    | ub => rfl
    | diverge => rfl

theorem foldlM_nested {α β σ : Type} (f : σ → β → Res σ) (g : α → List β) (L : List α) (s : σ) :
    L.foldlM (fun s a => (g a).foldlM f s) s = (L.flatMap g).foldlM f s := by
  induction L generalizing s with
  | nil => rfl
  | cons a L ih =>
    rw [List.foldlM_cons, List.flatMap_cons, foldlM_append']
    congr 1
    funext t
    exact ih t

theorem foldlM_map' {α β σ : Type} (f : σ → β → Res σ) (g : α → β) (L : List α) (s : σ) : L.foldlM (fun s a => f s (g a)) s = (L.map g).foldlM f s := by
  induction L generalizing s with
  | nil => rfl
  | cons a L ih =>
    rw [List.foldlM_cons, List.map_cons, List.foldlM_cons]
    congr 1
    funext t
    exact ih t

/-- One block of `H2P_destroy`. -/
theorem destroyCons_spec {P : Slot → Prop} {cs test : List Con} {n : Nat} {h : Heap} (H : Rem P h) (hd : cs.Nodup) (hP : ∀ c ∈ cs, ∀ s : Slot, s.grp = .con c → P s) (hself : P (.one .self))
    (hsn : h.ptr (.one .self) ≠ none) (ht : ∀ c ∈ test, c ∈ cs) (hne : test ≠ []) (hels : ∀ c ∈ cs, ∀ i, h.ptr (.el c i) ≠ none → h.ptr (.arr c) ≠ none ∧ i < h.cap c)
    (hcap : ∀ c ∈ cs, h.ptr (.arr c) ≠ none → h.cap c = n) (hall : ∀ c ∈ cs, ∀ d ∈ cs, h.ptr (.arr c) = none → h.ptr (.arr d) = none) :
    ∃ h', destroyCons cs test n h = .ok h' ∧ Rem (fun s => P s ∧ ∀ c ∈ cs, s.grp ≠ .con c) h' ∧ Keeps (fun s => ∃ c ∈ cs, s.grp = .con c) h h' := by
  by_cases hT : test.all (fun c => has h (.arr c)) = true
  · have hsome : ∀ c ∈ cs, h.ptr (.arr c) ≠ none := by
      obtain ⟨d, hdm⟩ := List.exists_mem_of_ne_nil _ hne
      have h1 := List.all_eq_true.1 hT d hdm
      intro c hc h0
      have := hall c hc d (ht d hdm) h0
      simp [has, this] at h1
    obtain ⟨h1, e1, R1, K1⟩ := rem_list true ((List.range n).flatMap fun i => cs.map fun c => .el c i) H (by
        rw [List.nodup_flatMap]
        refine ⟨fun i _ => hd.map (fun a b hab => by simpa using hab), ?_⟩
        refine List.Pairwise.imp_of_mem ?_ (List.nodup_range (n := n))
        intro a b _ _ hab s h1 h2
        obtain ⟨c, _, rfl⟩ := List.mem_map.1 h1
        obtain ⟨d, _, h3⟩ := List.mem_map.1 h2
        simp only [Slot.el.injEq] at h3
        exact hab h3.2.symm) (by
        intro s hs
        obtain ⟨i, hi, hs⟩ := List.mem_flatMap.1 hs
        obtain ⟨c, hc, rfl⟩ := List.mem_map.1 hs
        refine ⟨hP c hc _ rfl, ?_, ?_⟩
        · simp only [inRange]; rw [hcap c hc (hsome c hc)]; exact List.mem_range.1 hi
        · intro t htb
          simp only [base, List.mem_cons, List.not_mem_nil, or_false] at htb
          rcases htb with rfl | rfl
          · exact ⟨hself, by simp, hsn⟩
          · exact ⟨hP c hc _ rfl, by simp, hsome c hc⟩)
    obtain ⟨h2, e2, R2, K2⟩ := rem_list false (cs.map .arr) R1 (hd.map (fun a b hab => by simpa using hab)) (by
        intro s hs
        obtain ⟨c, hc, rfl⟩ := List.mem_map.1 hs
        refine ⟨⟨hP c hc _ rfl, by simp⟩, trivial, ?_⟩
        intro t htb
        simp only [base, List.mem_cons, List.not_mem_nil, or_false] at htb
        subst htb
        exact ⟨⟨hself, by simp⟩, by simp, by rw [K1.ptr _ (by simp)]; exact hsn⟩)
    have hK := K1.trans K2
    refine ⟨h2, ?_, R2.drop (fun s hs => ?_) (fun s h1s h2s => ?_), hK.mono (fun s hs => ?_)⟩
    · unfold destroyCons
      rw [if_pos hT]
      have e1' : (List.range n).foldlM (fun h i => cs.foldlM (fun h c => release h (.el c i)) h) h = .ok h1 := by
        rw [← e1, ← foldlM_nested]
        congr 1
        funext h i
        exact foldlM_map' (drop1 true) (fun c => Slot.el c i) cs h
      have e2' : cs.foldlM (fun h c => free h (.arr c)) h1 = .ok h2 := by
        rw [← e2]
        exact foldlM_map' (drop1 false) Slot.arr cs h1
      rw [e1', Res.bind_ok, e2']
    · refine ⟨⟨hs.1, fun hm => ?_⟩, fun hm => ?_⟩
      · obtain ⟨i, _, hm⟩ := List.mem_flatMap.1 hm
        obtain ⟨c, hc, rfl⟩ := List.mem_map.1 hm
        exact hs.2 c hc rfl
      · obtain ⟨c, hc, rfl⟩ := List.mem_map.1 hm
        exact hs.2 c hc rfl
    · -- an element outside the range
      have : ∃ c ∈ cs, s.grp = .con c := by
        by_contra hno
        exact h2s ⟨h1s.1.1, fun c hc he => hno ⟨c, hc, he⟩⟩
      obtain ⟨c, hc, hg⟩ := this
      cases s with
      | one f => cases hg
      | arr c' =>
        simp only [Slot.grp, Grp.con.injEq] at hg
        exact absurd (List.mem_map.2 ⟨c', hg ▸ hc, rfl⟩) h1s.2
      | el c' i =>
        simp only [Slot.grp, Grp.con.injEq] at hg
        subst hg
        have hni : (Slot.el c' i) ∉ (List.range n).flatMap fun i => cs.map fun c => Slot.el c i := h1s.1.2
        rw [K2.ptr _ (by simp), K1.ptr _ hni]
        by_contra hne'
        have := (hels c' hc i hne').2
        rw [hcap c' hc (hsome c' hc)] at this
        exact hni (List.mem_flatMap.2 ⟨i, List.mem_range.2 this, List.mem_map.2 ⟨c', hc, rfl⟩⟩)
    · rcases hs with hs | hs
      · obtain ⟨i, _, hm⟩ := List.mem_flatMap.1 hs
        obtain ⟨c, hc, rfl⟩ := List.mem_map.1 hm
        exact ⟨c, hc, rfl⟩
      · obtain ⟨c, hc, rfl⟩ := List.mem_map.1 hs
        exact ⟨c, hc, rfl⟩
  · have hnone : ∀ c ∈ cs, h.ptr (.arr c) = none := by
      rw [List.all_eq_true] at hT
      push Not at hT
      obtain ⟨d, hdm, hd'⟩ := hT
      intro c hc
      refine hall d (ht d hdm) c hc ?_
      cases hp : h.ptr (.arr d) with
      | none => rfl
      | some b => simp [has, hp] at hd'
    refine ⟨h, by unfold destroyCons; rw [if_neg hT], H.drop (fun s hs => hs.1) (fun s h1 h2 => ?_), .refl _ h⟩
    have : ∃ c ∈ cs, s.grp = .con c := by
      by_contra hno
      exact h2 ⟨h1, fun c hc he => hno ⟨c, hc, he⟩⟩
    obtain ⟨c, hc, hg⟩ := this
    cases s with
    | one f => cases hg
    | arr c' => simp only [Slot.grp, Grp.con.injEq] at hg; exact hnone c' (hg ▸ hc)
    | el c' i =>
      simp only [Slot.grp, Grp.con.injEq] at hg
      subst hg
      by_contra hne'
      exact (hels c' hc i hne').1 (hnone c' hc)

end H2Pack.Life
