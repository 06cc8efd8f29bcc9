import Verif.Model.Lifecycle
import Mathlib.Data.List.Perm.Basic

/-! # Lemmas on the heap of a handle: allocation, lost blocks, release -/

namespace H2Pack.Life

/-- Pointers are to different allocated blocks. -/
structure Core (h : Heap) : Prop where
  inj : ∀ s s' b, h.ptr s = some b → h.ptr s' = some b → s = s'
  live : ∀ s b, h.ptr s = some b → b ∈ h.live
  fresh : ∀ b ∈ h.live, b < h.next

/-- Counters and flags agree. -/
structure Same (h h' : Heap) : Prop where
  nNode : h'.nNode = h.nNode
  nUJ : h'.nUJ = h.nUJ
  nThread : h'.nThread = h.nThread
  dim : h'.dim = h.dim
  mode : h'.mode = h.mode

theorem Same.refl (h : Heap) : Same h h := ⟨rfl, rfl, rfl, rfl, rfl⟩
theorem Same.trans {a b c : Heap} (h : Same a b) (k : Same b c) : Same a c :=
  ⟨k.1.trans h.1, k.2.trans h.2, k.3.trans h.3, k.4.trans h.4, k.5.trans h.5⟩

/-- An allocated block no pointer leads to. -/
def Lost (b : Nat) (h : Heap) : Prop := b ∈ h.live ∧ b < h.next ∧ ∀ s, h.ptr s ≠ some b

theorem malloc_ptr (h : Heap) (s t : Slot) : (malloc h s).ptr t = if t = s then some h.next else h.ptr t := by
  simp [malloc, Function.update_apply]

theorem core_malloc {h : Heap} (H : Core h) (s : Slot) : Core (malloc h s) := by
  have hn : ∀ t b, h.ptr t = some b → b ≠ h.next := fun t b hb => by
    have := H.fresh b (H.live t b hb); omega
  refine ⟨fun t t' b h1 h2 => ?_, fun t b h1 => ?_, fun b hb => ?_⟩
  · rw [malloc_ptr] at h1 h2
    split at h1 <;> split at h2
    · rename_i e1 e2; rw [e1, e2]
    · simp only [Option.some.injEq] at h1
      exact absurd h1.symm (hn _ _ h2)
    · simp only [Option.some.injEq] at h2
      exact absurd h2.symm (hn _ _ h1)
    · exact H.inj t t' b h1 h2
  · rw [malloc_ptr] at h1
    split at h1
    · simp only [Option.some.injEq] at h1
      simp [malloc, h1]
    · simp only [malloc, Finset.mem_insert]
      exact Or.inr (H.live t b h1)
  · simp only [malloc, Finset.mem_insert] at hb ⊢
    rcases hb with rfl | hb
    · omega
    · have := H.fresh b hb; omega

theorem lost_malloc {b : Nat} {h : Heap} (H : Lost b h) (s : Slot) : Lost b (malloc h s) := by
  obtain ⟨h1, h2, h3⟩ := H
  refine ⟨by simp [malloc, h1], by simp only [malloc]; omega, fun t => ?_⟩
  rw [malloc_ptr]
  split
  · simp only [ne_eq, Option.some.injEq]; omega
  · exact h3 t

/-- Overwriting a pointer loses the block. -/
theorem malloc_lost {b : Nat} {h : Heap} (H : Core h) {s : Slot} (hs : h.ptr s = some b) : Lost b (malloc h s) := by
  have hb := H.live s b hs
  refine ⟨by simp [malloc, hb], by have := H.fresh b hb; simp only [malloc]; omega, fun t => ?_⟩
  rw [malloc_ptr]
  split
  · have := H.fresh b hb
    simp only [ne_eq, Option.some.injEq]; omega
  · rename_i hne
    exact fun ht => hne (H.inj t s b ht hs)

/-- The heap inside `mallocArr`: the elements are cleared. -/
def cleared (h : Heap) (c : Con) (n : Nat) : Heap :=
  { h with ptr := fun s => match s with
             | .el c' i => if c' = c then none else h.ptr (.el c' i)
             | s => h.ptr s,
           cap := Function.update h.cap c n }

theorem mallocArr_eq (h : Heap) (c : Con) (n : Nat) : mallocArr h c n = malloc (cleared h c n) (.arr c) := rfl

theorem cleared_ptr (h : Heap) (c : Con) (n : Nat) (t : Slot) : (cleared h c n).ptr t = none ∨ (cleared h c n).ptr t = h.ptr t := by
  cases t with
  | el c' i => by_cases hc : c' = c <;> simp [cleared, hc]
  | _ => simp [cleared]

theorem core_cleared {h : Heap} (H : Core h) (c : Con) (n : Nat) : Core (cleared h c n) := by
  have key : ∀ t b, (cleared h c n).ptr t = some b → h.ptr t = some b := by
    intro t b hb
    rcases cleared_ptr h c n t with e | e
    · rw [e] at hb; cases hb
    · rw [← e]; exact hb
  exact ⟨fun s s' b h1 h2 => H.inj s s' b (key _ _ h1) (key _ _ h2), fun s b h1 => H.live s b (key _ _ h1), H.fresh⟩

theorem lost_cleared {b : Nat} {h : Heap} (H : Lost b h) (c : Con) (n : Nat) : Lost b (cleared h c n) := by
  refine ⟨H.1, H.2.1, fun t ht => ?_⟩
  rcases cleared_ptr h c n t with e | e
  · rw [e] at ht; cases ht
  · rw [e] at ht; exact H.2.2 t ht

theorem core_fill {h : Heap} (H : Core h) (c : Con) (I : List Nat) : Core (I.foldl (fun h i => malloc h (.el c i)) h) := by
  induction I generalizing h with
  | nil => exact H
  | cons i I ih => exact ih (core_malloc H _)

theorem lost_fill {b : Nat} {h : Heap} (H : Lost b h) (c : Con) (I : List Nat) : Lost b (I.foldl (fun h i => malloc h (.el c i)) h) := by
  induction I generalizing h with
  | nil => exact H
  | cons i I ih => exact ih (lost_malloc H _)

theorem core_mallocCon {h : Heap} (H : Core h) (c : Con) (n : Nat) (p : Nat → Bool) : Core (mallocCon h c n p) :=
  core_fill (core_malloc (core_cleared H c n) _) c _

theorem lost_mallocCon {b : Nat} {h : Heap} (H : Lost b h) (c : Con) (n : Nat) (p : Nat → Bool) : Lost b (mallocCon h c n p) :=
  lost_fill (lost_malloc (lost_cleared H c n) _) c _

theorem free_cases {h h' : Heap} {s : Slot} (e : free h s = .ok h') :
    (h.ptr s = none ∧ h' = h) ∨ ∃ b, h.ptr s = some b ∧ b ∈ h.live ∧ h' = { h with live := h.live.erase b } := by
  unfold free at e
  split at e
  · cases hp : h.ptr s with
    | none => rw [hp] at e; simp only [Res.ok.injEq] at e; exact Or.inl ⟨rfl, e.symm⟩
    | some b =>
      rw [hp] at e
      dsimp only at e
      split at e
      · rename_i hb
        simp only [Res.ok.injEq] at e
        exact Or.inr ⟨b, rfl, hb, e.symm⟩
      · cases e
  · cases e

theorem lost_free {b : Nat} {h h' : Heap} {s : Slot} (H : Lost b h) (e : free h s = .ok h') : Lost b h' := by
  rcases free_cases e with ⟨_, rfl⟩ | ⟨b', hb, _, rfl⟩
  · exact H
  · refine ⟨?_, H.2.1, H.2.2⟩
    simp only [Finset.mem_erase]
    exact ⟨fun he => H.2.2 s (he ▸ hb), H.1⟩

theorem lost_release {b : Nat} {h h' : Heap} {s : Slot} (H : Lost b h) (e : release h s = .ok h') : Lost b h' := by
  unfold release at e
  cases hf : free h s with
  | ok k =>
    rw [hf] at e
    simp only [Res.bind_ok, Res.ok.injEq] at e
    subst e
    have := lost_free H hf
    refine ⟨this.1, this.2.1, fun t => ?_⟩
    simp only [Function.update_apply]
    split
    · simp
    · exact this.2.2 t
  | ub => rw [hf] at e; cases e
  | diverge => rw [hf] at e; cases e

theorem bind_inv {α β : Type} {x : Res α} {f : α → Res β} {b : β} (e : (x >>= f) = .ok b) : ∃ a, x = .ok a ∧ f a = .ok b := by
  cases x with
  | ok a => exact ⟨a, rfl, e⟩
  | ub => cases e
  | diverge => cases e

theorem core_apply {h h' : Heap} {o : Op} (H : Core h) (e : o.apply h = .ok h') : Core h' := by
  cases o with
  | one f => simp only [Op.apply, Res.ok.injEq] at e; exact e ▸ core_malloc H _
  | con c n p => simp only [Op.apply, Res.ok.injEq] at e; exact e ▸ core_mallocCon H c n p
  | renew f =>
    obtain ⟨k, hf, e⟩ := bind_inv e
    · simp only [Res.ok.injEq] at e
      subst e
      rcases free_cases hf with ⟨_, rfl⟩ | ⟨b, hb, hl, rfl⟩
      · exact core_malloc H _
      · -- the dangling pointer is overwritten
        have hn : ∀ t b, h.ptr t = some b → b ≠ h.next := fun t b hb => by
          have := H.fresh b (H.live t b hb); omega
        refine ⟨fun t t' b' h1 h2 => ?_, fun t b' h1 => ?_, fun b' hb' => ?_⟩
        · rw [malloc_ptr] at h1 h2
          split at h1 <;> split at h2
          · rename_i e1 e2; rw [e1, e2]
          · simp only [Option.some.injEq] at h1
            exact absurd h1.symm (hn _ _ h2)
          · simp only [Option.some.injEq] at h2
            exact absurd h2.symm (hn _ _ h1)
          · exact H.inj t t' b' h1 h2
        · rw [malloc_ptr] at h1
          simp only [malloc, Finset.mem_insert, Finset.mem_erase]
          split at h1
          · simp only [Option.some.injEq] at h1
            exact Or.inl h1.symm
          · rename_i hne
            exact Or.inr ⟨fun he => hne (H.inj t _ b' h1 (he ▸ hb)), H.live t b' h1⟩
        · simp only [malloc, Finset.mem_insert, Finset.mem_erase] at hb' ⊢
          rcases hb' with rfl | hb'
          · omega
          · have := H.fresh b' hb'.2; omega

theorem lost_apply {b : Nat} {h h' : Heap} {o : Op} (H : Lost b h) (e : o.apply h = .ok h') : Lost b h' := by
  cases o with
  | one f => simp only [Op.apply, Res.ok.injEq] at e; exact e ▸ lost_malloc H _
  | con c n p => simp only [Op.apply, Res.ok.injEq] at e; exact e ▸ lost_mallocCon H c n p
  | renew f =>
    obtain ⟨k, hf, e⟩ := bind_inv e
    · simp only [Res.ok.injEq] at e
      exact e ▸ lost_malloc (lost_free H hf) _

/-- Peeling the first step of a sequence. -/
theorem foldlM_ok {α σ : Type} {f : σ → α → Res σ} {a : α} {L : List α} {s t : σ} (e : (a :: L).foldlM f s = .ok t) :
    ∃ u, f s a = .ok u ∧ L.foldlM f u = .ok t := by
  rw [List.foldlM_cons] at e
  cases hf : f s a with
  | ok u => rw [hf] at e; exact ⟨u, rfl, e⟩
  | ub => rw [hf] at e; cases e
  | diverge => rw [hf] at e; cases e

/-- An invariant of the steps is one of the sequence. -/
theorem foldlM_inv {α σ : Type} {f : σ → α → Res σ} (P : σ → Prop) {L : List α} (hstep : ∀ a ∈ L, ∀ s t, P s → f s a = .ok t → P t) {s t : σ} (hs : P s)
    (e : L.foldlM f s = .ok t) : P t := by
  induction L generalizing s with
  | nil => simp only [List.foldlM_nil, Res.pure_eq, Res.ok.injEq] at e; exact e ▸ hs
  | cons a L ih =>
    obtain ⟨u, h1, h2⟩ := foldlM_ok e
    exact ih (fun a' ha' => hstep a' (List.mem_cons_of_mem _ ha')) (hstep a (List.mem_cons_self) s u hs h1) h2

theorem core_ops {h h' : Heap} {L : List Op} (H : Core h) (e : ops h L = .ok h') : Core h' :=
  foldlM_inv Core (fun _ _ _ _ hs e => core_apply hs e) H e

theorem lost_ops {b : Nat} {h h' : Heap} {L : List Op} (H : Lost b h) (e : ops h L = .ok h') : Lost b h' :=
  foldlM_inv (Lost b) (fun _ _ _ _ hs e => lost_apply hs e) H e

theorem fill_same (h : Heap) (c : Con) (I : List Nat) : Same h (I.foldl (fun h i => malloc h (.el c i)) h) ∧ (I.foldl (fun h i => malloc h (.el c i)) h).cap = h.cap := by
  induction I generalizing h with
  | nil => exact ⟨.refl h, rfl⟩
  | cons i I ih =>
    obtain ⟨a, b⟩ := ih (malloc h (.el c i))
    exact ⟨Same.trans (b := malloc h (.el c i)) ⟨rfl, rfl, rfl, rfl, rfl⟩ a, b⟩

theorem fill_ptr (h : Heap) (c : Con) (I : List Nat) (t : Slot) (ht : ∀ i ∈ I, t ≠ .el c i) : (I.foldl (fun h i => malloc h (.el c i)) h).ptr t = h.ptr t := by
  induction I generalizing h with
  | nil => rfl
  | cons i I ih =>
    rw [List.foldl_cons, ih _ (fun j hj => ht j (List.mem_cons_of_mem _ hj)), malloc_ptr, if_neg (ht i List.mem_cons_self)]

theorem same_apply {h h' : Heap} {o : Op} (e : o.apply h = .ok h') : Same h h' := by
  cases o with
  | one f => simp only [Op.apply, Res.ok.injEq] at e; exact e ▸ ⟨rfl, rfl, rfl, rfl, rfl⟩
  | con c n p =>
    simp only [Op.apply, Res.ok.injEq] at e
    exact e ▸ Same.trans (b := mallocArr h c n) ⟨rfl, rfl, rfl, rfl, rfl⟩ (fill_same _ _ _).1
  | renew f =>
    obtain ⟨k, h1, h2⟩ := bind_inv e
    simp only [Res.ok.injEq] at h2
    subst h2
    rcases free_cases h1 with ⟨_, rfl⟩ | ⟨b, _, _, rfl⟩ <;> exact ⟨rfl, rfl, rfl, rfl, rfl⟩

theorem same_ops {h h' : Heap} {L : List Op} (e : ops h L = .ok h') : Same h h' :=
  foldlM_inv (Same h) (fun _ _ _ _ hs e => hs.trans (same_apply e)) (.refl h) e

/-- Fields: after one effect a field has changed only if the effect is on it, and it is not `NULL` then. -/
theorem apply_field {h h' : Heap} {o : Op} (e : o.apply h = .ok h') (f : Fld) : h'.ptr (.one f) = h.ptr (.one f) ∨ (h'.ptr (.one f) ≠ none ∧ (o = .one f ∨ o = .renew f)) := by
  cases o with
  | one g =>
    simp only [Op.apply, Res.ok.injEq] at e
    subst e
    rw [malloc_ptr]
    by_cases hg : f = g
    · subst hg; simp
    · left; rw [if_neg (by simpa using hg)]
  | con c n p =>
    simp only [Op.apply, Res.ok.injEq] at e
    subst e
    left
    unfold mallocCon
    rw [fill_ptr _ _ _ _ (by simp), mallocArr_eq, malloc_ptr, if_neg (by simp)]
    rfl
  | renew g =>
    obtain ⟨k, h1, h2⟩ := bind_inv e
    simp only [Res.ok.injEq] at h2
    subst h2
    have hk : k.ptr = h.ptr := by rcases free_cases h1 with ⟨_, rfl⟩ | ⟨b, _, _, rfl⟩ <;> rfl
    rw [malloc_ptr]
    by_cases hg : f = g
    · subst hg; simp
    · left; rw [if_neg (by simpa using hg), hk]

theorem keep_apply {h h' : Heap} {o : Op} (e : o.apply h = .ok h') {f : Fld} (hf : h.ptr (.one f) ≠ none) : h'.ptr (.one f) ≠ none := by
  rcases apply_field e f with h1 | h1
  · rw [h1]; exact hf
  · exact h1.1

theorem keep_ops {h h' : Heap} {L : List Op} (e : ops h L = .ok h') {f : Fld} (hf : h.ptr (.one f) ≠ none) : h'.ptr (.one f) ≠ none :=
  foldlM_inv (fun h => h.ptr (.one f) ≠ none) (fun _ _ _ _ hs e => keep_apply e hs) hf e

theorem set_ops {h h' : Heap} {L : List Op} (e : ops h L = .ok h') {f : Fld} (hf : Op.one f ∈ L) : h'.ptr (.one f) ≠ none := by
  induction L generalizing h with
  | nil => simp at hf
  | cons o L ih =>
    obtain ⟨u, h1, h2⟩ := foldlM_ok e
    rcases List.mem_cons.1 hf with rfl | hf
    · refine keep_ops h2 ?_
      simp only [Op.apply, Res.ok.injEq] at h1
      subst h1
      simp [malloc_ptr]
    · exact ih h2 hf

/-- Allocating for a field that is not `NULL` loses a block, whatever else is done. -/
theorem overwrite_ops {h h' : Heap} {L : List Op} (H : Core h) (e : ops h L = .ok h') {f : Fld} (hf : Op.one f ∈ L) (hp : h.ptr (.one f) ≠ none) : ∃ b, Lost b h' := by
  induction L generalizing h with
  | nil => simp at hf
  | cons o L ih =>
    obtain ⟨u, h1, h2⟩ := foldlM_ok e
    rcases List.mem_cons.1 hf with rfl | hf
    · obtain ⟨b, hb⟩ := Option.ne_none_iff_exists'.1 hp
      simp only [Op.apply, Res.ok.injEq] at h1
      subst h1
      exact ⟨b, lost_ops (malloc_lost H hb) h2⟩
    · exact ih (core_apply H h1) h2 hf (keep_apply h1 hp)

theorem lost_destroyCons {b n : Nat} {h h' : Heap} {cs test : List Con} (H : Lost b h) (e : destroyCons cs test n h = .ok h') : Lost b h' := by
  unfold destroyCons at e
  split at e
  · obtain ⟨k, h1, h2⟩ := bind_inv e
    refine foldlM_inv (Lost b) (fun _ _ _ _ hs e => lost_free hs e) ?_ h2
    exact foldlM_inv (Lost b) (fun _ _ _ _ hs e => foldlM_inv (Lost b) (fun _ _ _ _ hs e => lost_release hs e) hs e) H h1
  · simp only [Res.ok.injEq] at e; exact e ▸ H

/-- A lost block stays allocated. -/
theorem lost_destroy {b : Nat} {h h' : Heap} (H : Lost b h) (e : destroy h = .ok h') : Lost b h' := by
  obtain ⟨h1, e1, e⟩ := bind_inv e
  obtain ⟨h2, e2, e⟩ := bind_inv e
  obtain ⟨h3, e3, e⟩ := bind_inv e
  obtain ⟨h4, e4, e⟩ := bind_inv e
  obtain ⟨h5, e5, e⟩ := bind_inv e
  obtain ⟨h6, e6, e⟩ := bind_inv e
  obtain ⟨h7, e7, e⟩ := bind_inv e
  obtain ⟨h8, e8, e⟩ := bind_inv e
  obtain ⟨h9, e9, e⟩ := bind_inv e
  obtain ⟨h10, e10, e⟩ := bind_inv e
  have H1 := foldlM_inv (Lost b) (fun _ _ _ _ hs e => lost_free hs e) H e1
  have H2 := foldlM_inv (Lost b) (fun _ _ _ _ hs e => lost_release hs e) H1 e2
  exact lost_free (lost_destroyCons (lost_destroyCons (lost_destroyCons (lost_destroyCons (lost_destroyCons (lost_destroyCons (lost_destroyCons (lost_destroyCons H2
    e3) e4) e5) e6) e7) e8) e9) e10) e

/-! ## Destroying -/

/-- The pointers in `P` are to different allocated blocks, and these are all blocks. -/
structure Rem (P : Slot → Prop) (h : Heap) : Prop where
  inj : ∀ s s' b, P s → P s' → h.ptr s = some b → h.ptr s' = some b → s = s'
  live : ∀ s b, P s → h.ptr s = some b → b ∈ h.live
  owned : ∀ b ∈ h.live, ∃ s, P s ∧ h.ptr s = some b

theorem Rem.congr {P Q : Slot → Prop} {h : Heap} (H : Rem P h) (hPQ : ∀ s, P s ↔ Q s) : Rem Q h := by
  have : P = Q := funext fun s => propext (hPQ s)
  exact this ▸ H

/-- Slots without a pointer can be dropped. -/
theorem Rem.drop {P Q : Slot → Prop} {h : Heap} (H : Rem P h) (hQP : ∀ s, Q s → P s) (hP : ∀ s, P s → ¬ Q s → h.ptr s = none) : Rem Q h := by
  refine ⟨fun s s' b h1 h2 => H.inj s s' b (hQP _ h1) (hQP _ h2), fun s b h1 => H.live s b (hQP _ h1), fun b hb => ?_⟩
  obtain ⟨s, h1, h2⟩ := H.owned b hb
  refine ⟨s, ?_, h2⟩
  by_contra hq
  rw [hP s h1 hq] at h2; cases h2

/-- What is read to reach a slot. -/
def base : Slot → List Slot
  | .one .self => []
  | .one _ => [.one .self]
  | .arr _ => [.one .self]
  | .el c _ => [.one .self, .arr c]

/-- The index is in the range of the array. -/
def inRange (h : Heap) : Slot → Prop
  | .el c i => i < h.cap c
  | _ => True

theorem alive_of {P : Slot → Prop} {h : Heap} (H : Rem P h) {s : Slot} (hs : P s) (hn : h.ptr s ≠ none) : alive h s = true := by
  obtain ⟨b, hb⟩ := Option.ne_none_iff_exists'.1 hn
  unfold alive
  rw [hb]
  simp [H.live s b hs hb]

theorem readable_of {P : Slot → Prop} {h : Heap} (H : Rem P h) {s : Slot} (hb : ∀ t ∈ base s, P t ∧ h.ptr t ≠ none) (hr : inRange h s) : readable h s = true := by
  cases s with
  | one f =>
    cases f
    case self => rfl
    all_goals exact alive_of H (hb (.one .self) (by simp [base])).1 (hb (.one .self) (by simp [base])).2
  | arr c => exact alive_of H (hb (.one .self) (by simp [base])).1 (hb (.one .self) (by simp [base])).2
  | el c i =>
    have a1 := hb (.one .self) (by simp [base])
    have a2 := hb (.arr c) (by simp [base])
    simp only [readable, alive_of H a1.1 a1.2, alive_of H a2.1 a2.2, Bool.true_and, decide_eq_true_eq]
    exact hr

/-- Only the pointers outside `Q` are known to be unchanged. -/
structure Keeps (Q : Slot → Prop) (h h' : Heap) : Prop where
  same : Same h h'
  cap : h'.cap = h.cap
  ptr : ∀ s, ¬ Q s → h'.ptr s = h.ptr s

theorem Keeps.refl (Q : Slot → Prop) (h : Heap) : Keeps Q h h := ⟨.refl h, rfl, fun _ _ => rfl⟩

theorem Keeps.trans {Q R : Slot → Prop} {a b c : Heap} (h : Keeps Q a b) (k : Keeps R b c) : Keeps (fun s => Q s ∨ R s) a c :=
  ⟨h.same.trans k.same, k.cap.trans h.cap, fun s hs => (k.ptr s fun h => hs (Or.inr h)).trans (h.ptr s fun h => hs (Or.inl h))⟩

theorem Keeps.mono {Q R : Slot → Prop} {a b : Heap} (h : Keeps Q a b) (k : ∀ s, Q s → R s) : Keeps R a b :=
  ⟨h.same, h.cap, fun s hs => h.ptr s fun hq => hs (k s hq)⟩

/-- `free` or `release`. -/
def drop1 (nul : Bool) (h : Heap) (s : Slot) : Res Heap := if nul then release h s else free h s

theorem rem_free {P : Slot → Prop} {h : Heap} (H : Rem P h) {s : Slot} (hs : P s) (hr : readable h s = true) (nul : Bool) :
    ∃ h', drop1 nul h s = .ok h' ∧ Rem (fun t => P t ∧ t ≠ s) h' ∧ Keeps (· = s) h h' := by
  have key : ∃ h', free h s = .ok h' ∧ Rem (fun t => P t ∧ t ≠ s) h' ∧ Keeps (· = s) h h' ∧ h'.ptr = h.ptr := by
    cases hp : h.ptr s with
    | none =>
      refine ⟨h, by unfold free; rw [if_pos hr, hp], ?_, .refl _ h, rfl⟩
      refine H.drop (fun t ht => ht.1) (fun t h1 h2 => ?_)
      have : t = s := by by_contra hne; exact h2 ⟨h1, hne⟩
      rw [this, hp]
    | some b =>
      have hb := H.live s b hs hp
      refine ⟨{ h with live := h.live.erase b }, by unfold free; rw [if_pos hr, hp]; dsimp only; rw [if_pos hb], ?_, ⟨⟨rfl, rfl, rfl, rfl, rfl⟩, rfl, fun _ _ => rfl⟩, rfl⟩
      refine ⟨fun t t' b' h1 h2 => H.inj t t' b' h1.1 h2.1, fun t b' h1 h2 => ?_, fun b' hb' => ?_⟩
      · simp only [Finset.mem_erase]
        exact ⟨fun he => h1.2 (H.inj t s b' h1.1 hs h2 (he ▸ hp)), H.live t b' h1.1 h2⟩
      · simp only [Finset.mem_erase] at hb'
        obtain ⟨t, h1, h2⟩ := H.owned b' hb'.2
        refine ⟨t, ⟨h1, fun he => hb'.1 ?_⟩, h2⟩
        subst he
        rw [hp] at h2
        exact (Option.some.inj h2).symm
  obtain ⟨h', e, hR, hK, hptr⟩ := key
  cases nul with
  | false => exact ⟨h', e, hR, hK⟩
  | true =>
    refine ⟨{ h' with ptr := Function.update h'.ptr s none }, by unfold drop1 release; rw [if_pos rfl, e]; rfl, ?_, ?_⟩
    · have hpt : ∀ t, t ≠ s → (Function.update h'.ptr s none) t = h'.ptr t := fun t ht => Function.update_of_ne ht _ _
      refine ⟨fun t t' b h1 h2 e1 e2 => hR.inj t t' b h1 h2 ((hpt t h1.2) ▸ e1) ((hpt t' h2.2) ▸ e2), fun t b h1 e1 => hR.live t b h1 ((hpt t h1.2) ▸ e1), fun b hb => ?_⟩
      obtain ⟨t, h1, h2⟩ := hR.owned b hb
      exact ⟨t, h1, (hpt t h1.2).trans h2⟩
    · exact ⟨⟨hK.same.1, hK.same.2, hK.same.3, hK.same.4, hK.same.5⟩, hK.cap, fun t ht => (Function.update_of_ne ht _ _).trans (hK.ptr t ht)⟩

/-- Freeing the blocks of a list of different slots. -/
theorem rem_list {P : Slot → Prop} (nul : Bool) (L : List Slot) {h : Heap} (H : Rem P h) (hd : L.Nodup) (hL : ∀ s ∈ L, P s ∧ inRange h s ∧ ∀ t ∈ base s, P t ∧ t ∉ L ∧ h.ptr t ≠ none) :
    ∃ h', L.foldlM (drop1 nul) h = .ok h' ∧ Rem (fun t => P t ∧ t ∉ L) h' ∧ Keeps (· ∈ L) h h' := by
  induction L generalizing h P with
  | nil => exact ⟨h, rfl, H.congr (by simp), .refl _ h⟩
  | cons s L ih =>
    rw [List.nodup_cons] at hd
    have hs := hL s List.mem_cons_self
    obtain ⟨h1, e1, R1, K1⟩ := rem_free H hs.1 (readable_of H (fun t ht => ⟨(hs.2.2 t ht).1, (hs.2.2 t ht).2.2⟩) hs.2.1) nul
    obtain ⟨h2, e2, R2, K2⟩ := ih R1 hd.2 (fun t ht => by
      have ht' := hL t (List.mem_cons_of_mem _ ht)
      refine ⟨⟨ht'.1, fun he => hd.1 (he ▸ ht)⟩, ?_, fun u hu => ?_⟩
      · cases t with
        | el c i => have := ht'.2.1; simp only [inRange] at this ⊢; rw [K1.cap]; exact this
        | _ => trivial
      · have := ht'.2.2 u hu
        rw [List.mem_cons, not_or] at this
        exact ⟨⟨this.1, this.2.1.1⟩, this.2.1.2, by rw [K1.ptr u this.2.1.1]; exact this.2.2⟩)
    refine ⟨h2, by rw [List.foldlM_cons, e1]; exact e2, R2.congr (fun t => ?_), (K1.trans K2).mono (fun t ht => ?_)⟩
    · rw [List.mem_cons, not_or]; exact and_assoc
    · rcases ht with rfl | ht
      · exact List.mem_cons_self
      · exact List.mem_cons_of_mem _ ht

end H2Pack.Life
