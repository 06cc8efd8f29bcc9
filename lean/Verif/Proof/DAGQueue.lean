import Verif.Model.DAGQueue
import Mathlib.Tactic.Linarith
import Mathlib.Tactic.Ring
import Mathlib.Algebra.BigOperators.Group.Finset.Basic
import Mathlib.Algebra.Order.BigOperators.Group.Finset
import Mathlib.Data.List.Nodup
import Mathlib.Data.List.Count
import Mathlib.Algebra.BigOperators.Ring.Finset
import Mathlib.Tactic.Positivity

/-! # Helper lemmas for the task queue: the inductive invariant -/

namespace H2Pack.DAG
open Finset

/-- Out-edges of a vertex. -/
def outE (S : Static) (p : Nat) : List Nat := slice S.src S.dst p

def gots (tr : List Event) : List Nat :=
  tr.filterMap (fun e => match e with | .got _ t => some t | _ => none)
def fins (tr : List Event) : List Nat :=
  tr.filterMap (fun e => match e with | .finished _ t => some t | _ => none)

@[simp] theorem gots_nil : gots [] = [] := rfl
@[simp] theorem fins_nil : fins [] = [] := rfl
@[simp] theorem gots_got (a t : Nat) (tr) : gots (.got a t :: tr) = t :: gots tr := rfl
@[simp] theorem gots_fin (a t : Nat) (tr) : gots (.finished a t :: tr) = gots tr := rfl
@[simp] theorem gots_none (a : Nat) (tr) : gots (.gotNone a :: tr) = gots tr := rfl
@[simp] theorem fins_got (a t : Nat) (tr) : fins (.got a t :: tr) = fins tr := rfl
@[simp] theorem fins_fin (a t : Nat) (tr) : fins (.finished a t :: tr) = t :: fins tr := rfl
@[simp] theorem fins_none (a : Nat) (tr) : fins (.gotNone a :: tr) = fins tr := rfl

/-- Static facts established by `init`. -/
structure Good (S : Static) : Prop where
  dstlt : ∀ p < S.N, ∀ d ∈ outE S p, d < S.N
  indeg_eq : ∀ v < S.N, S.indeg v = ∑ p ∈ range S.N, (outE S p).count v
  num_eq : S.numTask = (S.N : Int) - ∑ p ∈ range S.N, ((outE S p).count p : Int)

section pc
variable {β : Type}

def PC.task : PC β → Option Nat
  | .work t => some t | .write t _ => some t | .fin t _ => some t
  | .reserve t _ _ => some t | .store t _ _ _ => some t | _ => none
def PC.resv : PC β → Option Nat
  | .reserve _ _ d => some d | _ => none
def PC.sto : PC β → Option (Nat × Nat)
  | .store _ _ d pos => some (pos, d) | _ => none
def PC.spn : PC β → Option Nat
  | .spin h => some h | _ => none
def PC.early : PC β → Option Nat
  | .work t => some t | .write t _ => some t | _ => none
def PC.late : PC β → Option (Nat × Nat)
  | .fin t j => some (t, j) | .reserve t j _ => some (t, j) | .store t j _ _ => some (t, j) | _ => none
end pc

variable {β : Type} {T : Nat}

def InjSome {γ : Type} (f : PC β → Option γ) (th : Fin T → PC β) : Prop :=
  ∀ a b x, f (th a) = some x → f (th b) = some x → a = b

@[simp] theorem setTh_same (th : Fin T → PC β) (a p) : setTh th a p a = p := by simp [setTh]
theorem setTh_ne (th : Fin T → PC β) {a b} (p) (h : b ≠ a) : setTh th a p b = th b := by simp [setTh, h]

theorem InjSome.set {γ : Type} {f : PC β → Option γ} {th : Fin T → PC β} (h : InjSome f th) (a : Fin T)
    (p : PC β) (hp : ∀ x, f p = some x → f (th a) = some x ∨ ∀ b, f (th b) ≠ some x) :
    InjSome f (setTh th a p) := by
  intro b c x hb hc
  by_cases h1 : b = a <;> by_cases h2 : c = a
  · rw [h1, h2]
  · subst h1; rw [setTh_same] at hb; rw [setTh_ne _ _ h2] at hc
    rcases hp x hb with h' | h'
    · exact h _ _ _ h' hc
    · exact absurd hc (h' c)
  · subst h2; rw [setTh_same] at hc; rw [setTh_ne _ _ h1] at hb
    rcases hp x hc with h' | h'
    · exact h _ _ _ hb h'
    · exact absurd hb (h' b)
  · rw [setTh_ne _ _ h1] at hb; rw [setTh_ne _ _ h2] at hc
    exact h _ _ _ hb hc

/-- Case split for a universally quantified thread fact after `setTh`. -/
theorem forall_set {th : Fin T → PC β} {a : Fin T} {p : PC β} {P : PC β → Prop}
    (h1 : P p) (h2 : ∀ b, b ≠ a → P (th b)) : ∀ b, P (setTh th a p b) := by
  intro b
  by_cases h : b = a
  · subst h; simpa using h1
  · rw [setTh_ne _ _ h]; exact h2 b h

theorem ex_set {th : Fin T → PC β} {a : Fin T} {p : PC β} {P : PC β → Prop}
    (h : P p ∨ ∃ b, b ≠ a ∧ P (th b)) : ∃ b, P (setTh th a p b) := by
  rcases h with h | ⟨b, hb, h⟩
  · exact ⟨a, by simpa using h⟩
  · exact ⟨b, by rw [setTh_ne _ _ hb]; exact h⟩

theorem ex_set_iff {th : Fin T → PC β} {a : Fin T} {p : PC β} {P : PC β → Prop} :
    (∃ b, P (setTh th a p b)) ↔ (P p ∨ ∃ b, b ≠ a ∧ P (th b)) := by
  constructor
  · rintro ⟨b, hb⟩
    by_cases h : b = a
    · subst h; left; simpa using hb
    · right; exact ⟨b, h, by rwa [setTh_ne _ _ h] at hb⟩
  · exact ex_set

/-- Dependency order of a trace (most recent event first). -/
def DepOK (S : Static) (tr : List Event) : Prop :=
  ∀ post a t pre, tr = post ++ Event.got a t :: pre → ∀ p < S.N, t ∈ outE S p → p ∈ fins pre

theorem DepOK.cons {S : Static} {tr : List Event} (h : DepOK S tr) (e : Event)
    (he : ∀ a t, e = .got a t → ∀ p < S.N, t ∈ outE S p → p ∈ fins tr) : DepOK S (e :: tr) := by
  intro post a t pre heq
  cases post with
  | nil => simp at heq; obtain ⟨h1, h2⟩ := heq; subst h2; exact he a t h1
  | cons x post => simp at heq; exact h post a t pre heq.2

structure Inv (S : Static) (c : Config β T) (prog : Nat → Nat) (pushed gp : List Nat) : Prop where
  prog_le : ∀ p, prog p ≤ (outE S p).length
  cur_eq : ∀ v < S.N, c.d.cur v = (S.indeg v : Int) -
      ∑ p ∈ range S.N, (((outE S p).take (prog p)).count v : Int)
  pu_nodup : pushed.Nodup
  pu_len : pushed.length = c.d.tail
  pu_lt : ∀ v ∈ pushed, v < S.N
  pu_iff : ∀ v < S.N, c.d.cur v = 0 ↔ (v ∈ pushed ∨ ∃ a, (c.th a).resv = some v)
  res_not : ∀ a v, (c.th a).resv = some v → v ∉ pushed ∧ v < S.N
  res_inj : InjSome PC.resv c.th
  q_st : ∀ (k v : Nat), pushed[k]? = some v →
      c.d.queue k = (v : Int) ∨ (c.d.queue k = -1 ∧ ∃ a, (c.th a).sto = some (k, v))
  sto_ok : ∀ a (k v : Nat), (c.th a).sto = some (k, v) → pushed[k]? = some v
  q_hi : ∀ k, c.d.tail ≤ k → k < S.N → c.d.queue k = -1
  sp_ok : ∀ a h, (c.th a).spn = some h → h < c.d.head ∧ (h : Int) < S.numTask ∧ h ∉ gp
  sp_inj : InjSome PC.spn c.th
  gp_nodup : gp.Nodup
  gp_ok : ∀ k ∈ gp, k < c.d.head ∧ ∃ v, pushed[k]? = some v
  gp_tr : gots c.trace = gp.map (fun k => pushed[k]?.getD 0)
  cover : ∀ k < c.d.head, (k : Int) < S.numTask → k ∈ gp ∨ ∃ a, (c.th a).spn = some k
  act_inj : InjSome PC.task c.th
  act_got : ∀ a t, (c.th a).task = some t → t ∈ gots c.trace
  got_st : ∀ t ∈ gots c.trace, (∃ a, (c.th a).task = some t) ∨
      (prog t = (outE S t).length ∧ t ∈ fins c.trace)
  wk : ∀ a t, (c.th a).early = some t → prog t = 0 ∧ t ∉ fins c.trace
  lt : ∀ a t j, (c.th a).late = some (t, j) → j = S.src t + prog t ∧ t ∈ fins c.trace
  prog_fin : ∀ t, 0 < prog t → t ∈ fins c.trace
  fin_got : ∀ t ∈ fins c.trace, t ∈ gots c.trace
  fin_nodup : (fins c.trace).Nodup
  skip : ∀ v < S.N, v ∈ outE S v → v ∉ pushed ∧ ∀ a, (c.th a).resv ≠ some v
  dep : DepOK S c.trace

theorem take_count_le (l : List Nat) (k v : Nat) : (l.take k).count v ≤ l.count v :=
  (List.take_sublist k l).count_le v

namespace Inv
variable {S : Static} {c : Config β T} {prog : Nat → Nat} {pushed gp : List Nat}

/-- delivered tasks were pushed -/
theorem got_pushed (I : Inv S c prog pushed gp) {t : Nat} (h : t ∈ gots c.trace) : t ∈ pushed := by
  rw [I.gp_tr, List.mem_map] at h
  obtain ⟨k, hk, rfl⟩ := h
  obtain ⟨_, v, hv⟩ := I.gp_ok k hk
  rw [hv]; exact List.mem_of_getElem? hv

/-- if the counter of `v` is zero then every predecessor has been completely processed w.r.t. `v` -/
theorem cur_zero_pred (G : Good S) (I : Inv S c prog pushed gp) {v : Nat} (hv : v < S.N)
    (h0 : (S.indeg v : Int) - ∑ p ∈ range S.N, (((outE S p).take (prog p)).count v : Int) = 0)
    {p : Nat} (hp : p < S.N) (he : v ∈ outE S p) : 0 < prog p := by
  by_contra hn
  have hz : prog p = 0 := by omega
  have h1 : ∑ p ∈ range S.N, ((outE S p).take (prog p)).count v = ∑ p ∈ range S.N, (outE S p).count v := by
    rw [← G.indeg_eq v hv]
    have : ((∑ p ∈ range S.N, ((outE S p).take (prog p)).count v : Nat) : Int) = (S.indeg v : Int) := by
      rw [Nat.cast_sum]; omega
    exact_mod_cast this
  have h2 := (Finset.sum_eq_sum_iff_of_le (fun p _ => take_count_le (outE S p) (prog p) v)).1 h1 p
    (Finset.mem_range.2 hp)
  rw [hz] at h2
  simp at h2
  have := List.count_pos_iff.2 he
  omega

theorem cur_nonneg (G : Good S) (I : Inv S c prog pushed gp) {v : Nat} (hv : v < S.N) : 0 ≤ c.d.cur v := by
  rw [I.cur_eq v hv, G.indeg_eq v hv]
  rw [sub_nonneg, Nat.cast_sum]
  exact Finset.sum_le_sum (fun p _ => by exact_mod_cast take_count_le (outE S p) (prog p) v)

theorem pushed_preds (G : Good S) (I : Inv S c prog pushed gp) {v : Nat} (hv : v ∈ pushed)
    {p : Nat} (hp : p < S.N) (he : v ∈ outE S p) : p ∈ fins c.trace := by
  have hlt := I.pu_lt v hv
  have h0 : c.d.cur v = 0 := (I.pu_iff v hlt).2 (Or.inl hv)
  rw [I.cur_eq v hlt] at h0
  exact I.prog_fin p (I.cur_zero_pred G hlt h0 hp he)

theorem tail_le (I : Inv S c prog pushed gp) : c.d.tail ≤ S.N := by
  rw [← I.pu_len]
  have : pushed ⊆ List.range S.N := fun v hv => List.mem_range.2 (I.pu_lt v hv)
  simpa using (I.pu_nodup.subperm this).length_le

theorem task_lt (I : Inv S c prog pushed gp) {a : Fin T} {t : Nat} (h : (c.th a).task = some t) : t < S.N :=
  I.pu_lt t (I.got_pushed (I.act_got a t h))

end Inv

section steps
variable {S : Static} {c : Config β T} {prog : Nat → Nat} {pushed gp : List Nat}

theorem view_eq {γ : Type} (view : PC β → γ) {th : Fin T → PC β} {a : Fin T} {p q : PC β}
    (ha : th a = q) (h : view p = view q) : ∀ b, view (setTh th a p b) = view (th b) := by
  intro b
  by_cases hb : b = a
  · subst hb; rw [setTh_same, h, ha]
  · rw [setTh_ne _ _ hb]

theorem ex_keep {γ : Type} {view : PC β → Option γ} {th : Fin T → PC β} {a : Fin T} {p : PC β} {x : γ}
    (h : ∃ b, view (th b) = some x) (hp : view (th a) = some x → view p = some x) :
    ∃ b, view (setTh th a p b) = some x := by
  obtain ⟨b, hb⟩ := h
  by_cases hba : b = a
  · subst hba; exact ⟨b, by rw [setTh_same]; exact hp hb⟩
  · exact ⟨b, by rw [setTh_ne _ _ hba]; exact hb⟩

theorem all_keep {γ : Type} {view : PC β → Option γ} {th : Fin T → PC β} {a : Fin T} {p : PC β} {x : γ}
    {Q : Prop} (h : ∀ b, b ≠ a → view (th b) = some x → Q) (hp : view p = some x → Q) :
    ∀ b, view (setTh th a p b) = some x → Q := by
  intro b
  by_cases hba : b = a
  · subst hba; rw [setTh_same]; exact hp
  · rw [setTh_ne _ _ hba]; exact h b hba

theorem inv_fetch_done (I : Inv S c prog pushed gp) (a : Fin T)
    (ha : c.th a = .fetch) (hge : (c.d.head : Int) ≥ S.numTask) :
    Inv S { c with d := { c.d with head := c.d.head + 1 }, th := setTh c.th a .done,
                   trace := .gotNone a :: c.trace } prog pushed gp := by
  have v1 := view_eq PC.task ha (p := .done) rfl
  have v2 := view_eq PC.resv ha (p := .done) rfl
  have v3 := view_eq PC.sto ha (p := .done) rfl
  have v4 := view_eq PC.spn ha (p := .done) rfl
  have v5 := view_eq PC.early ha (p := .done) rfl
  have v6 := view_eq PC.late ha (p := .done) rfl
  exact {
    prog_le := I.prog_le, cur_eq := I.cur_eq, pu_nodup := I.pu_nodup, pu_len := I.pu_len,
    pu_lt := I.pu_lt, q_hi := I.q_hi, gp_nodup := I.gp_nodup
    gp_tr := by simpa using I.gp_tr
    prog_fin := by simpa using I.prog_fin
    fin_got := by simpa using I.fin_got
    fin_nodup := by simpa using I.fin_nodup
    dep := I.dep.cons _ (by intro _ _ h; cases h)
    pu_iff := by simpa only [v2] using I.pu_iff
    res_not := by simpa only [v2] using I.res_not
    res_inj := by simpa only [InjSome, v2] using I.res_inj
    q_st := by simpa only [v3] using I.q_st
    sto_ok := by simpa only [v3] using I.sto_ok
    sp_ok := by
      simp only [v4]; intro b h hb
      obtain ⟨h1, h2, h3⟩ := I.sp_ok b h hb
      exact ⟨by omega, h2, h3⟩
    sp_inj := by simpa only [InjSome, v4] using I.sp_inj
    gp_ok := by
      intro k hk
      obtain ⟨h1, h2⟩ := I.gp_ok k hk
      exact ⟨by dsimp only; omega, h2⟩
    cover := by
      simp only [v4]; intro k hk hk2
      exact I.cover k (by omega) hk2
    act_inj := by simpa only [InjSome, v1] using I.act_inj
    act_got := by simpa only [v1, gots_none] using I.act_got
    got_st := by simpa only [v1, gots_none, fins_none] using I.got_st
    wk := by simpa only [v5, fins_none] using I.wk
    lt := by simpa only [v6, fins_none] using I.lt
    skip := by simpa only [v2] using I.skip }

theorem inv_fetch_spin (I : Inv S c prog pushed gp) (a : Fin T)
    (ha : c.th a = .fetch) (hge : ¬ (c.d.head : Int) ≥ S.numTask) :
    Inv S { c with d := { c.d with head := c.d.head + 1 }, th := setTh c.th a (.spin c.d.head) }
      prog pushed gp := by
  have v1 := view_eq PC.task ha (p := .spin c.d.head) rfl
  have v2 := view_eq PC.resv ha (p := .spin c.d.head) rfl
  have v3 := view_eq PC.sto ha (p := .spin c.d.head) rfl
  have v5 := view_eq PC.early ha (p := .spin c.d.head) rfl
  have v6 := view_eq PC.late ha (p := .spin c.d.head) rfl
  exact {
    prog_le := I.prog_le, cur_eq := I.cur_eq, pu_nodup := I.pu_nodup, pu_len := I.pu_len,
    pu_lt := I.pu_lt, q_hi := I.q_hi, gp_nodup := I.gp_nodup
    gp_tr := I.gp_tr
    prog_fin := I.prog_fin
    fin_got := I.fin_got
    fin_nodup := I.fin_nodup
    dep := I.dep
    pu_iff := by simpa only [v2] using I.pu_iff
    res_not := by simpa only [v2] using I.res_not
    res_inj := by simpa only [InjSome, v2] using I.res_inj
    q_st := by simpa only [v3] using I.q_st
    sto_ok := by simpa only [v3] using I.sto_ok
    sp_ok := by
      intro b h
      refine all_keep (view := PC.spn) (fun b _ hb => ?_) (fun hp => ?_) b
      · obtain ⟨h1, h2, h3⟩ := I.sp_ok b h hb
        exact ⟨by dsimp only; omega, h2, h3⟩
      · simp only [PC.spn, Option.some.injEq] at hp
        subst hp
        refine ⟨by dsimp only; omega, by omega, fun hg => ?_⟩
        have := (I.gp_ok _ hg).1
        omega
    sp_inj := I.sp_inj.set a _ (by
      intro x hx
      simp only [PC.spn, Option.some.injEq] at hx
      subst hx
      right; intro b hb
      have := (I.sp_ok b _ hb).1
      omega)
    gp_ok := by
      intro k hk
      obtain ⟨h1, h2⟩ := I.gp_ok k hk
      exact ⟨by dsimp only; omega, h2⟩
    cover := by
      intro k hk hk2
      dsimp only at hk ⊢
      by_cases hkh : k = c.d.head
      · right; exact ⟨a, by rw [setTh_same, hkh]; rfl⟩
      · rcases I.cover k (by omega) hk2 with h | h
        · exact Or.inl h
        · exact Or.inr (ex_keep h (by simp [ha, PC.spn]))
    act_inj := by simpa only [InjSome, v1] using I.act_inj
    act_got := by simpa only [v1] using I.act_got
    got_st := by simpa only [v1] using I.got_st
    wk := by simpa only [v5] using I.wk
    lt := by simpa only [v6] using I.lt
    skip := by simpa only [v2] using I.skip }

theorem inv_spin (G : Good S) (I : Inv S c prog pushed gp) (a : Fin T) (h : Nat)
    (ha : c.th a = .spin h) (hq : ¬ c.d.queue h = -1) (hN : S.numTask ≤ S.N) :
    ∃ gp', Inv S { c with th := setTh c.th a (.work (c.d.queue h).toNat),
                          trace := .got a (c.d.queue h).toNat :: c.trace } prog pushed gp' := by
  have hsp := I.sp_ok a h (by rw [ha]; rfl)
  have hlt : h < pushed.length := by
    by_contra hn
    rw [I.pu_len] at hn
    exact hq (I.q_hi h (by omega) (by omega))
  obtain ⟨v, hv⟩ : ∃ v, pushed[h]? = some v := ⟨_, List.getElem?_eq_getElem hlt⟩
  have hqv : c.d.queue h = (v : Int) := by
    rcases I.q_st h v hv with h' | ⟨h', _⟩
    · exact h'
    · exact absurd h' hq
  have hvp : v ∈ pushed := List.mem_of_getElem? hv
  rw [hqv, Int.toNat_natCast]
  have hng : v ∉ gots c.trace := by
    intro hg
    rw [I.gp_tr, List.mem_map] at hg
    obtain ⟨k, hk, hk2⟩ := hg
    obtain ⟨_, w, hw⟩ := I.gp_ok k hk
    rw [hw] at hk2
    simp only [Option.getD_some] at hk2
    subst hk2
    have hkl : k < pushed.length := (List.getElem?_eq_some_iff.1 hw).1
    have := (I.pu_nodup.getElem_inj_iff (hi := hkl) (hj := hlt)).1 (by
      rw [(List.getElem?_eq_some_iff.1 hw).2, (List.getElem?_eq_some_iff.1 hv).2])
    subst this
    exact hsp.2.2 hk
  have v2 := view_eq PC.resv ha (p := .work v) rfl
  have v3 := view_eq PC.sto ha (p := .work v) rfl
  have v6 := view_eq PC.late ha (p := .work v) rfl
  exact ⟨h :: gp, {
    prog_le := I.prog_le, cur_eq := I.cur_eq, pu_nodup := I.pu_nodup, pu_len := I.pu_len,
    pu_lt := I.pu_lt, q_hi := I.q_hi
    gp_nodup := List.nodup_cons.2 ⟨hsp.2.2, I.gp_nodup⟩
    gp_tr := by simp [I.gp_tr, hv]
    prog_fin := by simpa using I.prog_fin
    fin_got := by
      intro t ht
      rw [gots_got]; exact List.mem_cons_of_mem _ (I.fin_got t (by simpa using ht))
    fin_nodup := by simpa using I.fin_nodup
    dep := I.dep.cons _ (by
      intro b t hbt p hp he
      simp only [Event.got.injEq] at hbt
      obtain ⟨_, rfl⟩ := hbt
      exact I.pushed_preds G hvp hp he)
    pu_iff := by simpa only [v2] using I.pu_iff
    res_not := by simpa only [v2] using I.res_not
    res_inj := by simpa only [InjSome, v2] using I.res_inj
    q_st := by simpa only [v3] using I.q_st
    sto_ok := by simpa only [v3] using I.sto_ok
    sp_ok := by
      intro b k
      refine all_keep (view := PC.spn) (fun b hba hb => ?_) (fun hp => ?_) b
      · obtain ⟨h1, h2, h3⟩ := I.sp_ok b k hb
        refine ⟨h1, h2, ?_⟩
        rw [List.mem_cons]; rintro (rfl | h4)
        · exact hba (I.sp_inj b a k hb (by rw [ha]; rfl))
        · exact h3 h4
      · simp [PC.spn] at hp
    sp_inj := I.sp_inj.set a _ (by intro x hx; simp [PC.spn] at hx)
    gp_ok := by
      intro k hk
      rcases List.mem_cons.1 hk with rfl | hk
      · exact ⟨hsp.1, v, hv⟩
      · exact I.gp_ok k hk
    cover := by
      intro k hk hk2
      rcases I.cover k hk hk2 with h' | ⟨b, hb⟩
      · exact Or.inl (List.mem_cons_of_mem _ h')
      · by_cases hkh : k = h
        · left; rw [hkh]; exact List.mem_cons_self
        · right; exact ex_keep ⟨b, hb⟩ (by rw [ha]; simp only [PC.spn, Option.some.injEq]; omega)
    act_inj := I.act_inj.set a _ (by
      intro x hx
      simp only [PC.task, Option.some.injEq] at hx
      subst hx
      right; intro b hb
      exact hng (I.act_got b _ hb))
    act_got := by
      intro b t
      refine all_keep (view := PC.task) (fun b _ hb => ?_) (fun hp => ?_) b
      · rw [gots_got]; exact List.mem_cons_of_mem _ (I.act_got b t hb)
      · simp only [PC.task, Option.some.injEq] at hp; subst hp; rw [gots_got]; exact List.mem_cons_self
    got_st := by
      intro t ht
      rw [gots_got, List.mem_cons] at ht
      rcases ht with rfl | ht
      · exact Or.inl ⟨a, by dsimp only; rw [setTh_same]; rfl⟩
      · rcases I.got_st t ht with h' | h'
        · exact Or.inl (ex_keep h' (by simp [ha, PC.task]))
        · exact Or.inr (by simpa using h')
    wk := by
      intro b t
      refine all_keep (view := PC.early) (fun b _ hb => ?_) (fun hp => ?_) b
      · simpa using I.wk b t hb
      · simp only [PC.early, Option.some.injEq] at hp; subst hp
        have : v ∉ fins c.trace := fun hf => hng (I.fin_got v hf)
        refine ⟨?_, by simpa using this⟩
        by_contra hn
        exact this (I.prog_fin v (by omega))
    lt := by simpa only [v6, fins_got] using I.lt
    skip := by simpa only [v2] using I.skip }⟩

theorem inv_work (I : Inv S c prog pushed gp) (a : Fin T) (t : Nat) (v : β)
    (ha : c.th a = .work t) :
    Inv S { c with th := setTh c.th a (.write t v) } prog pushed gp := by
  have v1 := view_eq PC.task ha (p := .write t v) rfl
  have v2 := view_eq PC.resv ha (p := .write t v) rfl
  have v3 := view_eq PC.sto ha (p := .write t v) rfl
  have v4 := view_eq PC.spn ha (p := .write t v) rfl
  have v5 := view_eq PC.early ha (p := .write t v) rfl
  have v6 := view_eq PC.late ha (p := .write t v) rfl
  exact {
    prog_le := I.prog_le, cur_eq := I.cur_eq, pu_nodup := I.pu_nodup, pu_len := I.pu_len,
    pu_lt := I.pu_lt, q_hi := I.q_hi, gp_nodup := I.gp_nodup, gp_tr := I.gp_tr
    prog_fin := I.prog_fin, fin_got := I.fin_got, fin_nodup := I.fin_nodup, dep := I.dep
    pu_iff := by simpa only [v2] using I.pu_iff
    res_not := by simpa only [v2] using I.res_not
    res_inj := by simpa only [InjSome, v2] using I.res_inj
    q_st := by simpa only [v3] using I.q_st
    sto_ok := by simpa only [v3] using I.sto_ok
    sp_ok := by simpa only [v4] using I.sp_ok
    sp_inj := by simpa only [InjSome, v4] using I.sp_inj
    gp_ok := I.gp_ok
    cover := by simpa only [v4] using I.cover
    act_inj := by simpa only [InjSome, v1] using I.act_inj
    act_got := by simpa only [v1] using I.act_got
    got_st := by simpa only [v1] using I.got_st
    wk := by simpa only [v5] using I.wk
    lt := by simpa only [v6] using I.lt
    skip := by simpa only [v2] using I.skip }

theorem inv_write (I : Inv S c prog pushed gp) (a : Fin T) (t : Nat) (v : β)
    (ha : c.th a = .write t v) (r : Nat → β) :
    Inv S { c with res := r, th := setTh c.th a (.fin t (S.src t)),
                   trace := .finished a t :: c.trace } prog pushed gp := by
  have v1 := view_eq PC.task ha (p := .fin t (S.src t)) rfl
  have v2 := view_eq PC.resv ha (p := .fin t (S.src t)) rfl
  have v3 := view_eq PC.sto ha (p := .fin t (S.src t)) rfl
  have v4 := view_eq PC.spn ha (p := .fin t (S.src t)) rfl
  have hw := I.wk a t (by rw [ha]; rfl)
  exact {
    prog_le := I.prog_le, cur_eq := I.cur_eq, pu_nodup := I.pu_nodup, pu_len := I.pu_len,
    pu_lt := I.pu_lt, q_hi := I.q_hi, gp_nodup := I.gp_nodup
    gp_tr := by simpa using I.gp_tr
    prog_fin := by
      intro p hp; rw [fins_fin]; exact List.mem_cons_of_mem _ (I.prog_fin p hp)
    fin_got := by
      intro p hp
      rw [fins_fin, List.mem_cons] at hp
      rw [gots_fin]
      rcases hp with rfl | hp
      · exact I.act_got a p (by rw [ha]; rfl)
      · exact I.fin_got p hp
    fin_nodup := by rw [fins_fin]; exact List.nodup_cons.2 ⟨hw.2, I.fin_nodup⟩
    dep := I.dep.cons _ (by intro _ _ h; cases h)
    pu_iff := by simpa only [v2] using I.pu_iff
    res_not := by simpa only [v2] using I.res_not
    res_inj := by simpa only [InjSome, v2] using I.res_inj
    q_st := by simpa only [v3] using I.q_st
    sto_ok := by simpa only [v3] using I.sto_ok
    sp_ok := by simpa only [v4] using I.sp_ok
    sp_inj := by simpa only [InjSome, v4] using I.sp_inj
    gp_ok := I.gp_ok
    cover := by simpa only [v4] using I.cover
    act_inj := by simpa only [InjSome, v1] using I.act_inj
    act_got := by simpa only [v1, gots_fin] using I.act_got
    got_st := by
      intro p hp
      simp only [v1, gots_fin, fins_fin] at hp ⊢
      rcases I.got_st p hp with h | h
      · exact Or.inl h
      · exact Or.inr ⟨h.1, List.mem_cons_of_mem _ h.2⟩
    wk := by
      intro b p
      refine all_keep (view := PC.early) (fun b hba hb => ?_) (fun hp => ?_) b
      · have := I.wk b p hb
        refine ⟨this.1, ?_⟩
        rw [fins_fin, List.mem_cons]
        rintro (rfl | h)
        · apply hba
          refine I.act_inj b a p ?_ (by rw [ha]; rfl)
          cases hcb : c.th b <;> rw [hcb] at hb <;> simp_all [PC.early, PC.task]
        · exact this.2 h
      · simp [PC.early] at hp
    lt := by
      intro b p j
      refine all_keep (view := PC.late) (fun b _ hb => ?_) (fun hp => ?_) b
      · have := I.lt b p j hb
        exact ⟨this.1, by rw [fins_fin]; exact List.mem_cons_of_mem _ this.2⟩
      · simp only [PC.late, Option.some.injEq, Prod.mk.injEq] at hp
        obtain ⟨rfl, rfl⟩ := hp
        exact ⟨by rw [hw.1]; rfl, by rw [fins_fin]; exact List.mem_cons_self⟩
    skip := by simpa only [v2] using I.skip }

theorem inv_fin_end (I : Inv S c prog pushed gp) (a : Fin T) (t j : Nat)
    (ha : c.th a = .fin t j) (hj : ¬ j < S.src (t+1)) :
    Inv S { c with th := setTh c.th a .fetch } prog pushed gp := by
  have v2 := view_eq PC.resv ha (p := .fetch) rfl
  have v3 := view_eq PC.sto ha (p := .fetch) rfl
  have v4 := view_eq PC.spn ha (p := .fetch) rfl
  have v5 := view_eq PC.early ha (p := .fetch) rfl
  have hl := I.lt a t j (by rw [ha]; rfl)
  have hlen : (outE S t).length = S.src (t+1) - S.src t := by simp [outE, slice]
  have hpl := I.prog_le t
  exact {
    prog_le := I.prog_le, cur_eq := I.cur_eq, pu_nodup := I.pu_nodup, pu_len := I.pu_len,
    pu_lt := I.pu_lt, q_hi := I.q_hi, gp_nodup := I.gp_nodup, gp_tr := I.gp_tr
    prog_fin := I.prog_fin, fin_got := I.fin_got, fin_nodup := I.fin_nodup, dep := I.dep
    pu_iff := by simpa only [v2] using I.pu_iff
    res_not := by simpa only [v2] using I.res_not
    res_inj := by simpa only [InjSome, v2] using I.res_inj
    q_st := by simpa only [v3] using I.q_st
    sto_ok := by simpa only [v3] using I.sto_ok
    sp_ok := by simpa only [v4] using I.sp_ok
    sp_inj := by simpa only [InjSome, v4] using I.sp_inj
    gp_ok := I.gp_ok
    cover := by simpa only [v4] using I.cover
    act_inj := I.act_inj.set a _ (by simp [PC.task])
    act_got := by
      intro b p
      exact all_keep (view := PC.task) (fun b _ hb => I.act_got b p hb) (by simp [PC.task]) b
    got_st := by
      intro p hp
      by_cases hpt : p = t
      · right; subst hpt; exact ⟨by omega, hl.2⟩
      · rcases I.got_st p hp with h | h
        · exact Or.inl (ex_keep h (by rw [ha]; simp only [PC.task, Option.some.injEq]; omega))
        · exact Or.inr h
    wk := by simpa only [v5] using I.wk
    lt := by
      intro b p k
      exact all_keep (view := PC.late) (fun b _ hb => I.lt b p k hb) (by simp [PC.late]) b
    skip := by simpa only [v2] using I.skip }

/-- The decrement of line 105 (common part). -/
theorem dec_facts (G : Good S) (I : Inv S c prog pushed gp) (a : Fin T) (t j : Nat)
    (ha : c.th a = .fin t j) (hj : j < S.src (t+1)) :
    t < S.N ∧ S.dst j < S.N ∧ j = S.src t + prog t ∧ prog t < (outE S t).length ∧
    (∀ v < S.N, upd c.d.cur (S.dst j) (c.d.cur (S.dst j) - 1) v = (S.indeg v : Int) -
      ∑ p ∈ range S.N, (((outE S p).take (upd prog t (prog t + 1) p)).count v : Int)) := by
  have hl := I.lt a t j (by rw [ha]; rfl)
  have ht : t < S.N := I.task_lt (a := a) (by rw [ha]; rfl)
  have hlen : (outE S t).length = S.src (t+1) - S.src t := by simp [outE, slice]
  have hpl : prog t < (outE S t).length := by omega
  have hget : (outE S t)[prog t]'hpl = S.dst j := by
    simp [outE, slice, hl.1]
  have hd : S.dst j < S.N := G.dstlt t ht _ (by rw [← hget]; exact List.getElem_mem _)
  refine ⟨ht, hd, hl.1, hpl, ?_⟩
  intro v hv
  have hsum : ∑ p ∈ range S.N, (((outE S p).take (upd prog t (prog t + 1) p)).count v : Int)
      = ∑ p ∈ range S.N, (((outE S p).take (prog p)).count v : Int) + (if v = S.dst j then 1 else 0) := by
    rw [← Finset.add_sum_erase _ _ (Finset.mem_range.2 ht), ← Finset.add_sum_erase (range S.N) (fun p => (((outE S p).take (prog p)).count v : Int)) (Finset.mem_range.2 ht)]
    have e1 : ∑ x ∈ (range S.N).erase t, (((outE S x).take (upd prog t (prog t + 1) x)).count v : Int)
        = ∑ x ∈ (range S.N).erase t, (((outE S x).take (prog x)).count v : Int) := by
      apply Finset.sum_congr rfl
      intro x hx
      have : x ≠ t := (Finset.mem_erase.1 hx).1
      simp [upd, this]
    rw [e1]
    have e2 : (outE S t).take (prog t + 1) = (outE S t).take (prog t) ++ [S.dst j] := by
      rw [List.take_add_one, List.getElem?_eq_getElem hpl, hget]; rfl
    have : upd prog t (prog t + 1) t = prog t + 1 := by simp [upd]
    rw [this, e2, List.count_append]
    by_cases hvj : v = S.dst j
    · subst hvj; simp; ring
    · have : List.count v [S.dst j] = 0 := List.count_eq_zero.2 (by simpa using hvj)
      simp [this, hvj]
  rw [hsum]
  have h0 := I.cur_eq v hv
  by_cases hvj : v = S.dst j
  · subst hvj; simp only [upd, if_true]; rw [h0]; ring
  · simp only [upd, hvj, if_false]; rw [h0]; ring

theorem inv_fin_dec (G : Good S) (I : Inv S c prog pushed gp) (a : Fin T) (t j : Nat)
    (ha : c.th a = .fin t j) (hj : j < S.src (t+1)) (hn : ¬ c.d.cur (S.dst j) - 1 = 0) :
    Inv S { c with d := { c.d with cur := upd c.d.cur (S.dst j) (c.d.cur (S.dst j) - 1) },
                   th := setTh c.th a (.fin t (j+1)) } (upd prog t (prog t + 1)) pushed gp := by
  obtain ⟨ht, hd, hjeq, hpl, hcur⟩ := dec_facts G I a t j ha hj
  have hl := I.lt a t j (by rw [ha]; rfl)
  have v1 := view_eq PC.task ha (p := .fin t (j+1)) rfl
  have v2 := view_eq PC.resv ha (p := .fin t (j+1)) rfl
  have v3 := view_eq PC.sto ha (p := .fin t (j+1)) rfl
  have v4 := view_eq PC.spn ha (p := .fin t (j+1)) rfl
  have v5 := view_eq PC.early ha (p := .fin t (j+1)) rfl
  -- the destination was not available before
  have hnn : 0 ≤ c.d.cur (S.dst j) - 1 := by
    have h := hcur (S.dst j) hd
    simp only [upd, if_true] at h
    rw [h, G.indeg_eq _ hd, sub_nonneg]
    rw [Nat.cast_sum]
    exact Finset.sum_le_sum (fun p _ => by exact_mod_cast take_count_le _ _ _)
  exact {
    prog_le := by
      intro p; unfold upd; split
      · rename_i h; subst h; omega
      · exact I.prog_le p
    cur_eq := hcur
    pu_nodup := I.pu_nodup, pu_len := I.pu_len,
    pu_lt := I.pu_lt, q_hi := I.q_hi, gp_nodup := I.gp_nodup, gp_tr := I.gp_tr
    prog_fin := by
      intro p; unfold upd; split
      · rename_i h; subst h; exact fun _ => hl.2
      · exact I.prog_fin p
    fin_got := I.fin_got, fin_nodup := I.fin_nodup, dep := I.dep
    pu_iff := by
      simp only [v2]
      intro v hv
      rw [← I.pu_iff v hv]
      by_cases hvj : v = S.dst j
      · subst hvj; simp only [upd, if_true]; omega
      · simp only [upd, hvj, if_false]
    res_not := by simpa only [v2] using I.res_not
    res_inj := by simpa only [InjSome, v2] using I.res_inj
    q_st := by simpa only [v3] using I.q_st
    sto_ok := by simpa only [v3] using I.sto_ok
    sp_ok := by simpa only [v4] using I.sp_ok
    sp_inj := by simpa only [InjSome, v4] using I.sp_inj
    gp_ok := I.gp_ok
    cover := by simpa only [v4] using I.cover
    act_inj := by simpa only [InjSome, v1] using I.act_inj
    act_got := by simpa only [v1] using I.act_got
    got_st := by
      simp only [v1]
      intro p hp
      by_cases hpt : p = t
      · subst hpt; exact Or.inl ⟨a, by rw [ha]; rfl⟩
      · rcases I.got_st p hp with h | h
        · exact Or.inl h
        · exact Or.inr (by simpa [upd, hpt] using h)
    wk := by
      simp only [v5]
      intro b p hb
      have := I.wk b p hb
      have hpt : p ≠ t := by rintro rfl; exact this.2 hl.2
      exact ⟨by simpa [upd, hpt] using this.1, this.2⟩
    lt := by
      intro b p k
      refine all_keep (view := PC.late) (fun b hba hb => ?_) (fun hp => ?_) b
      · have h := I.lt b p k hb
        have hpt : p ≠ t := by
          rintro rfl
          apply hba
          refine I.act_inj b a p ?_ (by rw [ha]; rfl)
          cases hcb : c.th b <;> rw [hcb] at hb <;> simp_all [PC.late, PC.task]
        exact ⟨by simpa [upd, hpt] using h.1, h.2⟩
      · simp only [PC.late, Option.some.injEq, Prod.mk.injEq] at hp
        obtain ⟨rfl, rfl⟩ := hp
        exact ⟨by simp [upd]; omega, hl.2⟩
    skip := by simpa only [v2] using I.skip }

theorem inv_fin_res (G : Good S) (I : Inv S c prog pushed gp) (a : Fin T) (t j : Nat)
    (ha : c.th a = .fin t j) (hj : j < S.src (t+1)) (hn : c.d.cur (S.dst j) - 1 = 0) :
    Inv S { c with d := { c.d with cur := upd c.d.cur (S.dst j) (c.d.cur (S.dst j) - 1) },
                   th := setTh c.th a (.reserve t (j+1) (S.dst j)) }
      (upd prog t (prog t + 1)) pushed gp := by
  obtain ⟨ht, hd, hjeq, hpl, hcur⟩ := dec_facts G I a t j ha hj
  have hl := I.lt a t j (by rw [ha]; rfl)
  have v1 := view_eq PC.task ha (p := .reserve t (j+1) (S.dst j)) rfl
  have v3 := view_eq PC.sto ha (p := .reserve t (j+1) (S.dst j)) rfl
  have v4 := view_eq PC.spn ha (p := .reserve t (j+1) (S.dst j)) rfl
  have v5 := view_eq PC.early ha (p := .reserve t (j+1) (S.dst j)) rfl
  have hnz : c.d.cur (S.dst j) ≠ 0 := by omega
  have hnone : ¬ (S.dst j ∈ pushed ∨ ∃ a, (c.th a).resv = some (S.dst j)) :=
    fun h => hnz ((I.pu_iff _ hd).2 h)
  have hprog : ∀ p, upd prog t (prog t + 1) p ≤ (outE S p).length := by
      intro p; unfold upd; split
      · rename_i h; subst h; omega
      · exact I.prog_le p
  have hpf : ∀ p, 0 < upd prog t (prog t + 1) p → p ∈ fins c.trace := by
      intro p; unfold upd; split
      · rename_i h; subst h; exact fun _ => hl.2
      · exact I.prog_fin p
  exact {
    prog_le := hprog
    cur_eq := hcur
    pu_nodup := I.pu_nodup, pu_len := I.pu_len,
    pu_lt := I.pu_lt, q_hi := I.q_hi, gp_nodup := I.gp_nodup, gp_tr := I.gp_tr
    prog_fin := hpf
    fin_got := I.fin_got, fin_nodup := I.fin_nodup, dep := I.dep
    pu_iff := by
      intro v hv
      by_cases hvj : v = S.dst j
      · subst hvj
        constructor
        · intro _; exact Or.inr ⟨a, by dsimp only; rw [setTh_same]; rfl⟩
        · intro _; simp only [upd, if_true]; exact hn
      · dsimp only
        simp only [upd, hvj, if_false]
        rw [I.pu_iff v hv]
        constructor
        · rintro (h | h)
          · exact Or.inl h
          · exact Or.inr (ex_keep h (by simp [ha, PC.resv]))
        · rintro (h | ⟨b, hb⟩)
          · exact Or.inl h
          · right
            revert hb
            exact all_keep (view := PC.resv) (fun b _ hb => ⟨b, hb⟩)
              (by simp only [PC.resv, Option.some.injEq]; exact fun h => absurd h.symm hvj) b
    res_not := by
      intro b v
      refine all_keep (view := PC.resv) (fun b _ hb => I.res_not b v hb) (fun hp => ?_) b
      simp only [PC.resv, Option.some.injEq] at hp
      subst hp
      exact ⟨fun h => hnone (Or.inl h), hd⟩
    res_inj := I.res_inj.set a _ (by
      intro x hx
      simp only [PC.resv, Option.some.injEq] at hx
      subst hx
      right; intro b hb; exact hnone (Or.inr ⟨b, hb⟩))
    q_st := by simpa only [v3] using I.q_st
    sto_ok := by simpa only [v3] using I.sto_ok
    sp_ok := by simpa only [v4] using I.sp_ok
    sp_inj := by simpa only [InjSome, v4] using I.sp_inj
    gp_ok := I.gp_ok
    cover := by simpa only [v4] using I.cover
    act_inj := by simpa only [InjSome, v1] using I.act_inj
    act_got := by simpa only [v1] using I.act_got
    got_st := by
      simp only [v1]
      intro p hp
      by_cases hpt : p = t
      · subst hpt; exact Or.inl ⟨a, by rw [ha]; rfl⟩
      · rcases I.got_st p hp with h | h
        · exact Or.inl h
        · exact Or.inr (by simpa [upd, hpt] using h)
    wk := by
      simp only [v5]
      intro b p hb
      have := I.wk b p hb
      have hpt : p ≠ t := by rintro rfl; exact this.2 hl.2
      exact ⟨by simpa [upd, hpt] using this.1, this.2⟩
    lt := by
      intro b p k
      refine all_keep (view := PC.late) (fun b hba hb => ?_) (fun hp => ?_) b
      · have h := I.lt b p k hb
        have hpt : p ≠ t := by
          rintro rfl
          apply hba
          refine I.act_inj b a p ?_ (by rw [ha]; rfl)
          cases hcb : c.th b <;> rw [hcb] at hb <;> simp_all [PC.late, PC.task]
        exact ⟨by simpa [upd, hpt] using h.1, h.2⟩
      · simp only [PC.late, Option.some.injEq, Prod.mk.injEq] at hp
        obtain ⟨rfl, rfl⟩ := hp
        exact ⟨by simp [upd]; omega, hl.2⟩
    skip := by
      intro v hv hs
      have := I.skip v hv hs
      refine ⟨this.1, ?_⟩
      refine forall_set (P := fun p => PC.resv p ≠ some v) ?_ (fun b _ => this.2 b)
      simp only [PC.resv, ne_eq, Option.some.injEq]
      rintro rfl
      -- all predecessors, including the vertex itself, are processed: it was delivered before
      have h0 := hcur _ hv
      simp only [upd, if_true] at h0
      rw [hn] at h0
      -- use the zero-counter lemma with the new progress
      have hz : 0 < upd prog t (prog t + 1) (S.dst j) := by
        by_contra hc
        have hz0 : upd prog t (prog t + 1) (S.dst j) = 0 := by omega
        have h1 : ∑ p ∈ range S.N, ((outE S p).take (upd prog t (prog t + 1) p)).count (S.dst j)
            = ∑ p ∈ range S.N, (outE S p).count (S.dst j) := by
          rw [← G.indeg_eq _ hv]
          have : ((∑ p ∈ range S.N, ((outE S p).take (upd prog t (prog t + 1) p)).count (S.dst j) : Nat) : Int)
              = (S.indeg (S.dst j) : Int) := by
            rw [Nat.cast_sum]; simp only [upd]; omega
          exact_mod_cast this
        have h2 := (Finset.sum_eq_sum_iff_of_le (fun p _ => take_count_le (outE S p) _ (S.dst j))).1 h1
          (S.dst j) (Finset.mem_range.2 hv)
        rw [hz0] at h2
        simp at h2
        have := List.count_pos_iff.2 hs
        omega
      exact this.1 (I.got_pushed (I.fin_got _ (hpf _ hz))) }

theorem inv_reserve (I : Inv S c prog pushed gp) (a : Fin T) (t j d : Nat)
    (ha : c.th a = .reserve t j d) :
    Inv S { c with d := { c.d with tail := c.d.tail + 1 },
                   th := setTh c.th a (.store t j d c.d.tail) } prog (pushed ++ [d]) gp := by
  have v1 := view_eq PC.task ha (p := .store t j d c.d.tail) rfl
  have v4 := view_eq PC.spn ha (p := .store t j d c.d.tail) rfl
  have v5 := view_eq PC.early ha (p := .store t j d c.d.tail) rfl
  have v6 := view_eq PC.late ha (p := .store t j d c.d.tail) rfl
  have hr := I.res_not a d (by rw [ha]; rfl)
  have htl := I.tail_le
  have hle1 : pushed.length + 1 ≤ S.N := by
    have hnd : (d :: pushed).Nodup := List.nodup_cons.2 ⟨hr.1, I.pu_nodup⟩
    have hsub : (d :: pushed) ⊆ List.range S.N := by
      intro v hv
      rw [List.mem_range]
      rcases List.mem_cons.1 hv with rfl | hv
      · exact hr.2
      · exact I.pu_lt v hv
    simpa using (hnd.subperm hsub).length_le
  have hold : ∀ (k v : Nat), pushed[k]? = some v → (pushed ++ [d])[k]? = some v := by
    intro k v hk
    rw [List.getElem?_append_left (List.getElem?_eq_some_iff.1 hk).1]; exact hk
  exact {
    prog_le := I.prog_le, cur_eq := I.cur_eq
    pu_nodup := by
      rw [List.nodup_append]
      refine ⟨I.pu_nodup, by simp, ?_⟩
      intro x hx y hy
      simp at hy; subst hy; rintro rfl; exact hr.1 hx
    pu_len := by simp [I.pu_len]
    pu_lt := by
      intro v hv
      rcases List.mem_append.1 hv with h | h
      · exact I.pu_lt v h
      · simp at h; subst h; exact hr.2
    q_hi := by
      intro k h1 h2; exact I.q_hi k (by dsimp only at h1; omega) h2
    gp_nodup := I.gp_nodup
    gp_tr := by
      rw [I.gp_tr]
      apply List.map_congr_left
      intro k hk
      obtain ⟨_, v, hv⟩ := I.gp_ok k hk
      rw [hold k v hv, hv]
    prog_fin := I.prog_fin, fin_got := I.fin_got, fin_nodup := I.fin_nodup, dep := I.dep
    pu_iff := by
      intro v hv
      dsimp only
      rw [I.pu_iff v hv]
      constructor
      · rintro (h | ⟨b, hb⟩)
        · exact Or.inl (List.mem_append_left _ h)
        · by_cases hvd : v = d
          · left; simp [hvd]
          · right; exact ex_keep ⟨b, hb⟩ (by rw [ha]; simp only [PC.resv, Option.some.injEq]; omega)
      · rintro (h | ⟨b, hb⟩)
        · rcases List.mem_append.1 h with h | h
          · exact Or.inl h
          · simp at h; subst h; exact Or.inr ⟨a, by rw [ha]; rfl⟩
        · right; revert hb
          exact all_keep (view := PC.resv) (fun b _ hb => ⟨b, hb⟩) (by simp [PC.resv]) b
    res_not := by
      intro b v
      refine all_keep (view := PC.resv) (fun b hba hb => ?_) (by simp [PC.resv]) b
      have := I.res_not b v hb
      refine ⟨?_, this.2⟩
      rw [List.mem_append]
      rintro (h | h)
      · exact this.1 h
      · simp at h; subst h
        exact hba (I.res_inj b a v hb (by rw [ha]; rfl))
    res_inj := I.res_inj.set a _ (by simp [PC.resv])
    q_st := by
      intro k v hk
      dsimp only
      by_cases hkl : k < pushed.length
      · rw [List.getElem?_append_left hkl] at hk
        rcases I.q_st k v hk with h | ⟨h1, h2⟩
        · exact Or.inl h
        · exact Or.inr ⟨h1, ex_keep h2 (by simp [ha, PC.sto])⟩
      · rw [List.getElem?_append_right (by omega)] at hk
        have hk0 : k = pushed.length := by
          by_contra hne
          have : k - pushed.length ≥ 1 := by omega
          rw [List.getElem?_eq_none (by simpa using this)] at hk
          cases hk
        subst hk0
        simp at hk; subst hk
        right
        refine ⟨I.q_hi _ (by rw [I.pu_len]) (by omega), a, ?_⟩
        rw [setTh_same, I.pu_len]; rfl
    sto_ok := by
      intro b k v
      refine all_keep (view := PC.sto) (fun b _ hb => hold k v (I.sto_ok b k v hb)) (fun hp => ?_) b
      simp only [PC.sto, Option.some.injEq, Prod.mk.injEq] at hp
      obtain ⟨rfl, rfl⟩ := hp
      rw [← I.pu_len]; simp
    sp_ok := by simpa only [v4] using I.sp_ok
    sp_inj := by simpa only [InjSome, v4] using I.sp_inj
    gp_ok := by
      intro k hk
      obtain ⟨h1, v, hv⟩ := I.gp_ok k hk
      exact ⟨h1, v, hold k v hv⟩
    cover := by simpa only [v4] using I.cover
    act_inj := by simpa only [InjSome, v1] using I.act_inj
    act_got := by simpa only [v1] using I.act_got
    got_st := by simpa only [v1] using I.got_st
    wk := by simpa only [v5] using I.wk
    lt := by simpa only [v6] using I.lt
    skip := by
      intro v hv hs
      have h := I.skip v hv hs
      refine ⟨?_, forall_set (P := fun p => PC.resv p ≠ some v) (by simp [PC.resv]) (fun b _ => h.2 b)⟩
      rw [List.mem_append]
      rintro (h' | h')
      · exact h.1 h'
      · simp at h'; subst h'; exact h.2 a (by rw [ha]; rfl) }

theorem inv_store (I : Inv S c prog pushed gp) (a : Fin T) (t j d pos : Nat)
    (ha : c.th a = .store t j d pos) :
    Inv S { c with d := { c.d with queue := upd c.d.queue pos (d : Int) },
                   th := setTh c.th a (.fin t j) } prog pushed gp := by
  have v1 := view_eq PC.task ha (p := .fin t j) rfl
  have v2 := view_eq PC.resv ha (p := .fin t j) rfl
  have v4 := view_eq PC.spn ha (p := .fin t j) rfl
  have v5 := view_eq PC.early ha (p := .fin t j) rfl
  have v6 := view_eq PC.late ha (p := .fin t j) rfl
  have hs := I.sto_ok a pos d (by rw [ha]; rfl)
  have hpl : pos < pushed.length := (List.getElem?_eq_some_iff.1 hs).1
  exact {
    prog_le := I.prog_le, cur_eq := I.cur_eq, pu_nodup := I.pu_nodup, pu_len := I.pu_len,
    pu_lt := I.pu_lt
    q_hi := by
      intro k h1 h2
      have : k ≠ pos := by rw [I.pu_len] at hpl; dsimp only at h1; omega
      simp only [upd, this, if_false]; exact I.q_hi k h1 h2
    gp_nodup := I.gp_nodup, gp_tr := I.gp_tr
    prog_fin := I.prog_fin, fin_got := I.fin_got, fin_nodup := I.fin_nodup, dep := I.dep
    pu_iff := by simpa only [v2] using I.pu_iff
    res_not := by simpa only [v2] using I.res_not
    res_inj := by simpa only [InjSome, v2] using I.res_inj
    q_st := by
      intro k v hk
      dsimp only
      by_cases hkp : k = pos
      · subst hkp; rw [hs] at hk; cases hk; left; simp [upd]
      · simp only [upd, hkp, if_false]
        rcases I.q_st k v hk with h | ⟨h1, h2⟩
        · exact Or.inl h
        · exact Or.inr ⟨h1, ex_keep h2 (by rw [ha]; simp only [PC.sto, Option.some.injEq, Prod.mk.injEq]; omega)⟩
    sto_ok := by
      intro b k v
      exact all_keep (view := PC.sto) (fun b _ hb => I.sto_ok b k v hb) (by simp [PC.sto]) b
    sp_ok := by simpa only [v4] using I.sp_ok
    sp_inj := by simpa only [InjSome, v4] using I.sp_inj
    gp_ok := I.gp_ok
    cover := by simpa only [v4] using I.cover
    act_inj := by simpa only [InjSome, v1] using I.act_inj
    act_got := by simpa only [v1] using I.act_got
    got_st := by simpa only [v1] using I.got_st
    wk := by simpa only [v5] using I.wk
    lt := by simpa only [v6] using I.lt
    skip := by simpa only [v2] using I.skip }

theorem inv_step (G : Good S) (I : Inv S c prog pushed gp) (f : Nat → (Nat → β) → β) (a : Fin T) :
    ∃ prog' pushed' gp', Inv S (step S f c a) prog' pushed' gp' := by
  have hN : S.numTask ≤ S.N := by
    rw [G.num_eq]
    have : 0 ≤ ∑ p ∈ range S.N, ((outE S p).count p : Int) := Finset.sum_nonneg (fun _ _ => by positivity)
    omega
  unfold step
  split
  · rename_i ha
    dsimp only
    split
    · rename_i h; exact ⟨_, _, _, inv_fetch_done I a ha h⟩
    · rename_i h; exact ⟨_, _, _, inv_fetch_spin I a ha h⟩
  · rename_i h ha
    split
    · exact ⟨_, _, _, I⟩
    · rename_i hq
      obtain ⟨gp', h'⟩ := inv_spin G I a h ha hq hN
      exact ⟨_, _, _, h'⟩
  · rename_i t ha; exact ⟨_, _, _, inv_work I a t _ ha⟩
  · rename_i t v ha; exact ⟨_, _, _, inv_write I a t v ha _⟩
  · rename_i t j ha
    split
    · rename_i hj
      dsimp only
      split
      · rename_i hn; exact ⟨_, _, _, inv_fin_res G I a t j ha hj hn⟩
      · rename_i hn; exact ⟨_, _, _, inv_fin_dec G I a t j ha hj hn⟩
    · rename_i hj; exact ⟨_, _, _, inv_fin_end I a t j ha hj⟩
  · rename_i t j d ha; exact ⟨_, _, _, inv_reserve I a t j d ha⟩
  · rename_i t j d pos ha; exact ⟨_, _, _, inv_store I a t j d pos ha⟩
  · exact ⟨_, _, _, I⟩

end steps

end H2Pack.DAG
