import Verif.Proof.DAGQueue

/-! # Task queue: initialisation, reachability, results, progress -/

namespace H2Pack.DAG
open Finset

variable {β : Type} {T : Nat}

theorem countInner_eq (i : Nat) (l : List Nat) : ∀ (a : (Nat → Nat) × Int),
    countInner i a l = (fun v => a.1 v + l.count v, a.2 - (l.count i : Int)) := by
  induction l with
  | nil => intro a; simp [countInner]
  | cons x l ih =>
    intro a
    have : countInner i a (x :: l) = countInner i (upd a.1 x (a.1 x + 1), if x = i then a.2 - 1 else a.2) l := rfl
    rw [this, ih]
    refine Prod.ext ?_ ?_
    · funext v
      simp only [upd, List.count_cons]
      by_cases h : v = x
      · subst h; simp; omega
      · have : (x == v) = false := by simpa using fun h' => h h'.symm
        simp [h, this]
    · simp only [List.count_cons]
      by_cases h : x = i
      · subst h; simp; omega
      · have : (x == i) = false := by simpa using h
        simp [h, this]

theorem countAll_aux (N : Nat) (src : Nat → Nat) (dst : Nat → Nat) (n : Nat) :
    (List.range n).foldl (fun a i => countInner i a (slice src dst i)) (fun _ => 0, (N : Int)) =
      (fun v => ∑ p ∈ range n, (slice src dst p).count v,
        (N : Int) - ∑ p ∈ range n, ((slice src dst p).count p : Int)) := by
  induction n with
  | zero => simp
  | succ n ih =>
    rw [List.range_succ, List.foldl_append, ih]
    simp only [List.foldl_cons, List.foldl_nil]
    rw [countInner_eq]
    refine Prod.ext ?_ ?_
    · funext v; simp [Finset.sum_range_succ]
    · simp only [Finset.sum_range_succ]; omega

theorem init_good {inp : Input} {g : Dyn} {S : Static} {d : Dyn} (h : init inp g = .ok S d) :
    Good S ∧ d = reset S g ∧ S.N = inp.maxTask ∧ S.src = inp.src ∧
      (∀ p < S.N, (outE S p).map (fun n : Nat => (n : Int)) = slice inp.src inp.dst p) := by
  unfold init at h
  split at h
  · cases h
  · split at h
    · rename_i hall
      dsimp only at h
      simp only [InitOutcome.ok.injEq] at h
      obtain ⟨hS, hd⟩ := h
      have hcnt := countAll_aux inp.maxTask inp.src (fun j => (inp.dst j).toNat) inp.maxTask
      have hr : ∀ p < inp.maxTask, ∀ x ∈ slice inp.src inp.dst p, 0 ≤ x ∧ x < inp.maxTask := by
        intro p hp x hx
        have := List.all_eq_true.1 hall p (List.mem_range.2 hp)
        simpa using List.all_eq_true.1 this x hx
      refine ⟨⟨?_, ?_, ?_⟩, ?_, ?_, ?_, ?_⟩
      · subst hS
        intro p hp x hx
        dsimp only [outE, slice] at hx hp ⊢
        rw [List.mem_map] at hx
        obtain ⟨j, hj, rfl⟩ := hx
        have := hr p hp (inp.dst j) (List.mem_map_of_mem hj)
        omega
      · subst hS
        intro v hv
        show (countAll _ _ _).1 v = _
        unfold countAll
        rw [hcnt]; rfl
      · subst hS
        show (countAll _ _ _).2 = _
        unfold countAll
        rw [hcnt]; rfl
      · subst hS; exact hd.symm
      · subst hS; rfl
      · subst hS; rfl
      · subst hS
        intro p hp
        dsimp only [outE, slice] at hp ⊢
        rw [List.map_map]
        apply List.map_congr_left
        intro j hj
        have := hr p hp (inp.dst j) (List.mem_map_of_mem hj)
        simp only [Function.comp]; omega
    · cases h

/-- indices of vertices without predecessors -/
def zeros (indeg : Nat → Nat) (n : Nat) : List Nat := (List.range n).filter (fun i => indeg i = 0)

theorem zeros_succ (indeg : Nat → Nat) (n : Nat) :
    zeros indeg (n+1) = zeros indeg n ++ (if indeg n = 0 then [n] else []) := by
  unfold zeros
  rw [List.range_succ, List.filter_append]
  congr 1
  by_cases h : indeg n = 0 <;> simp [h]

theorem zeros_len (indeg : Nat → Nat) (n : Nat) : (zeros indeg n).length ≤ n := by
  simpa [zeros] using List.length_filter_le (fun i => decide (indeg i = 0)) (List.range n)

theorem reset_loop (indeg : Nat → Nat) (d0 : Dyn) (h0 : d0.head = 0) (h1 : d0.tail = 0) (n : Nat) :
    let d := (List.range n).foldl (resetStep indeg) d0
    d.head = 0 ∧ d.tail = (zeros indeg n).length ∧ (∀ v < n, d.cur v = (indeg v : Int)) ∧
    (∀ (k v : Nat), (zeros indeg n)[k]? = some v → d.queue k = (v : Int)) ∧
    (∀ k, d.tail ≤ k → k < n → d.queue k = -1) := by
  induction n with
  | zero => simp [h0, h1, zeros]
  | succ n ih =>
    dsimp only at ih ⊢
    rw [List.range_succ, List.foldl_append]
    simp only [List.foldl_cons, List.foldl_nil]
    generalize hd : (List.range n).foldl (resetStep indeg) d0 = d at *
    obtain ⟨i1, i2, i3, i4, i5⟩ := ih
    have hzl := zeros_len indeg n
    unfold resetStep
    by_cases hz : indeg n = 0
    · simp only [hz, if_true]
      have hzs : zeros indeg (n+1) = zeros indeg n ++ [n] := by rw [zeros_succ]; simp [hz]
      refine ⟨i1, by rw [hzs]; simp [i2], ?_, ?_, ?_⟩
      · intro v hv
        unfold upd; split
        · rename_i h; subst h; rw [hz]
        · exact i3 v (by omega)
      · intro k v hk
        rw [hzs] at hk
        by_cases hkl : k < (zeros indeg n).length
        · rw [List.getElem?_append_left hkl] at hk
          unfold upd
          rw [if_neg (by omega), if_neg (by omega)]
          exact i4 k v hk
        · rw [List.getElem?_append_right (by omega)] at hk
          have hk0 : k = (zeros indeg n).length := by
            by_contra hne
            rw [List.getElem?_eq_none (by simp; omega)] at hk
            cases hk
          subst hk0
          simp at hk; subst hk
          unfold upd; rw [if_pos i2.symm]
      · intro k h2 h3
        unfold upd
        rw [if_neg (by omega)]
        split
        · rfl
        · exact i5 k (by omega) (by omega)
    · simp only [hz, if_false]
      have hzs : zeros indeg (n+1) = zeros indeg n := by rw [zeros_succ]; simp [hz]
      rw [hzs]
      refine ⟨i1, i2, ?_, ?_, ?_⟩
      · intro v hv
        unfold upd; split
        · rename_i h; subst h; rfl
        · exact i3 v (by omega)
      · intro k v hk
        have hkl : k < (zeros indeg n).length := (List.getElem?_eq_some_iff.1 hk).1
        unfold upd; rw [if_neg (by omega)]
        exact i4 k v hk
      · intro k h2 h3
        unfold upd; split
        · rfl
        · exact i5 k h2 (by omega)

theorem reset_facts (S : Static) (g : Dyn) :
    (reset S g).head = 0 ∧ (reset S g).tail = (zeros S.indeg S.N).length ∧
    (∀ v < S.N, (reset S g).cur v = (S.indeg v : Int)) ∧
    (∀ (k v : Nat), (zeros S.indeg S.N)[k]? = some v → (reset S g).queue k = (v : Int)) ∧
    (∀ k, (reset S g).tail ≤ k → k < S.N → (reset S g).queue k = -1) :=
  reset_loop S.indeg { g with head := 0, tail := 0 } rfl rfl S.N

theorem inv_start {S : Static} (G : Good S) (g : Dyn) (res : Nat → β) :
    Inv S (start T (reset S g) res) (fun _ => 0) (zeros S.indeg S.N) [] := by
  obtain ⟨h1, h2, h3, h4, h5⟩ := reset_facts S g
  have mem : ∀ v, v ∈ zeros S.indeg S.N ↔ v < S.N ∧ S.indeg v = 0 := by
    intro v; simp [zeros]
  exact {
    prog_le := by simp
    cur_eq := by intro v hv; simp [start, h3 v hv]
    pu_nodup := List.Nodup.filter _ List.nodup_range
    pu_len := h2.symm
    pu_lt := fun v hv => ((mem v).1 hv).1
    pu_iff := by
      intro v hv
      simp only [start, PC.resv, reduceCtorEq, exists_false, or_false]
      rw [h3 v hv, mem]; simp [hv]
    res_not := by simp [start, PC.resv]
    res_inj := by simp [InjSome, start, PC.resv]
    q_st := fun k v hk => Or.inl (h4 k v hk)
    sto_ok := by simp [start, PC.sto]
    q_hi := h5
    sp_ok := by simp [start, PC.spn]
    sp_inj := by simp [InjSome, start, PC.spn]
    gp_nodup := List.nodup_nil
    gp_ok := by simp
    gp_tr := rfl
    cover := by intro k hk; simp [start, h1] at hk
    act_inj := by simp [InjSome, start, PC.task]
    act_got := by simp [start, PC.task]
    got_st := by simp [start]
    wk := by simp [start, PC.early]
    lt := by simp [start, PC.late]
    prog_fin := by simp
    fin_got := by simp [start]
    fin_nodup := by simp [start]
    skip := by
      intro v hv hs
      refine ⟨?_, by simp [start, PC.resv]⟩
      rw [mem]; rintro ⟨_, h0⟩
      rw [G.indeg_eq v hv] at h0
      have := (Finset.sum_eq_zero_iff.1 h0) v (Finset.mem_range.2 hv)
      have h' := List.count_pos_iff.2 hs
      omega
    dep := by intro post a t pre h; simp [start] at h }

theorem inv_reach {S : Static} (G : Good S) (g : Dyn) (res : Nat → β) (f : Nat → (Nat → β) → β)
    {c : Config β T} (h : Reach S f (start T (reset S g) res) c) :
    ∃ prog pushed gp, Inv S c prog pushed gp := by
  induction h with
  | refl => exact ⟨_, _, _, inv_start G g res⟩
  | step a _ ih =>
    obtain ⟨p, q, r, I⟩ := ih
    exact inv_step G I f a

/-! ## Results of the client computation -/

/-- `R` is the value of the bottom-up evaluation at every task that is not skipped. -/
def IsEval (S : Static) (f : Nat → (Nat → β) → β) (R : Nat → β) : Prop :=
  ∀ t < S.N, t ∉ outE S t → R t = f t R

/-- The computation of a task reads only results of its direct predecessors. -/
def ReadsPreds (S : Static) (f : Nat → (Nat → β) → β) : Prop :=
  ∀ t r r', (∀ p < S.N, t ∈ outE S p → r p = r' p) → f t r = f t r'

def resInv (c : Config β T) (R : Nat → β) : Prop :=
  (∀ t ∈ fins c.trace, c.res t = R t) ∧ (∀ a t v, c.th a = .write t v → v = R t)

theorem dep_of_got {S : Static} {tr : List Event} (h : DepOK S tr) {t : Nat} (ht : t ∈ gots tr)
    {p : Nat} (hp : p < S.N) (he : t ∈ outE S p) : p ∈ fins tr := by
  unfold gots at ht
  rw [List.mem_filterMap] at ht
  obtain ⟨e, he1, he2⟩ := ht
  obtain ⟨post, pre, rfl⟩ := List.append_of_mem he1
  cases e with
  | got a t' =>
    simp at he2; subst he2
    have := h post a t' pre rfl p hp he
    unfold fins at this ⊢
    rw [List.filterMap_append, List.filterMap_cons]
    exact List.mem_append_right _ (by simpa using this)
  | finished a t' => simp at he2
  | gotNone a => simp at he2

theorem resInv_step {S : Static} (G : Good S) {f : Nat → (Nat → β) → β} {R : Nat → β}
    (hR : IsEval S f R) (hf : ReadsPreds S f) {c : Config β T} {prog pushed gp}
    (I : Inv S c prog pushed gp) (h : resInv c R) (a : Fin T) : resInv (step S f c a) R := by
  have keep : ∀ (p : PC β), (∀ t v, p ≠ .write t v) →
      (∀ b t v, setTh c.th a p b = .write t v → v = R t) := by
    intro p hp b t v hb
    by_cases hba : b = a
    · subst hba; rw [setTh_same] at hb; exact absurd hb (hp t v)
    · rw [setTh_ne _ _ hba] at hb; exact h.2 b t v hb
  unfold step
  split
  · dsimp only
    split
    · exact ⟨by simpa using h.1, keep _ (by simp)⟩
    · exact ⟨h.1, keep _ (by simp)⟩
  · split
    · exact h
    · exact ⟨by simpa using h.1, keep _ (by simp)⟩
  · rename_i t ha
    refine ⟨h.1, ?_⟩
    intro b t' v hb
    by_cases hba : b = a
    · subst hba
      dsimp only at hb
      rw [setTh_same] at hb
      simp only [PC.write.injEq] at hb
      obtain ⟨rfl, rfl⟩ := hb
      have hgot := I.act_got b t (by rw [ha]; rfl)
      have htN : t < S.N := I.task_lt (a := b) (by rw [ha]; rfl)
      have hns : t ∉ outE S t := fun hs => (I.skip t htN hs).1 (I.got_pushed hgot)
      rw [hR t htN hns]
      apply hf
      intro p hp he
      exact h.1 p (dep_of_got I.dep hgot hp he)
    · dsimp only at hb
      rw [setTh_ne _ _ hba] at hb; exact h.2 b t' v hb
  · rename_i t v ha
    have hv := h.2 a t v ha
    refine ⟨?_, keep _ (by simp)⟩
    intro p hp
    rw [fins_fin, List.mem_cons] at hp
    dsimp only [upd]
    split
    · rename_i hpt; rw [hpt]; exact hv
    · rename_i hpt; exact h.1 p (by rcases hp with h' | h'; exact absurd h' hpt; exact h')
  · split
    · dsimp only
      split
      · exact ⟨h.1, keep _ (by simp)⟩
      · exact ⟨h.1, keep _ (by simp)⟩
    · exact ⟨h.1, keep _ (by simp)⟩
  · exact ⟨h.1, keep _ (by simp)⟩
  · exact ⟨h.1, keep _ (by simp)⟩
  · exact h

theorem res_reach {S : Static} (G : Good S) (g : Dyn) (res : Nat → β) {f : Nat → (Nat → β) → β}
    {R : Nat → β} (hR : IsEval S f R) (hf : ReadsPreds S f)
    {c : Config β T} (h : Reach S f (start T (reset S g) res) c) : resInv c R := by
  induction h with
  | refl => exact ⟨by simp [start], by simp [start]⟩
  | step a hc ih =>
    obtain ⟨p, q, r, I⟩ := inv_reach G g res f hc
    exact resInv_step G hR hf I ih a

/-! ## Progress -/

/-- A thread is blocked if it has left the loop or waits for an empty slot. -/
def Blocked (c : Config β T) (a : Fin T) : Prop :=
  c.th a = .done ∨ ∃ h, c.th a = .spin h ∧ c.d.queue h = -1

/-- Acyclic up to skip marks, no task depends on a skipped one, one skip mark per vertex. -/
structure Schedulable (S : Static) (rank : Nat → Nat) : Prop where
  acyclic : ∀ p < S.N, ∀ v ∈ outE S p, v ≠ p → rank p < rank v
  nodep : ∀ p < S.N, p ∈ outE S p → ∀ v ∈ outE S p, v = p
  once : ∀ p < S.N, (outE S p).count p ≤ 1

theorem num_nonskip {S : Static} (G : Good S) {rank : Nat → Nat} (W : Schedulable S rank) :
    (((range S.N).filter (fun v => v ∉ outE S v)).card : Int) = S.numTask := by
  rw [G.num_eq]
  have h1 : ∑ p ∈ range S.N, ((outE S p).count p : Int) = (((range S.N).filter (fun v => v ∈ outE S v)).card : Int) := by
    rw [Finset.card_filter, Nat.cast_sum]
    apply Finset.sum_congr rfl
    intro p hp
    have ho := W.once p (Finset.mem_range.1 hp)
    by_cases h : p ∈ outE S p
    · have := List.count_pos_iff.2 h
      simp [h]; omega
    · simp [h, List.count_eq_zero.2 h]
  have h2 := Finset.card_filter_add_card_filter_not (s := range S.N) (fun v => v ∈ outE S v)
  rw [Finset.card_range] at h2
  rw [h1]; omega

theorem all_pushed {S : Static} (G : Good S) {rank : Nat → Nat} (W : Schedulable S rank)
    {c : Config β T} {prog pushed gp} (I : Inv S c prog pushed gp)
    (hres : ∀ a v, (c.th a).resv ≠ some v)
    (hfin : ∀ v ∈ pushed, prog v = (outE S v).length) :
    ∀ (n v : Nat), rank v < n → v < S.N → v ∉ outE S v → v ∈ pushed := by
  intro n
  induction n with
  | zero => intro v h; omega
  | succ n ih =>
    intro v hr hv hns
    have hzero : c.d.cur v = 0 := by
      rw [I.cur_eq v hv, G.indeg_eq v hv, Nat.cast_sum, sub_eq_zero]
      apply Finset.sum_congr rfl
      intro p hp
      have hpN := Finset.mem_range.1 hp
      by_cases he : v ∈ outE S p
      · have hvp : v ≠ p := by rintro rfl; exact hns he
        have hps : p ∉ outE S p := fun hs => hvp (W.nodep p hpN hs v he)
        have := ih p (by have := W.acyclic p hpN v he hvp; omega) hpN hps
        rw [hfin p this, List.take_length]
      · rw [List.count_eq_zero.2 he, List.count_eq_zero.2 (fun h => he (List.mem_of_mem_take h))]
    rcases (I.pu_iff v hv).1 hzero with h | ⟨a, h⟩
    · exact h
    · exact absurd h (hres a v)

/-- If every thread is blocked and there is at least one thread, then all threads are done and every
non-skipped task has been delivered and finished. -/
theorem blocked_all_done {S : Static} (G : Good S) {rank : Nat → Nat} (W : Schedulable S rank)
    {c : Config β T} {prog pushed gp} (I : Inv S c prog pushed gp) (hb : ∀ a, Blocked c a) :
    (∀ a, c.th a = .done) ∨ False := by
  left
  intro a0
  rcases hb a0 with h | ⟨h, ha0, hq⟩
  · exact h
  exfalso
  have hnoact : ∀ a t, (c.th a).task ≠ some t := by
    intro a t
    rcases hb a with h' | ⟨k, h', _⟩ <;> rw [h'] <;> simp [PC.task]
  have hnores : ∀ a v, (c.th a).resv ≠ some v := by
    intro a v
    rcases hb a with h' | ⟨k, h', _⟩ <;> rw [h'] <;> simp [PC.resv]
  have hnosto : ∀ a x, (c.th a).sto ≠ some x := by
    intro a v
    rcases hb a with h' | ⟨k, h', _⟩ <;> rw [h'] <;> simp [PC.sto]
  have hsp := I.sp_ok a0 h (by rw [ha0]; rfl)
  -- all stored
  have hstored : ∀ (k v : Nat), pushed[k]? = some v → c.d.queue k = (v : Int) := by
    intro k v hk
    rcases I.q_st k v hk with h' | ⟨_, b, hb'⟩
    · exact h'
    · exact absurd hb' (hnosto b _)
  have hge : pushed.length ≤ h := by
    by_contra hn
    obtain ⟨v, hv⟩ : ∃ v, pushed[h]? = some v := ⟨_, List.getElem?_eq_getElem (by omega)⟩
    have := hstored h v hv
    omega
  -- every pushed task was delivered
  have hdel : ∀ v ∈ pushed, v ∈ gots c.trace := by
    intro v hv
    obtain ⟨k, hk⟩ := List.mem_iff_getElem?.1 hv
    have hkl : k < pushed.length := (List.getElem?_eq_some_iff.1 hk).1
    rcases I.cover k (by omega) (by omega) with hg | ⟨b, hb'⟩
    · rw [I.gp_tr, List.mem_map]
      exact ⟨k, hg, by rw [hk]; rfl⟩
    · exfalso
      rcases hb b with h' | ⟨k', h', hq'⟩
      · rw [h'] at hb'; simp [PC.spn] at hb'
      · rw [h'] at hb'; simp only [PC.spn, Option.some.injEq] at hb'
        subst hb'
        have := hstored k' v hk
        omega
  have hfin : ∀ v ∈ pushed, prog v = (outE S v).length := by
    intro v hv
    rcases I.got_st v (hdel v hv) with ⟨b, hb'⟩ | h'
    · exact absurd hb' (hnoact b v)
    · exact h'.1
  have hall := all_pushed G W I hnores hfin
  have hsub : (range S.N).filter (fun v => v ∉ outE S v) ⊆ pushed.toFinset := by
    intro v hv
    rw [Finset.mem_filter, Finset.mem_range] at hv
    rw [List.mem_toFinset]
    exact hall (rank v + 1) v (by omega) hv.1 hv.2
  have hcard := Finset.card_le_card hsub
  rw [List.toFinset_card_of_nodup I.pu_nodup] at hcard
  have := num_nonskip G W
  omega

theorem done_all {S : Static} (G : Good S) {rank : Nat → Nat} (W : Schedulable S rank)
    {c : Config β T} {prog pushed gp} (I : Inv S c prog pushed gp) (hd : ∀ a, c.th a = .done)
    (hh : S.numTask ≤ c.d.head) :
    ∀ v < S.N, v ∉ outE S v → v ∈ gots c.trace ∧ v ∈ fins c.trace := by
  have hnoact : ∀ a t, (c.th a).task ≠ some t := by
    intro a t; rw [hd a]; simp [PC.task]
  have hgpfull : ∀ k : Nat, (k : Int) < S.numTask → k ∈ gp := by
    intro k hk
    rcases I.cover k (by omega) hk with h | ⟨b, hb⟩
    · exact h
    · rw [hd b] at hb; simp [PC.spn] at hb
  have hfingot : ∀ v ∈ gots c.trace, v ∈ fins c.trace := by
    intro v hv
    rcases I.got_st v hv with ⟨b, hb'⟩ | h'
    · exact absurd hb' (hnoact b v)
    · exact h'.2
  -- gots is a nodup list of non-skipped tasks of length ≥ numTask
  have hgn : (gots c.trace).Nodup := by
    rw [I.gp_tr]
    apply List.Nodup.map_on _ I.gp_nodup
    intro x hx y hy hxy
    obtain ⟨_, vx, hvx⟩ := I.gp_ok x hx
    obtain ⟨_, vy, hvy⟩ := I.gp_ok y hy
    rw [hvx, hvy] at hxy
    simp only [Option.getD_some] at hxy
    subst hxy
    obtain ⟨h1, e1⟩ := List.getElem?_eq_some_iff.1 hvx
    obtain ⟨h2, e2⟩ := List.getElem?_eq_some_iff.1 hvy
    exact (I.pu_nodup.getElem_inj_iff (hi := h1) (hj := h2)).1 (by rw [e1, e2])
  have hsub : (gots c.trace).toFinset ⊆ (range S.N).filter (fun v => v ∉ outE S v) := by
    intro v hv
    rw [List.mem_toFinset] at hv
    have hp := I.got_pushed hv
    rw [Finset.mem_filter, Finset.mem_range]
    exact ⟨I.pu_lt v hp, fun hs => (I.skip v (I.pu_lt v hp) hs).1 hp⟩
  have hlen : S.numTask.toNat ≤ (gots c.trace).length := by
    rw [I.gp_tr, List.length_map]
    have : List.range S.numTask.toNat ⊆ gp := by
      intro k hk
      rw [List.mem_range] at hk
      exact hgpfull k (by omega)
    simpa using (List.nodup_range.subperm this).length_le
  have heq : (gots c.trace).toFinset = (range S.N).filter (fun v => v ∉ outE S v) := by
    apply Finset.eq_of_subset_of_card_le hsub
    rw [List.toFinset_card_of_nodup hgn]
    have := num_nonskip G W
    omega
  intro v hv hns
  have : v ∈ gots c.trace := by
    rw [← List.mem_toFinset, heq, Finset.mem_filter, Finset.mem_range]
    exact ⟨hv, hns⟩
  exact ⟨this, hfingot v this⟩

/-! ## Bounded number of non-waiting steps -/

def PC.weight (S : Static) : PC β → Nat
  | .done => 0 | .fetch => 1 | .fin t j => 2 + 3 * (S.src (t+1) - j)
  | .store t j _ _ => 3 + 3 * (S.src (t+1) - j) | .reserve t j _ => 4 + 3 * (S.src (t+1) - j)
  | .write _ _ => 3 | .work _ => 4 | .spin _ => 5

/-- Number of edges of unfinished tasks. -/
def remE (S : Static) (l : List Nat) : Nat :=
  ∑ p ∈ range S.N, if p ∈ l then 0 else (outE S p).length

/-- Upper bound on the number of remaining non-waiting steps. -/
def potential (S : Static) (c : Config β T) : Nat :=
  5 * (S.numTask.toNat - c.d.head)
    + 3 * remE S (fins c.trace)
    + ∑ a, (c.th a).weight S

theorem sum_setTh (S : Static) (th : Fin T → PC β) (a : Fin T) (p : PC β) :
    (∑ b, (setTh th a p b).weight S) + (th a).weight S = (∑ b, (th b).weight S) + p.weight S := by
  rw [← Finset.add_sum_erase Finset.univ (fun b => (setTh th a p b).weight S) (Finset.mem_univ a),
      ← Finset.add_sum_erase Finset.univ (fun b => (th b).weight S) (Finset.mem_univ a)]
  have : ∑ x ∈ Finset.univ.erase a, (setTh th a p x).weight S = ∑ x ∈ Finset.univ.erase a, (th x).weight S := by
    apply Finset.sum_congr rfl
    intro x hx
    rw [setTh_ne _ _ (Finset.mem_erase.1 hx).1]
  rw [this, setTh_same]; omega

theorem sum_fin_cons (S : Static) (L : Nat → Nat) (l : List Nat) (t : Nat) (ht : t < S.N) (hn : t ∉ l) :
    (∑ p ∈ range S.N, if p ∈ t :: l then 0 else L p) + L t = ∑ p ∈ range S.N, if p ∈ l then 0 else L p := by
  rw [← Finset.add_sum_erase (range S.N) (fun p => if p ∈ t :: l then 0 else L p) (Finset.mem_range.2 ht),
      ← Finset.add_sum_erase (range S.N) (fun p => if p ∈ l then 0 else L p) (Finset.mem_range.2 ht)]
  have : ∑ x ∈ (range S.N).erase t, (if x ∈ t :: l then 0 else L x) =
      ∑ x ∈ (range S.N).erase t, (if x ∈ l then 0 else L x) := by
    apply Finset.sum_congr rfl
    intro x hx
    have := (Finset.mem_erase.1 hx).1
    simp [this]
  rw [this]; simp [hn]; omega

theorem potential_step {S : Static} {f : Nat → (Nat → β) → β} {c : Config β T} {prog pushed gp}
    (I : Inv S c prog pushed gp) (a : Fin T) (hb : ¬ Blocked c a) :
    potential S (step S f c a) < potential S c := by
  unfold step
  have hs := fun p => sum_setTh S c.th a p
  split
  · rename_i ha
    dsimp only
    split
    · have := hs .done
      rw [ha] at this
      simp only [potential, PC.weight, fins_none] at this ⊢
      omega
    · have := hs (.spin c.d.head)
      rw [ha] at this
      simp only [potential, PC.weight] at this ⊢
      omega
  · rename_i h ha
    split
    · rename_i hq; exact absurd (Or.inr ⟨h, ha, hq⟩) hb
    · have := hs (.work (c.d.queue h).toNat)
      rw [ha] at this
      simp only [potential, PC.weight, fins_got] at this ⊢
      omega
  · rename_i t ha
    have := hs (.write t (f t c.res))
    rw [ha] at this
    simp only [potential, PC.weight] at this ⊢
    omega
  · rename_i t v ha
    have := hs (.fin t (S.src t))
    have hw := I.wk a t (by rw [ha]; rfl)
    have htN : t < S.N := I.task_lt (a := a) (by rw [ha]; rfl)
    have h2 : remE S (t :: fins c.trace) + (outE S t).length = remE S (fins c.trace) :=
      sum_fin_cons S (fun p => (outE S p).length) (fins c.trace) t htN hw.2
    have h3 : (outE S t).length = S.src (t+1) - S.src t := by simp [outE, slice]
    rw [ha] at this
    simp only [potential, PC.weight, fins_fin] at this ⊢
    omega
  · rename_i t j ha
    split
    · dsimp only
      split
      · have := hs (.reserve t (j+1) (S.dst j))
        rw [ha] at this
        simp only [potential, PC.weight] at this ⊢
        omega
      · have := hs (.fin t (j+1))
        rw [ha] at this
        simp only [potential, PC.weight] at this ⊢
        omega
    · have := hs .fetch
      rw [ha] at this
      simp only [potential, PC.weight] at this ⊢
      omega
  · rename_i t j dst ha
    have := hs (.store t j dst c.d.tail)
    rw [ha] at this
    simp only [potential, PC.weight] at this ⊢
    omega
  · rename_i t j dst pos ha
    have := hs (.fin t j)
    rw [ha] at this
    simp only [potential, PC.weight] at this ⊢
    omega
  · rename_i ha; exact absurd (Or.inl ha) hb

theorem blocked_step {S : Static} {f : Nat → (Nat → β) → β} {c : Config β T} (a : Fin T)
    (hb : Blocked c a) : step S f c a = c := by
  unfold step
  rcases hb with h | ⟨k, h, hq⟩
  · rw [h]
  · rw [h]; simp [hq]

/-- A step of another thread does not block a thread. -/
theorem unblocked_step {S : Static} {f : Nat → (Nat → β) → β} {c : Config β T} (a b : Fin T)
    (hab : a ≠ b) (hb : ¬ Blocked c a) : ¬ Blocked (step S f c b) a := by
  have hth : (step S f c b).th a = c.th a := by
    unfold step
    split <;> (try dsimp only) <;> (try split) <;> (try dsimp only) <;> (try split) <;>
      first | rfl | exact setTh_ne _ _ hab
  have hqq : ∀ k, c.d.queue k ≠ -1 → (step S f c b).d.queue k ≠ -1 := by
    intro k hk
    unfold step
    split <;> (try dsimp only) <;> (try split) <;> (try dsimp only) <;> (try split) <;>
      (try exact hk)
    unfold upd; split
    · omega
    · exact hk
  rintro (h | ⟨k, h, hq⟩)
  · exact hb (Or.inl (hth ▸ h))
  · rw [hth] at h
    exact hb (Or.inr ⟨k, h, by by_contra hne; exact hqq k hne hq⟩)

/-- A thread that left the loop did so because the head counter passed the number of tasks. -/
theorem done_head {S : Static} {f : Nat → (Nat → β) → β} {c0 c : Config β T}
    (h0 : ∀ a, c0.th a ≠ .done) (h : Reach S f c0 c) : ∀ a, c.th a = .done → S.numTask ≤ c.d.head := by
  induction h with
  | refl => intro a ha; exact absurd ha (h0 a)
  | @step c b hc ih =>
    intro a ha
    have hm : c.d.head ≤ (step S f c b).d.head := by
      unfold step
      split <;> (try dsimp only) <;> (try split) <;> (try dsimp only) <;> (try split) <;>
        first | exact Nat.le_refl _ | exact Nat.le_succ _
    by_cases hd : c.th a = .done
    · have := ih a hd; omega
    · by_cases hab : a = b
      · subst hab
        have key : (c.d.head : Int) ≥ S.numTask := by
          clear hm
          unfold step at ha
          split at ha <;> (try dsimp only at ha) <;> (try split at ha) <;> (try dsimp only at ha) <;>
            (try split at ha) <;> (try dsimp only at ha) <;>
            (try (rw [setTh_same] at ha)) <;>
            first | assumption | cases ha | exact absurd ha hd
        omega
      · exfalso
        have hth : (step S f c b).th a = c.th a := by
          unfold step
          split <;> (try dsimp only) <;> (try split) <;> (try dsimp only) <;> (try split) <;>
            first | rfl | exact setTh_ne _ _ hab
        exact hd (hth ▸ ha)

/-- Execution under a scheduler: at time `n` thread `sched n` makes a step. -/
def run (S : Static) (f : Nat → (Nat → β) → β) (c0 : Config β T) (sched : Nat → Fin T) : Nat → Config β T
  | 0 => c0
  | n+1 => step S f (run S f c0 sched n) (sched n)

theorem run_reach (S : Static) (f : Nat → (Nat → β) → β) (c0 : Config β T) (sched : Nat → Fin T) (n : Nat) :
    Reach S f c0 (run S f c0 sched n) := by
  induction n with
  | zero => exact .refl
  | succ n ih => exact .step _ ih

theorem potential_mono {S : Static} {f : Nat → (Nat → β) → β} {c : Config β T} {prog pushed gp}
    (I : Inv S c prog pushed gp) (a : Fin T) : potential S (step S f c a) ≤ potential S c := by
  by_cases hb : Blocked c a
  · rw [blocked_step a hb]
  · exact (potential_step I a hb).le

theorem fair_reaches {S : Static} (G : Good S) {rank : Nat → Nat} (W : Schedulable S rank)
    (f : Nat → (Nat → β) → β) (g : Dyn) (res : Nat → β) (sched : Nat → Fin T)
    (fair : ∀ a n, ∃ m, n ≤ m ∧ sched m = a) :
    ∀ (k n : Nat), potential S (run S f (start T (reset S g) res) sched n) ≤ k →
      ∃ m, n ≤ m ∧ ∀ a, (run S f (start T (reset S g) res) sched m).th a = .done := by
  intro k
  induction k with
  | zero =>
    intro n hk
    refine ⟨n, le_rfl, ?_⟩
    obtain ⟨_, _, _, I⟩ := inv_reach G g res f (run_reach S f (start T (reset S g) res) sched n)
    rcases blocked_all_done G W I (fun a => by
      by_contra hb; have := potential_step (f := f) I a hb; omega) with h | h
    · exact h
    · exact h.elim
  | succ k ih =>
    intro n hk
    obtain ⟨_, _, _, I⟩ := inv_reach G g res f (run_reach S f (start T (reset S g) res) sched n)
    by_cases hall : ∀ a, Blocked (run S f (start T (reset S g) res) sched n) a
    · rcases blocked_all_done G W I hall with h | h
      · exact ⟨n, le_rfl, h⟩
      · exact h.elim
    · rw [Classical.not_forall] at hall
      obtain ⟨a, ha⟩ := hall
      obtain ⟨m, hm, hsm⟩ := fair a n
      -- first step at which potential drops
      have key : ∀ i, (∀ j < i, sched (n + j) ≠ a) →
          ¬ Blocked (run S f (start T (reset S g) res) sched (n + i)) a ∧
          potential S (run S f (start T (reset S g) res) sched (n + i)) ≤ k + 1 := by
        intro i
        induction i with
        | zero => intro _; exact ⟨ha, hk⟩
        | succ i ihi =>
          intro hj
          obtain ⟨h1, h2⟩ := ihi (fun j hj' => hj j (by omega))
          obtain ⟨_, _, _, I'⟩ := inv_reach G g res f (run_reach S f (start T (reset S g) res) sched (n + i))
          refine ⟨unblocked_step a _ (fun h => hj i (by omega) h.symm) h1, ?_⟩
          exact le_trans (potential_mono I' _) h2
      have hex : ∃ i, sched (n + i) = a := ⟨m - n, by rw [Nat.add_sub_cancel' hm]; exact hsm⟩
      classical
      have hi := Nat.find_spec hex
      have hmin := fun j (hj : j < Nat.find hex) => Nat.find_min hex hj
      obtain ⟨h1, h2⟩ := key (Nat.find hex) hmin
      obtain ⟨_, _, _, I'⟩ := inv_reach G g res f
        (run_reach S f (start T (reset S g) res) sched (n + Nat.find hex))
      have hlt := potential_step (f := f) I' a h1
      obtain ⟨m', hm', hd⟩ := ih (n + Nat.find hex + 1) (by
        show potential S (step S f _ (sched (n + Nat.find hex))) ≤ k
        rw [hi]; omega)
      exact ⟨m', by omega, hd⟩

/-! ## Results satisfy the defining equations -/

def eqInv (S : Static) (f : Nat → (Nat → β) → β) (c : Config β T) : Prop :=
  (∀ t ∈ fins c.trace, c.res t = f t c.res) ∧ (∀ a t v, c.th a = .write t v → v = f t c.res)

theorem eqInv_step {S : Static} {f : Nat → (Nat → β) → β}
    (hf : ReadsPreds S f) {c : Config β T} {prog pushed gp}
    (I : Inv S c prog pushed gp) (h : eqInv S f c) (a : Fin T) : eqInv S f (step S f c a) := by
  have keep : ∀ (p : PC β), (∀ t v, p ≠ .write t v) →
      (∀ b t v, setTh c.th a p b = .write t v → v = f t c.res) := by
    intro p hp b t v hb
    by_cases hba : b = a
    · subst hba; rw [setTh_same] at hb; exact absurd hb (hp t v)
    · rw [setTh_ne _ _ hba] at hb; exact h.2 b t v hb
  unfold step
  split
  · dsimp only
    split
    · exact ⟨by simpa using h.1, keep _ (by simp)⟩
    · exact ⟨h.1, keep _ (by simp)⟩
  · split
    · exact h
    · exact ⟨by simpa using h.1, keep _ (by simp)⟩
  · rename_i t ha
    refine ⟨h.1, ?_⟩
    intro b t' v hb
    by_cases hba : b = a
    · subst hba
      dsimp only at hb
      rw [setTh_same] at hb
      simp only [PC.write.injEq] at hb
      obtain ⟨rfl, rfl⟩ := hb
      rfl
    · dsimp only at hb
      rw [setTh_ne _ _ hba] at hb; exact h.2 b t' v hb
  · rename_i t v ha
    have hv := h.2 a t v ha
    have hw := I.wk a t (by rw [ha]; rfl)
    have stable : ∀ t', t' ∈ gots c.trace → f t' (upd c.res t v) = f t' c.res := by
      intro t' ht'
      apply hf
      intro p hp he
      have := dep_of_got I.dep ht' hp he
      unfold upd
      rw [if_neg (by rintro rfl; exact hw.2 this)]
    refine ⟨?_, ?_⟩
    · intro p hp
      rw [fins_fin, List.mem_cons] at hp
      dsimp only
      by_cases hpt : p = t
      · subst hpt
        rw [stable p (I.act_got a p (by rw [ha]; rfl))]
        unfold upd; rw [if_pos rfl]; exact hv
      · have hp' : p ∈ fins c.trace := by rcases hp with h' | h'; exact absurd h' hpt; exact h'
        rw [stable p (I.fin_got p hp')]
        unfold upd; rw [if_neg hpt]; exact h.1 p hp'
    · intro b t' v' hb
      dsimp only at hb ⊢
      by_cases hba : b = a
      · subst hba; rw [setTh_same] at hb; cases hb
      · rw [setTh_ne _ _ hba] at hb
        rw [stable t' (I.act_got b t' (by rw [hb]; rfl))]
        exact h.2 b t' v' hb
  · split
    · dsimp only
      split
      · exact ⟨h.1, keep _ (by simp)⟩
      · exact ⟨h.1, keep _ (by simp)⟩
    · exact ⟨h.1, keep _ (by simp)⟩
  · exact ⟨h.1, keep _ (by simp)⟩
  · exact ⟨h.1, keep _ (by simp)⟩
  · exact h

theorem eq_reach {S : Static} (G : Good S) (g : Dyn) (res : Nat → β) {f : Nat → (Nat → β) → β}
    (hf : ReadsPreds S f) {c : Config β T} (h : Reach S f (start T (reset S g) res) c) : eqInv S f c := by
  induction h with
  | refl => exact ⟨by simp [start], by simp [start]⟩
  | step a hc ih =>
    obtain ⟨p, q, r, I⟩ := inv_reach G g res f hc
    exact eqInv_step hf I ih a

theorem eval_unique {S : Static} {rank : Nat → Nat} (W : Schedulable S rank) {f : Nat → (Nat → β) → β}
    (hf : ReadsPreds S f) {R R' : Nat → β} (h : IsEval S f R) (h' : IsEval S f R') :
    ∀ (n t : Nat), rank t < n → t < S.N → t ∉ outE S t → R t = R' t := by
  intro n
  induction n with
  | zero => intro t h; omega
  | succ n ih =>
    intro t hr ht hns
    rw [h t ht hns, h' t ht hns]
    apply hf
    intro p hp he
    have hne : t ≠ p := by rintro rfl; exact hns he
    exact ih p (by have := W.acyclic p hp t he hne; omega) hp (fun hs => hne (W.nodep p hp hs t he))

/-- Number of non-waiting steps among the first `n` of a schedule. -/
noncomputable def workSteps (S : Static) (f : Nat → (Nat → β) → β) (c0 : Config β T) (sched : Nat → Fin T) :
    Nat → Nat
  | 0 => 0
  | n+1 => workSteps S f c0 sched n + (open Classical in if Blocked (run S f c0 sched n) (sched n) then 0 else 1)

theorem workSteps_le {S : Static} (G : Good S) (f : Nat → (Nat → β) → β) (g : Dyn) (res : Nat → β)
    (sched : Nat → Fin T) (n : Nat) :
    workSteps S f (start T (reset S g) res) sched n + potential S (run S f (start T (reset S g) res) sched n)
      ≤ potential S (start (β := β) T (reset S g) res) := by
  induction n with
  | zero => simp [workSteps, run]
  | succ n ih =>
    obtain ⟨_, _, _, I⟩ := inv_reach G g res f (run_reach S f (start T (reset S g) res) sched n)
    unfold workSteps
    simp only [run]
    split
    · rename_i hb; rw [blocked_step _ hb]; omega
    · rename_i hb; have := potential_step (f := f) I _ hb; omega

theorem potential_start (S : Static) (g : Dyn) (res : Nat → β) :
    potential S (start (β := β) T (reset S g) res) =
      5 * S.numTask.toNat + 3 * (∑ p ∈ range S.N, (outE S p).length) + T := by
  simp [potential, start, (reset_facts S g).1, remE, PC.weight]

end H2Pack.DAG
