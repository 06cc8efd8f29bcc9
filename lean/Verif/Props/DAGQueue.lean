import Verif.Proof.DAGQueue2

/-!
# Properties of the DAG task queue (C15-C19, C41)

Specification vocabulary, independent of the queue implementation:
an edge of the input graph, a skip mark, and chronological traces of API events.
-/

namespace H2Pack.DAG
open Finset

/-- Specification: the input says that task `t` depends on task `p` (edge `p → t`). -/
def Dep (inp : Input) (p t : Nat) : Prop := p < inp.maxTask ∧ (t : Int) ∈ slice inp.src inp.dst p

/-- Specification: a task is marked as skipped by a self edge. -/
def Skipped (inp : Input) (t : Nat) : Prop := Dep inp t t

/-- Specification: conditions on the input graph under which all tasks can be executed: apart
from self edges it is acyclic, skipped tasks have no other successors, and a skip mark is given
at most once. -/
structure Executable (inp : Input) : Prop where
  acyclic : ∃ rank : Nat → Nat, ∀ p t, Dep inp p t → t ≠ p → rank p < rank t
  skippedHasNoSucc : ∀ p, Skipped inp p → ∀ t, Dep inp p t → t = p
  skipOnce : ∀ p, p < inp.maxTask → (slice inp.src inp.dst p).count (p : Int) ≤ 1

/-- A state of `T` worker threads reachable from an initialised queue: `DAG_task_queue_init`
succeeded on `inp`, then any sequence of atomic steps of the threads was executed. -/
def Execution {β : Type} {T : Nat} (inp : Input) (f : Nat → (Nat → β) → β) (c : Config β T) : Prop :=
  ∃ garbage S d res, init inp garbage = .ok S d ∧ Reach S f (start T d res) c

/-- The thread is in the waiting loop of `get_task` and its slot is still empty, or it received -1. -/
def Waiting {β : Type} {T : Nat} (c : Config β T) (a : Fin T) : Prop :=
  c.th a = .done ∨ ∃ h, c.th a = .spin h ∧ c.d.queue h = -1

section
variable {β : Type} {T : Nat} {inp : Input} {f : Nat → (Nat → β) → β} {c : Config β T}

theorem dep_iff {S : Static} {g d : Dyn} (h : init inp g = .ok S d) (p t : Nat) :
    Dep inp p t ↔ p < S.N ∧ t ∈ outE S p := by
  obtain ⟨_, _, hN, _, hE⟩ := init_good h
  unfold Dep
  rw [← hN]
  constructor
  · rintro ⟨hp, ht⟩
    rw [← hE p hp, List.mem_map] at ht
    obtain ⟨x, hx, hxt⟩ := ht
    have : x = t := by exact_mod_cast hxt
    exact ⟨hp, this ▸ hx⟩
  · rintro ⟨hp, ht⟩
    refine ⟨hp, ?_⟩
    rw [← hE p hp]
    exact List.mem_map_of_mem (f := fun n : Nat => (n : Int)) ht

theorem count_iff {S : Static} {g d : Dyn} (h : init inp g = .ok S d) (p t : Nat) (hp : p < S.N) :
    (slice inp.src inp.dst p).count (t : Int) = (outE S p).count t := by
  obtain ⟨_, _, hN, _, hE⟩ := init_good h
  rw [← hE p hp]
  exact List.count_map_of_injective _ (fun n : Nat => (n : Int)) (fun a b hab => Int.ofNat.inj hab) _

theorem schedulable_of {S : Static} {g d : Dyn} (h : init inp g = .ok S d) (W : Executable inp) :
    ∃ rank, Schedulable S rank := by
  obtain ⟨rank, hr⟩ := W.acyclic
  refine ⟨rank, ⟨?_, ?_, ?_⟩⟩
  · intro p hp v hv hne
    exact hr p v ((dep_iff h p v).2 ⟨hp, hv⟩) hne
  · intro p hp hs v hv
    exact W.skippedHasNoSucc p ((dep_iff h p p).2 ⟨hp, hs⟩) v ((dep_iff h p v).2 ⟨hp, hv⟩)
  · intro p hp
    rw [← count_iff h p p hp]
    exact W.skipOnce p ((init_good h).2.2.1 ▸ hp)

/-- unpacking of an execution -/
theorem exec_unpack (hx : Execution inp f c) : ∃ g S d res, init inp g = .ok S d ∧ Good S ∧
    d = reset S g ∧ S.N = inp.maxTask ∧ Reach S f (start T (reset S g) res) c := by
  obtain ⟨g, S, d, res, hi, hr⟩ := hx
  obtain ⟨G, hd, hN, _, _⟩ := init_good hi
  exact ⟨g, S, d, res, hi, G, hd, hN, hd ▸ hr⟩

theorem mem_gots {tr : List Event} {t : Nat} : t ∈ gots tr ↔ ∃ a, Event.got a t ∈ tr := by
  unfold gots
  rw [List.mem_filterMap]
  constructor
  · rintro ⟨e, he, h⟩
    cases e with
    | got a t' => simp at h; subst h; exact ⟨a, he⟩
    | finished a t' => simp at h
    | gotNone a => simp at h
  · rintro ⟨a, h⟩; exact ⟨_, h, rfl⟩

theorem mem_fins {tr : List Event} {t : Nat} : t ∈ fins tr ↔ ∃ a, Event.finished a t ∈ tr := by
  unfold fins
  rw [List.mem_filterMap]
  constructor
  · rintro ⟨e, he, h⟩
    cases e with
    | got a t' => simp at h
    | finished a t' => simp at h; subst h; exact ⟨a, he⟩
    | gotNone a => simp at h
  · rintro ⟨a, h⟩; exact ⟨_, h, rfl⟩

theorem gots_nodup {S : Static} {prog pushed gp} (I : Inv S c prog pushed gp) : (gots c.trace).Nodup := by
  rw [I.gp_tr]
  apply List.Nodup.map_on _ I.gp_nodup
  intro x hx y hy hxy
  obtain ⟨_, vx, hvx⟩ := I.gp_ok x hx
  obtain ⟨_, vy, hvy⟩ := I.gp_ok y hy
  rw [hvx, hvy] at hxy
  simp only [Option.getD_some] at hxy
  subst hxy
  obtain ⟨h1, e1⟩ := List.getElem?_eq_some_iff.1 hvx
  obtain ⟨h2, e2⟩ := List.getElem?_eq_some_iff.1 hvy
  exact (I.pu_nodup.getElem_inj_iff (hi := h1) (hj := h2)).1 (by rw [e1, e2])

/-- **C15**.  In every execution (any number of threads, any interleaving) the list of task ids
returned by `get_task` has no duplicates, contains only valid ids and no skipped task. -/
theorem C15_at_most_once (hx : Execution inp f c) :
    (c.trace.filterMap (fun e => match e with | .got _ t => some t | _ => none)).Nodup ∧
    ∀ a t, Event.got a t ∈ c.trace → t < inp.maxTask ∧ ¬ Skipped inp t := by
  obtain ⟨g, S, d, res, hi, G, hd, hN, hr⟩ := exec_unpack hx
  obtain ⟨_, _, _, I⟩ := inv_reach G g res f hr
  refine ⟨gots_nodup I, fun a t ht => ?_⟩
  have hp := I.got_pushed (mem_gots.2 ⟨a, ht⟩)
  have hlt := I.pu_lt t hp
  refine ⟨hN ▸ hlt, fun hs => ?_⟩
  exact (I.skip t hlt ((dep_iff hi t t).1 hs).2).1 hp

/-- **C15** (finish side).  No task is finished twice, and only delivered tasks are finished. -/
theorem C15_finished_once (hx : Execution inp f c) :
    (c.trace.filterMap (fun e => match e with | .finished _ t => some t | _ => none)).Nodup ∧
    ∀ a t, Event.finished a t ∈ c.trace → ∃ b, Event.got b t ∈ c.trace := by
  obtain ⟨g, S, d, res, hi, G, hd, hN, hr⟩ := exec_unpack hx
  obtain ⟨_, _, _, I⟩ := inv_reach G g res f hr
  exact ⟨I.fin_nodup, fun a t ht => mem_gots.1 (I.fin_got t (mem_fins.2 ⟨a, ht⟩))⟩

/-- **C16**.  In chronological order: whenever `get_task` returns `t`, `finish_task` had been
called before for every task `p` that `t` depends on. -/
theorem C16_dependencies (hx : Execution inp f c) (pre post : List Event) (a t : Nat)
    (htr : c.trace.reverse = pre ++ Event.got a t :: post) (p : Nat) (hp : Dep inp p t) :
    ∃ b, Event.finished b p ∈ pre := by
  obtain ⟨g, S, d, res, hi, G, hd, hN, hr⟩ := exec_unpack hx
  obtain ⟨_, _, _, I⟩ := inv_reach G g res f hr
  have h1 : c.trace = post.reverse ++ Event.got a t :: pre.reverse := by
    have := congrArg List.reverse htr
    simpa using this
  obtain ⟨hp1, hp2⟩ := (dep_iff hi p t).1 hp
  obtain ⟨b, hb⟩ := mem_fins.1 (I.dep _ _ _ _ h1 p hp1 hp2)
  exact ⟨b, by simpa using hb⟩

/-- **C17** (no deadlock).  If all threads are waiting (for an empty slot, or already out of the
loop), then all threads have received -1 and every non-skipped task was delivered and finished. -/
theorem C17_no_deadlock (W : Executable inp) (hx : Execution inp f c) (hT : 0 < T)
    (hw : ∀ a, Waiting c a) :
    (∀ a, c.th a = .done) ∧
    ∀ t < inp.maxTask, ¬ Skipped inp t →
      (∃ a, Event.got a t ∈ c.trace) ∧ ∃ a, Event.finished a t ∈ c.trace := by
  obtain ⟨g, S, d, res, hi, G, hd, hN, hr⟩ := exec_unpack hx
  obtain ⟨_, _, _, I⟩ := inv_reach G g res f hr
  obtain ⟨rank, W'⟩ := schedulable_of hi W
  have hdone : ∀ a, c.th a = .done := by
    rcases blocked_all_done G W' I hw with h | h
    · exact h
    · exact h.elim
  refine ⟨hdone, fun t ht hns => ?_⟩
  have hh := done_head (f := f) (c0 := start T (reset S g) res) (by simp [start]) hr ⟨0, hT⟩ (hdone _)
  have := done_all G W' I hdone hh t (hN ▸ ht) (fun hs => hns ((dep_iff hi t t).2 ⟨hN ▸ ht, hs⟩))
  exact ⟨mem_gots.1 this.1, mem_fins.1 this.2⟩

/-- **C17** (bounded work).  Under every schedule the number of non-waiting steps is bounded by
a number that depends only on the graph and the number of threads. -/
theorem C17_bounded_work {S : Static} {g d : Dyn} (res : Nat → β) (hi : init inp g = .ok S d)
    (sched : Nat → Fin T) (n : Nat) :
    workSteps S f (start T d res) sched n ≤
      5 * inp.maxTask + 3 * (∑ p ∈ range inp.maxTask, (slice inp.src inp.dst p).length) + T := by
  obtain ⟨G, hd, hN, _, hE⟩ := init_good hi
  subst hd
  have h1 := workSteps_le G f g res sched n
  rw [potential_start] at h1
  have h2 : S.numTask.toNat ≤ inp.maxTask := by
    have : (0:Int) ≤ ∑ p ∈ range S.N, ((outE S p).count p : Int) :=
      Finset.sum_nonneg (fun p _ => by positivity)
    rw [G.num_eq, ← hN]; omega
  have h3 : (∑ p ∈ range inp.maxTask, (slice inp.src inp.dst p).length) =
      ∑ p ∈ range S.N, (outE S p).length := by
    rw [hN]
    apply Finset.sum_congr rfl
    intro p hp
    rw [← hE p (hN ▸ Finset.mem_range.1 hp), List.length_map]
  rw [h3]; omega

/-- **C17** (termination).  Under every fair schedule of at least one thread there is a time at
which all threads have received -1 and every non-skipped task has been delivered and finished. -/
theorem C17_fair_termination (W : Executable inp) {S : Static} {g d : Dyn} (res : Nat → β)
    (hi : init inp g = .ok S d) (hT : 0 < T) (sched : Nat → Fin T)
    (fair : ∀ a n, ∃ m, n ≤ m ∧ sched m = a) :
    ∃ m, (∀ a, (run S f (start T d res) sched m).th a = .done) ∧
      ∀ t < inp.maxTask, ¬ Skipped inp t →
        (∃ a, Event.got a t ∈ (run S f (start T d res) sched m).trace) ∧
        ∃ a, Event.finished a t ∈ (run S f (start T d res) sched m).trace := by
  obtain ⟨G, hd, hN, _, hE⟩ := init_good hi
  obtain ⟨rank, W'⟩ := schedulable_of hi W
  obtain ⟨m, _, hm⟩ := fair_reaches G W' f g res sched fair _ 0 le_rfl
  rw [← hd] at hm
  refine ⟨m, hm, ?_⟩
  exact (C17_no_deadlock (f := f) W ⟨g, S, d, res, hi, run_reach _ _ _ _ _⟩ hT (fun a => Or.inl (hm a))).2

/-- **C18**.  Whatever the content of the queue (`d`: any history), `DAG_task_queue_reset` makes it
equal to the freshly initialised queue in every field and every array element. -/
theorem C18_reset {S : Static} {g d0 : Dyn} (hi : init inp g = .ok S d0) (d : Dyn) :
    (reset S d).head = d0.head ∧ (reset S d).tail = d0.tail ∧
    (∀ v < inp.maxTask, (reset S d).cur v = d0.cur v) ∧
    (∀ k < inp.maxTask, (reset S d).queue k = d0.queue k) := by
  obtain ⟨G, hd, hN, _, hE⟩ := init_good hi
  subst hd
  obtain ⟨a1, a2, a3, a4, a5⟩ := reset_facts S d
  obtain ⟨b1, b2, b3, b4, b5⟩ := reset_facts S g
  rw [← hN]
  refine ⟨by rw [a1, b1], by rw [a2, b2], fun v hv => by rw [a3 v hv, b3 v hv], fun k hk => ?_⟩
  by_cases hk2 : k < (zeros S.indeg S.N).length
  · obtain ⟨v, hv⟩ : ∃ v, (zeros S.indeg S.N)[k]? = some v := ⟨_, List.getElem?_eq_getElem hk2⟩
    rw [a4 k v hv, b4 k v hv]
  · rw [a5 k (by omega) hk, b5 k (by omega) hk]

/-- **C18** (reuse).  Running the threads again after a reset that follows any history gives an
execution with all the guarantees above: it is an execution from an initialised queue. -/
theorem C18_reuse {S : Static} {g d0 : Dyn} (hi : init inp g = .ok S d0) (d : Dyn) (res : Nat → β)
    (h : Reach S f (start T (reset S d) res) c) : Execution inp f c := by
  have hi2 : init inp d = .ok S (reset S d) := by
    have hd := (init_good hi).2.1
    unfold init at hi ⊢
    split at hi
    · cases hi
    · rename_i hne
      rw [if_neg hne]
      split at hi
      · rename_i hall
        rw [if_pos hall]
        simp only [InitOutcome.ok.injEq] at hi ⊢
        exact ⟨hi.1, by rw [hi.1]⟩
      · cases hi
  exact ⟨d, S, _, res, hi2, h⟩

/-- Specification: the client computation of a task reads only results of tasks it depends on. -/
def ReadsDeps (inp : Input) (f : Nat → (Nat → β) → β) : Prop :=
  ∀ t r r', (∀ p, Dep inp p t → r p = r' p) → f t r = f t r'

/-- **C19** (results).  When all threads have received -1, the stored result of every non-skipped
task is the client computation applied to the final results of its dependencies. -/
theorem C19_results (W : Executable inp) (hf : ReadsDeps inp f) (hx : Execution inp f c) (hT : 0 < T)
    (hd : ∀ a, c.th a = .done) : ∀ t < inp.maxTask, ¬ Skipped inp t → c.res t = f t c.res := by
  intro t ht hns
  have hfin := ((C17_no_deadlock W hx hT (fun a => Or.inl (hd a))).2 t ht hns).2
  obtain ⟨g, S, d, res, hi, G, hd, hN, hr⟩ := exec_unpack hx
  have hf' : ReadsPreds S f := fun t r r' h => hf t r r' (fun p hp => by
    obtain ⟨h1, h2⟩ := (dep_iff hi p t).1 hp; exact h p h1 h2)
  exact (eq_reach G g res hf' hr).1 t (mem_fins.2 hfin)

/-- **C19** (schedule independence).  Two complete executions, with any two numbers of threads, any
two schedules, any initial contents, have the same result at every non-skipped task. -/
theorem C19_schedule_independent {T' : Nat} {c' : Config β T'} (W : Executable inp) (hf : ReadsDeps inp f)
    (hx : Execution inp f c) (hx' : Execution inp f c') (hT : 0 < T) (hT' : 0 < T')
    (hd : ∀ a, c.th a = .done) (hd' : ∀ a, c'.th a = .done) :
    ∀ t < inp.maxTask, ¬ Skipped inp t → c.res t = c'.res t := by
  have e1 := C19_results W hf hx hT hd
  have e2 := C19_results W hf hx' hT' hd'
  obtain ⟨g, S, d, res, hi, G, _, hN, hr⟩ := exec_unpack hx
  obtain ⟨rank, W'⟩ := schedulable_of hi W
  have hf' : ReadsPreds S f := fun t r r' h => hf t r r' (fun p hp => by
    obtain ⟨h1, h2⟩ := (dep_iff hi p t).1 hp; exact h p h1 h2)
  intro t ht hns
  have conv : ∀ t < S.N, t ∉ outE S t → t < inp.maxTask ∧ ¬ Skipped inp t := fun t ht hn =>
    ⟨hN ▸ ht, fun hs => hn ((dep_iff hi t t).1 hs).2⟩
  refine eval_unique W' hf' (R := c.res) (R' := c'.res) ?_ ?_ (rank t + 1) t (by omega) (hN ▸ ht)
    (fun hs => hns ((dep_iff hi t t).2 ⟨hN ▸ ht, hs⟩))
  · intro t ht hn; exact e1 t (conv t ht hn).1 (conv t ht hn).2
  · intro t ht hn; exact e2 t (conv t ht hn).1 (conv t ht hn).2

/-- **C41**.  Every array index used by the queue operations of every thread in every reachable
state is inside the arrays of length `max_task_id`: the slot read by a waiting `get_task`, the
slot written when pushing, the counter decremented and the task id stored. -/
theorem C41_in_bounds (hx : Execution inp f c) (a : Fin T) :
    (∀ h, c.th a = .spin h → h < inp.maxTask) ∧
    (∀ t j d, c.th a = .reserve t j d → c.d.tail < inp.maxTask ∧ d < inp.maxTask) ∧
    (∀ t j d pos, c.th a = .store t j d pos → pos < inp.maxTask) ∧
    (∀ t j, c.th a = .fin t j → t < inp.maxTask ∧
      (j < inp.src (t+1) → 0 ≤ inp.dst j ∧ inp.dst j < inp.maxTask)) := by
  obtain ⟨g, S, d, res, hi, G, hd, hN, hr⟩ := exec_unpack hx
  obtain ⟨prog, pushed, gp, I⟩ := inv_reach G g res f hr
  have hnum : S.numTask ≤ S.N := by
    have : (0:Int) ≤ ∑ p ∈ range S.N, ((outE S p).count p : Int) :=
      Finset.sum_nonneg (fun p _ => by positivity)
    rw [G.num_eq]; omega
  have htl := I.tail_le
  rw [← hN]
  refine ⟨?_, ?_, ?_, ?_⟩
  · intro h ha
    have := I.sp_ok a h (by rw [ha]; rfl)
    omega
  · intro t j v ha
    have hv := I.res_not a v (by rw [ha]; rfl)
    refine ⟨?_, hv.2⟩
    have hnd : (v :: pushed).Nodup := List.nodup_cons.2 ⟨hv.1, I.pu_nodup⟩
    have hsub : v :: pushed ⊆ List.range S.N := by
      intro x hx
      rcases List.mem_cons.1 hx with rfl | hx
      · exact List.mem_range.2 hv.2
      · exact List.mem_range.2 (I.pu_lt x hx)
    have := (hnd.subperm hsub).length_le
    simp [I.pu_len] at this
    omega
  · intro t j v pos ha
    have := I.sto_ok a pos v (by rw [ha]; rfl)
    have := (List.getElem?_eq_some_iff.1 this).1
    rw [I.pu_len] at this; omega
  · intro t j ha
    have htN : t < S.N := I.task_lt (a := a) (by rw [ha]; rfl)
    refine ⟨htN, fun hj => ?_⟩
    have hl := (I.lt a t j (by rw [ha]; rfl)).1
    obtain ⟨_, _, _, hsrc, hE⟩ := init_good hi
    have hmem : inp.dst j ∈ slice inp.src inp.dst t := by
      unfold slice
      apply List.mem_map_of_mem
      rw [List.mem_range'_1, ← hsrc]
      rw [hsrc] at hl ⊢
      omega
    rw [← hE t htN, List.mem_map] at hmem
    obtain ⟨x, hx1, hx2⟩ := hmem
    have := G.dstlt t htN x hx1
    omega

end

/-! ## The DAG of the upward sweep -/

/-- Specification of the tree arrays used by the upward DAG (established by the partitioning, C10):
the last node is the root at level 0 with parent -1; every other node has a parent with a larger
index, one level above. -/
structure UpTree (nNode : Nat) (level : Nat → Nat) (parent : Nat → Int) : Prop where
  pos : 0 < nNode
  root : parent (nNode - 1) = -1 ∧ level (nNode - 1) = 0
  up : ∀ i, i + 1 < nNode → (i : Int) < parent i ∧ parent i < nNode ∧ level (parent i).toNat + 1 = level i

section
variable {nNode : Nat} {level : Nat → Nat} {parent : Nat → Int} {m : Nat}

theorem up_slice (i : Nat) : slice (upwardDAG nNode level parent m).src (upwardDAG nNode level parent m).dst i =
    [if level i < m then (i : Int) else parent i] := by
  simp [slice, upwardDAG]

/-- For the trees of the partitioning with `min_adm_level ≥ 1` the initialisation succeeds and the
graph satisfies the requirements of C17 and C19. -/
theorem upward_executable (h : UpTree nNode level parent) (hm : 1 ≤ m) :
    Executable (upwardDAG nNode level parent m) ∧
    (∀ g, ∃ S d, init (upwardDAG nNode level parent m) g = .ok S d) ∧
    (∀ t < nNode, Skipped (upwardDAG nNode level parent m) t ↔ level t < m) := by
  have hmt : (upwardDAG nNode level parent m).maxTask = nNode := rfl
  have hrange : ∀ i < nNode, 0 ≤ (if level i < m then (i : Int) else parent i) ∧
      (if level i < m then (i : Int) else parent i) < nNode := by
    intro i hi
    by_cases hl : level i < m
    · simp only [hl, if_true]; omega
    · simp only [hl, if_false]
      by_cases hi2 : i + 1 < nNode
      · have := h.up i hi2; omega
      · have : i = nNode - 1 := by omega
        subst this
        have := h.root.2; omega
  have hskip : ∀ t < nNode, Skipped (upwardDAG nNode level parent m) t ↔ level t < m := by
    intro t ht
    unfold Skipped Dep
    rw [up_slice, hmt]
    by_cases hl : level t < m
    · simp [hl, ht]
    · simp only [hl, if_false, ht, true_and, List.mem_singleton, iff_false]
      by_cases hi2 : t + 1 < nNode
      · have := h.up t hi2; omega
      · have : t = nNode - 1 := by omega
        subst this
        have := h.root.2; omega
  refine ⟨⟨⟨fun i => i, ?_⟩, ?_, ?_⟩, ?_, hskip⟩
  · rintro p t ⟨hp, ht⟩ hne
    rw [up_slice, List.mem_singleton] at ht
    rw [hmt] at hp
    show p < t
    by_cases hl : level p < m
    · simp only [hl, if_true] at ht; omega
    · simp only [hl, if_false] at ht
      by_cases hi2 : p + 1 < nNode
      · have := h.up p hi2; omega
      · have : p = nNode - 1 := by omega
        subst this
        have := h.root.2; omega
  · rintro p ⟨hp, hs⟩ t ⟨_, ht⟩
    rw [up_slice, List.mem_singleton] at ht hs
    omega
  · intro p _
    rw [up_slice]
    exact List.count_le_length
  · intro g
    unfold init
    rw [if_neg (by simp [upwardDAG]), if_pos]
    · exact ⟨_, _, rfl⟩
    · rw [List.all_eq_true]
      intro i hi
      rw [List.mem_range, hmt] at hi
      rw [up_slice, hmt]
      simpa using hrange i hi

/-- Without an admissible level (`min_adm_level = 0`) the parent -1 of the root is used as an array
index: undefined behaviour, for every tree. -/
theorem upward_ub_level_zero (h : UpTree nNode level parent) (g : Dyn) :
    init (upwardDAG nNode level parent 0) g = .ub := by
  unfold init
  rw [if_neg (by simp [upwardDAG]), if_neg]
  rw [List.all_eq_true]
  intro hall
  have := hall (nNode - 1) (List.mem_range.2 (by have := h.pos; simp [upwardDAG]; omega))
  rw [up_slice] at this
  simp [h.root.1] at this

/-- the sequential sweep satisfies the defining equations -/
theorem seqSweep_eq {β : Type} (skip : Nat → Bool) (f : Nat → (Nat → β) → β) (res : Nat → β)
    (hf : ∀ t r r', (∀ p, p < t → skip p = false → r p = r' p) → f t r = f t r') (n : Nat) :
    (∀ t < n, skip t = false → seqSweep n skip f res t = f t (seqSweep n skip f res)) := by
  induction n with
  | zero => intro t ht; omega
  | succ n ih =>
    intro t ht hs
    have hstep : seqSweep (n+1) skip f res =
        if skip n then seqSweep n skip f res else upd (seqSweep n skip f res) n (f n (seqSweep n skip f res)) := by
      unfold seqSweep; rw [List.range_succ, List.foldl_append]; rfl
    rw [hstep]
    by_cases hn : skip n = true
    · simp only [hn, if_true]
      exact ih t (by
        rcases Nat.lt_succ_iff_lt_or_eq.1 ht with h | h
        · exact h
        · subst h; rw [hs] at hn; cases hn) hs
    · simp only [hn, if_false, Bool.false_eq_true]
      by_cases htn : t = n
      · subst htn
        have : upd (seqSweep t skip f res) t (f t (seqSweep t skip f res)) t = f t (seqSweep t skip f res) := by
          simp [upd]
        rw [this]
        apply hf
        intro p hp _
        unfold upd; rw [if_neg (by omega)]
      · have : upd (seqSweep n skip f res) n (f n (seqSweep n skip f res)) t = seqSweep n skip f res t := by
          unfold upd; rw [if_neg htn]
        rw [this, ih t (by omega) hs]
        apply hf
        intro p hp _
        unfold upd; rw [if_neg (by omega)]

/-- **C19** (construction).  When all threads have received -1, the stored result of every node that is not skipped is the node function
applied to the final results of the children. -/
theorem C19_upward_results {β : Type} {T : Nat} {f : Nat → (Nat → β) → β} {c : Config β T}
    (h : UpTree nNode level parent) (hm : 1 ≤ m)
    (hf : ∀ (t : Nat) r r', (∀ p < nNode, parent p = (t : Int) → r p = r' p) → f t r = f t r')
    (hx : Execution (upwardDAG nNode level parent m) f c) (hT : 0 < T) (hd : ∀ a, c.th a = .done) :
    ∀ t < nNode, m ≤ level t → c.res t = f t c.res := by
  obtain ⟨W, _, hs⟩ := upward_executable h hm
  obtain ⟨dflt, _⟩ : ∃ b, b = c.res 0 := ⟨_, rfl⟩
  -- children of a node at level ≥ m are at level ≥ m, below nNode and smaller than the node
  have child : ∀ t < nNode, m ≤ level t → ∀ p < nNode, parent p = (t : Int) → p < t ∧ m ≤ level p := by
    intro t ht hl p hp hpt
    by_cases hp2 : p + 1 < nNode
    · have := h.up p hp2
      rw [hpt] at this
      simp only [Int.toNat_natCast] at this
      omega
    · have : p = nNode - 1 := by omega
      subst this
      have := h.root.1; omega
  have hfd : ReadsDeps (upwardDAG nNode level parent m)
      (fun t r => open Classical in if t < nNode ∧ m ≤ level t then f t r else dflt) := by
    intro t r r' hr
    dsimp only
    split
    · rename_i hh
      apply hf
      intro p hp hpt
      apply hr
      refine ⟨hp, ?_⟩
      rw [up_slice, List.mem_singleton]
      have := child t hh.1 hh.2 p hp hpt
      rw [if_neg (by omega)]; exact hpt.symm
    · rfl
  intro t ht hl
  have hns : ¬ Skipped (upwardDAG nNode level parent m) t := by rw [hs t ht]; omega
  have hfin := ((C17_no_deadlock W hx hT (fun a => Or.inl (hd a))).2 t ht hns).2
  obtain ⟨g, S, d, res0, hi, G, _, hN, hr⟩ := exec_unpack hx
  -- replace f by the restricted function along the execution
  have hfeq : ∀ c : Config β T, Reach S f (start T (reset S g) res0) c →
      Reach S (fun t r => open Classical in if t < nNode ∧ m ≤ level t then f t r else dflt)
        (start T (reset S g) res0) c := by
    intro c hc
    induction hc with
    | refl => exact .refl
    | @step c a hc ih =>
      have : step S f c a = step S (fun t r => open Classical in if t < nNode ∧ m ≤ level t then f t r else dflt) c a := by
        unfold step
        split <;> try rfl
        rename_i t' ha
        obtain ⟨_, _, _, I⟩ := inv_reach G g res0 f hc
        have hg := I.act_got a t' (by rw [ha]; rfl)
        have hp := I.got_pushed hg
        have hlt : t' < nNode := by have := I.pu_lt t' hp; rw [hN] at this; exact this
        have hns : ¬ level t' < m := fun hl =>
          (I.skip t' (I.pu_lt t' hp) ((dep_iff hi t' t').1 ((hs t' hlt).2 hl)).2).1 hp
        dsimp only
        rw [if_pos ⟨hlt, by omega⟩]
      rw [this]
      exact .step a ih
  have hf' : ReadsPreds S (fun t r => open Classical in if t < nNode ∧ m ≤ level t then f t r else dflt) :=
    fun t r r' h => hfd t r r' (fun p hp => by
      obtain ⟨h1, h2⟩ := (dep_iff hi p t).1 hp; exact h p h1 h2)
  have := (eq_reach G g res0 hf' (hfeq c hr)).1 t (mem_fins.2 hfin)
  dsimp only at this
  rw [if_pos ⟨ht, hl⟩] at this
  exact this

/-- **C19** (construction).  For every tree, every `min_adm_level ≥ 1`, every node function that
reads only the results of the node's children, every number of threads and every schedule, the
parallel construction ends with exactly the results of the sequential bottom-up sweep. -/
theorem C19_upward_equals_sequential {β : Type} {T : Nat} {f : Nat → (Nat → β) → β} {c : Config β T}
    (h : UpTree nNode level parent) (hm : 1 ≤ m)
    (hf : ∀ (t : Nat) r r', (∀ p < nNode, parent p = (t : Int) → r p = r' p) → f t r = f t r')
    (hx : Execution (upwardDAG nNode level parent m) f c) (hT : 0 < T) (hd : ∀ a, c.th a = .done)
    (res : Nat → β) :
    ∀ t < nNode, m ≤ level t →
      c.res t = seqSweep nNode (fun t => decide (level t < m)) f res t := by
  obtain ⟨W, _, hs⟩ := upward_executable h hm
  -- children of a node at level ≥ m are at level ≥ m, below nNode and smaller than the node
  have child : ∀ t < nNode, m ≤ level t → ∀ p < nNode, parent p = (t : Int) → p < t ∧ m ≤ level p := by
    intro t ht hl p hp hpt
    by_cases hp2 : p + 1 < nNode
    · have := h.up p hp2
      rw [hpt] at this
      simp only [Int.toNat_natCast] at this
      omega
    · have : p = nNode - 1 := by omega
      subst this
      have := h.root.1; omega
  -- restrict the node function to the tasks that are executed
  have hseq : ∀ t < nNode, m ≤ level t → seqSweep nNode (fun t => decide (level t < m)) f res t =
      f t (seqSweep nNode (fun t => decide (level t < m)) f res) := by
    classical
    let f' : Nat → (Nat → β) → β := fun t r => if t < nNode ∧ m ≤ level t then f t r else res 0
    have hsame : seqSweep nNode (fun t => decide (level t < m)) f res =
        seqSweep nNode (fun t => decide (level t < m)) f' res := by
      unfold seqSweep
      have : ∀ (l : List Nat), (∀ x ∈ l, x < nNode) → ∀ r : Nat → β,
          l.foldl (fun r t => if decide (level t < m) then r else upd r t (f t r)) r =
          l.foldl (fun r t => if decide (level t < m) then r else upd r t (f' t r)) r := by
        intro l
        induction l with
        | nil => intro _ r; rfl
        | cons x l ih =>
          intro hl r
          simp only [List.foldl_cons]
          rw [ih (fun y hy => hl y (List.mem_cons_of_mem _ hy))]
          congr 1
          by_cases hx : level x < m
          · simp [hx]
          · simp only [hx, decide_false, Bool.false_eq_true, if_false, f']
            rw [if_pos ⟨hl x (by simp), by omega⟩]
      exact this _ (fun x hx => List.mem_range.1 hx) res
    intro t ht hl
    rw [hsame, seqSweep_eq (fun t => decide (level t < m)) f' res ?_ nNode t ht (by simpa using hl)]
    · simp only [f']; rw [if_pos ⟨ht, hl⟩]
    · intro t r r' hr
      simp only [f']
      split
      · rename_i hh
        apply hf
        intro p hp hpt
        have := child t hh.1 hh.2 p hp hpt
        exact hr p this.1 (by simpa using this.2)
      · rfl
  intro t ht hl
  have heq := C19_upward_results h hm hf hx hT hd
  -- uniqueness by induction on the node index
  have uniq : ∀ (n t : Nat), t < n → t < nNode → m ≤ level t →
      c.res t = seqSweep nNode (fun t => decide (level t < m)) f res t := by
    intro n
    induction n with
    | zero => intro t h; omega
    | succ n ih =>
      intro t htn ht hl
      rw [heq t ht hl, hseq t ht hl]
      apply hf
      intro p hp hpt
      have := child t ht hl p hp hpt
      exact ih p (by omega) hp this.2
  exact uniq (t+1) t (by omega) ht hl

end

/-! ## The DAG of the upward sweep of a periodic matrix -/

section
variable {nNode : Nat} {level : Nat → Nat} {parent : Nat → Int}

theorem upP_slice (i : Nat) (hi : i + 1 < nNode) :
    slice (upwardDAGPeriodic nNode level parent 0).src (upwardDAGPeriodic nNode level parent 0).dst i = [parent i] := by
  have h1 : i ≠ nNode := by omega
  have h2 : i + 1 ≠ nNode := by omega
  simp [slice, upwardDAGPeriodic, h1, h2]

theorem upP_slice_root (h : 0 < nNode) :
    slice (upwardDAGPeriodic nNode level parent 0).src (upwardDAGPeriodic nNode level parent 0).dst (nNode - 1) = [] := by
  have h1 : nNode - 1 ≠ nNode := by omega
  have h2 : nNode - 1 + 1 = nNode := by omega
  simp [slice, upwardDAGPeriodic, h1, h2]

/-- Periodic case (`min_adm_level = 0`): initialisation succeeds for every tree, including the
single-node tree, no task is skipped, and C17 and C19 apply. -/
theorem upward_periodic_executable (h : UpTree nNode level parent) :
    Executable (upwardDAGPeriodic nNode level parent 0) ∧
    (∀ g, ∃ S d, init (upwardDAGPeriodic nNode level parent 0) g = .ok S d) ∧
    (∀ t, ¬ Skipped (upwardDAGPeriodic nNode level parent 0) t) := by
  have hmt : (upwardDAGPeriodic nNode level parent 0).maxTask = nNode := rfl
  have hdep : ∀ p t, Dep (upwardDAGPeriodic nNode level parent 0) p t → p + 1 < nNode ∧ parent p = (t : Int) := by
    rintro p t ⟨hp, ht⟩
    rw [hmt] at hp
    by_cases hi2 : p + 1 < nNode
    · rw [upP_slice p hi2, List.mem_singleton] at ht; exact ⟨hi2, ht.symm⟩
    · have : p = nNode - 1 := by omega
      subst this
      rw [upP_slice_root h.pos] at ht; cases ht
  have hskip : ∀ t, ¬ Skipped (upwardDAGPeriodic nNode level parent 0) t := by
    intro t hs
    obtain ⟨h1, h2⟩ := hdep t t hs
    have := h.up t h1; omega
  refine ⟨⟨⟨fun i => i, ?_⟩, ?_, ?_⟩, ?_, hskip⟩
  · intro p t hd _
    obtain ⟨h1, h2⟩ := hdep p t hd
    have := h.up p h1
    show p < t
    omega
  · intro p hs; exact absurd hs (hskip p)
  · intro p hp
    rw [hmt] at hp
    by_cases hi2 : p + 1 < nNode
    · rw [upP_slice p hi2]; exact List.count_le_length
    · have : p = nNode - 1 := by omega
      subst this
      rw [upP_slice_root h.pos]; simp
  · intro g
    unfold init
    rw [if_neg (by simp [upwardDAGPeriodic]), if_pos]
    · exact ⟨_, _, rfl⟩
    · rw [List.all_eq_true]
      intro i hi
      rw [List.mem_range, hmt] at hi
      by_cases hi2 : i + 1 < nNode
      · rw [upP_slice i hi2, hmt]
        have := h.up i hi2
        simp; omega
      · have : i = nNode - 1 := by omega
        subst this
        rw [upP_slice_root h.pos]; simp

end

/-! ## Non-vacuity and negative witnesses -/

/-- A concrete tree: root 6 with children 2 and 5, leaves 0,1 under 2 and 3,4 under 5. -/
def exLevel : Nat → Nat := fun i => [2, 2, 1, 2, 2, 1, 0].getD i 0
def exParent : Nat → Int := fun i => [2, 2, 6, 5, 5, 6, -1].getD i 0

theorem exTree : UpTree 7 exLevel exParent :=
  ⟨by decide, by decide, by
    intro i hi
    have : i = 0 ∨ i = 1 ∨ i = 2 ∨ i = 3 ∨ i = 4 ∨ i = 5 := by omega
    rcases this with h | h | h | h | h | h <;> subst h <;> decide⟩

/-- The hypotheses of C15-C19 and C41 are met by this tree with `min_adm_level = 1`: the queue
initialises, the graph is executable, exactly the root is skipped, and a fair schedule of three
threads completes. -/
example : Executable (upwardDAG 7 exLevel exParent 1) ∧
    Skipped (upwardDAG 7 exLevel exParent 1) 6 ∧ ¬ Skipped (upwardDAG 7 exLevel exParent 1) 2 ∧
    ∃ (S : Static) (d : Dyn) (n : Nat), init (upwardDAG 7 exLevel exParent 1) ⟨0, 0, fun _ => 0, fun _ => 0⟩ = .ok S d ∧
      (∀ a, (run S (fun t r => r 0 + t) (start 3 d (fun _ => 0)) (fun n => ⟨n % 3, Nat.mod_lt _ (by decide)⟩) n).th a
        = .done) := by
  obtain ⟨W, hi, hs⟩ := upward_executable (m := 1) exTree (le_refl 1)
  obtain ⟨S, d, hSd⟩ := hi ⟨0, 0, fun _ => 0, fun _ => 0⟩
  refine ⟨W, (hs 6 (by decide)).2 (by decide), fun h => absurd ((hs 2 (by decide)).1 h) (by decide), S, d, ?_⟩
  obtain ⟨m, hm, _⟩ := C17_fair_termination (T := 3) (f := fun t r => r 0 + t) W (fun _ => 0) hSd (by decide)
    (fun n => ⟨n % 3, Nat.mod_lt _ (by decide)⟩)
    (by
      intro a n
      refine ⟨3 * n + a.val, by omega, Fin.ext ?_⟩
      show (3 * n + a.val) % 3 = a.val
      have := a.isLt; omega)
  exact ⟨m, hSd, hm⟩

/-- A task that depends on a skipped task is never delivered: the requirement of C17 is needed.
Task 0 is skipped, task 1 depends on task 0; one thread waits for ever. -/
theorem C17_skipped_dependency_deadlocks :
    ∃ (inp : Input) (S : Static) (d : Dyn) (c : Config Nat 1),
      init inp ⟨0, 0, fun _ => 0, fun _ => 0⟩ = .ok S d ∧
      Reach S (fun _ _ => 0) (start 1 d (fun _ => 0)) c ∧
      (∀ a, Waiting c a) ∧ ¬ ∀ a, c.th a = .done := by
  let inp : Input := ⟨2, 2, fun i => [0, 2, 2].getD i 0, fun j => [0, 1].getD j 0⟩
  refine ⟨inp, _, _, _, rfl, .step 0 .refl, ?_, ?_⟩
  · intro a
    have : a = 0 := Fin.ext (by omega)
    subst this
    exact Or.inr ⟨0, rfl, rfl⟩
  · intro h
    have := h 0
    cases this

end H2Pack.DAG
