/-!
# Model of the DAG task queue (src/DAG_task_queue.c) and of its client loop

Arrays are functions from indices; `int` is unbounded.  All accesses to the
shared variables `task_head`, `task_tail`, `task_queue[]`, `curr_indeg[]` use
`__ATOMIC_SEQ_CST` in the code, so a step of the transition system is one
atomic operation of one thread and executions are arbitrary interleavings.
-/

namespace H2Pack.DAG

/-- Arguments of `DAG_task_queue_init` (src/DAG_task_queue.c:12-15): the CSR
matrix of the dependency DAG.  `dst` is signed as in C. -/
structure Input where
  maxTask : Nat
  numDep  : Nat
  src     : Nat → Nat
  dst     : Nat → Int

/-- The fields of `DAG_task_queue_s` that are constant after initialisation
(src/DAG_task_queue.h: max_task_id, num_task, DAG_src_ptr, DAG_dst_idx, indeg). -/
structure Static where
  N       : Nat
  numTask : Int
  src     : Nat → Nat
  dst     : Nat → Nat
  indeg   : Nat → Nat

/-- The fields that change (task_head, task_tail, task_queue, curr_indeg).
`queue k = -1` is "not available yet". -/
structure Dyn where
  head  : Nat
  tail  : Nat
  queue : Nat → Int
  cur   : Nat → Int

/-- One-point update of an array. -/
def upd {β : Type} (f : Nat → β) (i : Nat) (v : β) : Nat → β := fun k => if k = i then v else f k

/-- The CSR slice `DAG_dst_idx[DAG_src_ptr[i] .. DAG_src_ptr[i+1]-1]`. -/
def slice (src : Nat → Nat) {β : Type} (dst : Nat → β) (i : Nat) : List β :=
  (List.range' (src i) (src (i+1) - src i)).map dst

/-- src/DAG_task_queue.c:45-50, the inner loop of the counting phase for vertex `i`. -/
def countInner (i : Nat) (a : (Nat → Nat) × Int) (dsts : List Nat) : (Nat → Nat) × Int :=
  dsts.foldl (fun a d =>
    (upd a.1 d (a.1 d + 1), if d = i then a.2 - 1 else a.2)) a

/-- src/DAG_task_queue.c:42-51, both loops of the counting phase. -/
def countAll (N : Nat) (src : Nat → Nat) (dst : Nat → Nat) : (Nat → Nat) × Int :=
  (List.range N).foldl (fun a i => countInner i a (slice src dst i)) (fun _ => 0, (N : Int))

/-- src/DAG_task_queue.c:123-132, one iteration of the loop of
`DAG_task_queue_reset`. -/
def resetStep (indeg : Nat → Nat) (d : Dyn) (i : Nat) : Dyn :=
  let cur := upd d.cur i (indeg i : Int)                        -- line 125
  let queue := upd d.queue i (-1)                               -- line 126
  if indeg i = 0 then                                           -- line 127
    { d with cur := cur, queue := upd queue d.tail (i : Int), tail := d.tail + 1 }  -- 129-130
  else { d with cur := cur, queue := queue }

/-- src/DAG_task_queue.c:118-133, `DAG_task_queue_reset`; `d` is the arbitrary
previous content of the dynamic fields. -/
def reset (S : Static) (d : Dyn) : Dyn :=
  (List.range S.N).foldl (resetStep S.indeg) { d with head := 0, tail := 0 }

/-- Outcome of `DAG_task_queue_init`.  `ub`: an index of `DAG_dst_idx` is outside
`0..max_task_id-1`, so line 49 writes outside `indeg`.  `badNumDep`: lines 33-37,
an error message is printed and `*tq_` is left unset. -/
inductive InitOutcome where
  | ub
  | badNumDep
  | ok (S : Static) (d : Dyn)

/-- src/DAG_task_queue.c:12-56, `DAG_task_queue_init`.  `garbage` is the content
of the freshly malloc'ed dynamic fields. Allocation failure is not modelled. -/
def init (inp : Input) (garbage : Dyn) : InitOutcome :=
  if inp.numDep ≠ inp.src inp.maxTask then .badNumDep
  else if (List.range inp.maxTask).all (fun i =>
      (slice inp.src inp.dst i).all (fun d => decide (0 ≤ d ∧ d < inp.maxTask))) then
    let dst : Nat → Nat := fun j => (inp.dst j).toNat
    let c := countAll inp.maxTask inp.src dst
    let S : Static := ⟨inp.maxTask, c.2, inp.src, dst, c.1⟩
    .ok S (reset S garbage)
  else .ub

/-- Program counter of one worker thread, executing the client loop
`node = get_task(); while (node != -1) { ...; finish_task(node); node = get_task(); }`
(src/H2Pack_build.c:91-93, 221-223). -/
inductive PC (β : Type) where
  /-- about to execute the fetch-add of src/DAG_task_queue.c:80 -/
  | fetch
  /-- in the waiting loop of lines 85-90 with `task_head = h` -/
  | spin (h : Nat)
  /-- `get_task` returned `t`; the client reads its inputs -/
  | work (t : Nat)
  /-- the client has computed the result `v` of `t` and is about to store it -/
  | write (t : Nat) (v : β)
  /-- in `finish_task(t)`, about to test `j < DAG_src_ptr[t+1]` (line 100) -/
  | fin (t j : Nat)
  /-- line 105 returned 0 for `dst`; about to execute line 110 -/
  | reserve (t j d : Nat)
  /-- about to execute line 111 with `task_tail = pos` -/
  | store (t j d pos : Nat)
  /-- `get_task` returned -1 -/
  | done

/-- Observable API events. -/
inductive Event where
  /-- `get_task` returned the task -/
  | got (tid t : Nat)
  /-- `finish_task` was called for the task -/
  | finished (tid t : Nat)
  /-- `get_task` returned -1 -/
  | gotNone (tid : Nat)
deriving DecidableEq, Repr

/-- Global state: queue, worker threads, results of the client computation and
the trace of API events so far (most recent first). -/
structure Config (β : Type) (T : Nat) where
  d     : Dyn
  th    : Fin T → PC β
  res   : Nat → β
  trace : List Event

/-- Set the program counter of thread `a`. -/
def setTh {β : Type} {T : Nat} (th : Fin T → PC β) (a : Fin T) (p : PC β) : Fin T → PC β :=
  fun b => if b = a then p else th b

/-- One atomic step of thread `a`.  `f t r` is the client computation for task `t`
when the result array is `r` (src/H2Pack_build.c:94-218: U, J, J_coord of the node). -/
def step {β : Type} {T : Nat} (S : Static) (f : Nat → (Nat → β) → β) (c : Config β T) (a : Fin T) :
    Config β T :=
  match c.th a with
  | .fetch =>                                               -- lines 80-81
    let h := c.d.head
    let d := { c.d with head := h + 1 }
    if (h : Int) ≥ S.numTask then
      { c with d := d, th := setTh c.th a .done, trace := .gotNone a :: c.trace }
    else { c with d := d, th := setTh c.th a (.spin h) }
  | .spin h =>                                              -- lines 85-92
    if c.d.queue h = -1 then c
    else { c with th := setTh c.th a (.work (c.d.queue h).toNat)
                  trace := .got a (c.d.queue h).toNat :: c.trace }
  | .work t => { c with th := setTh c.th a (.write t (f t c.res)) }
  | .write t v =>
    { c with res := upd c.res t v, th := setTh c.th a (.fin t (S.src t))
             trace := .finished a t :: c.trace }
  | .fin t j =>                                             -- lines 100-108
    if j < S.src (t+1) then
      let dst := S.dst j
      let n := c.d.cur dst - 1
      let d := { c.d with cur := upd c.d.cur dst n }
      if n = 0 then { c with d := d, th := setTh c.th a (.reserve t (j+1) dst) }
      else { c with d := d, th := setTh c.th a (.fin t (j+1)) }
    else { c with th := setTh c.th a .fetch }
  | .reserve t j dst =>                                     -- line 110
    { c with d := { c.d with tail := c.d.tail + 1 }
             th := setTh c.th a (.store t j dst c.d.tail) }
  | .store t j dst pos =>                                   -- line 111
    { c with d := { c.d with queue := upd c.d.queue pos (dst : Int) }
             th := setTh c.th a (.fin t j) }
  | .done => c

/-- Start of a parallel region: all threads are about to call `get_task`. -/
def start {β : Type} (T : Nat) (d : Dyn) (res : Nat → β) : Config β T :=
  ⟨d, fun _ => .fetch, res, []⟩

/-- States reachable by some interleaving. -/
inductive Reach {β : Type} {T : Nat} (S : Static) (f : Nat → (Nat → β) → β) (c0 : Config β T) :
    Config β T → Prop where
  | refl : Reach S f c0 c0
  | step {c : Config β T} (a : Fin T) : Reach S f c0 c → Reach S f c0 (step S f c a)

/-- src/H2Pack_partition.c:686-705: the dependency DAG of the upward sweep of an
H2/HSS matrix.  `parent root = -1`. -/
def upwardDAG (nNode : Nat) (level : Nat → Nat) (parent : Nat → Int) (minAdmLevel : Nat) : Input where
  maxTask := nNode
  numDep  := nNode
  src     := fun node => node
  dst     := fun node => if level node < minAdmLevel then (node : Int) else parent node

/-- src/H2Pack_partition_periodic.c:313-334: the same for a periodic H2 matrix, where
the root (the last node) has no destination. -/
def upwardDAGPeriodic (nNode : Nat) (level : Nat → Nat) (parent : Nat → Int) (minAdmLevel : Nat) : Input where
  maxTask := nNode
  numDep  := nNode - 1
  src     := fun node => if node = nNode then nNode - 1 else node
  dst     := fun node => if level node < minAdmLevel then (node : Int) else parent node

/-- Sequential bottom-up sweep over the nodes in index (post) order that skips the
nodes above `minAdmLevel`: the reference result of the construction. -/
def seqSweep {β : Type} (nNode : Nat) (skip : Nat → Bool) (f : Nat → (Nat → β) → β) (res : Nat → β) : Nat → β :=
  (List.range nNode).foldl (fun r t => if skip t then r else upd r t (f t r)) res

end H2Pack.DAG
