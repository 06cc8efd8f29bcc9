import Verif.Model.BuildUJ

/-!
# A second construction on the same handle (src/H2Pack_build.c:61-76, 81-97, 219-223, 240-265)

`H2P_build` takes the nodes from the task queue `h2pack->upward_tq`, which `H2P_partition_points` created and reset
(src/H2Pack_partition.c:703); `H2P_build` itself does not call `DAG_task_queue_reset`.  A second construction therefore starts with the
queue as the first one left it, and with newly allocated arrays `U`, `J`, `J_coord` full of `NULL` (lines 62-74).
-/

namespace H2Pack.UJ

section
variable {K : Type}

/-- src/H2Pack_build.c:69-74: all slots are `NULL` (`Res.ub`, see `BuildUJ`). -/
def noSlots : Nat → Res (Slot K) := fun _ => .ub

/-- src/H2Pack_build.c:242-265: a slot that is still `NULL` gets a matrix of size 0 by 0, an empty index list and an empty list of
coordinates; the other slots stay (`junk` are the contents of the new one-element buffers). -/
def fillNull [Zero K] (st : Nat → Res (Slot K)) (junk : Nat → Slot K) : Nat → Slot K := fun v =>
  match st v with
  | .ok s => s
  | _ => ⟨(junk v).jd, 0, (junk v).jc, ⟨0, 0, 0, 1, (junk v).U.data⟩⟩

end
end H2Pack.UJ
