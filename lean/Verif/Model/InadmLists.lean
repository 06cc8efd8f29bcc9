import Verif.Model.AdmPairs

/-! # Neighbour lists for HSS construction (src/H2Pack_partition.c:434-505) -/

namespace H2Pack.Part
open H2Pack.Utils (checkBoxAdmissible)

section
variable {K : Type}

/-- src/H2Pack_partition.c:466-481: all nodes of level `i`, then all leaves above it. -/
def targetList (A : Arr K) (i : Nat) : List Nat :=
  ((List.range (A.levelN i)).map fun j => A.levelNodes (i * A.nLeaf + j)) ++
  ((List.range A.nLeaf).map A.heightNodes).filter fun v => A.level v < i

variable [Field K] [LinearOrder K]

/-- src/H2Pack_partition.c:490-500: the list of one node; `mx` is `max_neighbor`, a store beyond the row of the
node is `ub` (it lands in the row of the next node or behind the array). -/
def nodeInadm (ptDim mx : Nat) (A : Arr K) (node : Nat) (targets : List Nat) : Res (List Nat) :=
  targets.foldlM (fun l t =>
    if checkBoxAdmissible (A.enbox node) (A.enbox t) ptDim alphaH2 = false ∧
       checkBoxAdmissible (A.enbox node) (A.enbox t) ptDim alphaHSS = true ∧ t ≠ node then
      if l.length < mx then .ok (l ++ [t]) else .ub
    else .ok l) []

/-- src/H2Pack_partition.c:464-502: levels `max_level` down to `HSS_min_adm_level`; the result is the list
of every node (`node_n_r_inadm` is its length). -/
def inadmLists (ptDim mx minAdm : Nat) (A : Arr K) : Res (Nat → List Nat) :=
  ((List.range' minAdm (A.maxLevel + 1 - minAdm)).reverse).foldlM (fun f i =>
    ((List.range (A.levelN i)).map fun j => A.levelNodes (i * A.nLeaf + j)).foldlM (fun f node => do
      let l ← nodeInadm ptDim mx A node (targetList A i)
      .ok (Function.update f node l)) f) (fun _ => [])

end

end H2Pack.Part
