import Mathlib.Data.List.Nodup

/-!
# Specification for the ownership of the memory of a handle

Which resources a call creates, in terms of the public calls only.
-/

namespace H2Pack.Life

/-- The public calls that matter for the memory of a handle.  `partition n`: the tree has `n` nodes; `args`: the pointers given are not `NULL`;
`jit`: just-in-time mode; `per`: the periodic version; `has c i` (factorizations): what has been created for node `i` when the call returned (a
factorization stops early for a singular matrix): index list, pivots, Householder vectors, triangular factor. -/
inductive Call
  | enclosingBox
  | runHSS
  | runRPY
  | runEwald
  | partition (n : Nat)
  | partitionPer (n : Nat)
  | hssPairs
  | build (args jit : Bool)
  | buildPer (args jit : Bool)
  | buildSample (args jit : Bool)
  | matvec (per : Bool)
  | matmul (per : Bool) (nvec : Nat)
  | lu (idx piv q l : Nat → Bool)
  | chol (idx q l : Nat → Bool)
  | solve

/-- The resources of a handle: the root box given by the user, the table of lattice vectors, the partitioning, the lists of HSS pairs, the
matrix, the factorization. -/
inductive Kind
  | box | lattice | part | pairs | mat | fact
deriving DecidableEq, Repr

/-- The mode of a handle. -/
structure Mode where
  hss : Bool
  rpy : Bool
  ewald : Bool
deriving DecidableEq, Repr

/-- The mode after a call: the Ewald mode is refused in HSS mode and after `H2P_run_RPY`; the other two leave it. -/
def Mode.next (m : Mode) : Call → Mode
  | .runHSS => { m with hss := true, ewald := false }
  | .runRPY => { m with rpy := true, ewald := false }
  | .runEwald => if m.hss || m.rpy then m else { m with ewald := true }
  | _ => m

/-- What a call creates on a handle for points of dimension `dim`. -/
def makes (dim : Nat) (m : Mode) : Call → List Kind
  | .enclosingBox => [.box]
  | .runEwald => if (m.hss || m.rpy) = false ∧ (dim = 2 ∨ dim = 3) then [.lattice] else []
  | .partition _ => if m.hss then [.part, .pairs] else [.part]
  | .partitionPer _ => [.part]
  | .hssPairs => [.pairs]
  | .build args _ => if args then [.mat] else []
  | .buildPer args jit => if args && jit then [.mat] else []
  | .buildSample args _ => if args then [.mat] else []
  | .lu _ _ _ _ => if m.hss then [.fact] else []
  | .chol _ _ _ => if m.hss then [.fact] else []
  | _ => []

/-- What a sequence of calls creates, with repetitions. -/
def made (dim : Nat) : Mode → List Call → List Kind
  | _, [] => []
  | m, c :: cs => makes dim m c ++ made dim (m.next c) cs

/-- Products with zero vectors come only after the points have been partitioned (`part`: they already are). -/
def zeroOk : Bool → List Call → Bool
  | _, [] => true
  | part, .matmul _ nvec :: cs => (part || nvec != 0) && zeroOk part cs
  | _, .partition _ :: cs => zeroOk true cs
  | _, .partitionPer _ :: cs => zeroOk true cs
  | part, _ :: cs => zeroOk part cs

/-- What must have been created before a call: a construction needs the partitioning, in HSS mode also the HSS pairs; products and factorizations need the
matrix, products in HSS mode also the HSS pairs. -/
def needs (m : Mode) : Call → List Kind
  | .hssPairs => [.part]
  | .build args _ => if args then (if m.hss then [.part, .pairs] else [.part]) else []
  | .buildPer args jit => if args && jit then (if m.hss then [.part, .pairs] else [.part]) else []
  | .buildSample args _ => if args then (if m.hss then [.part, .pairs] else [.part]) else []
  | .matvec _ => if m.hss then [.mat, .pairs] else [.mat]
  | .matmul _ nvec => if nvec = 0 then [] else if m.hss then [.mat, .pairs] else [.mat]
  | .lu _ _ _ _ => if m.hss then [.mat] else []
  | .chol _ _ _ => if m.hss then [.mat] else []
  | _ => []

/-- The call is a periodic product. -/
def isPer : Call → Bool
  | .matvec per => per
  | .matmul per _ => per
  | _ => false

/-- The call is a periodic partitioning. -/
def isPartPer : Call → Bool
  | .partitionPer _ => true
  | _ => false

/-- The order of the calls is as documented: each call finds what it needs, and periodic products come after a periodic partitioning (`per`). -/
def ordered (dim : Nat) : Mode → List Kind → Bool → List Call → Prop
  | _, _, _, [] => True
  | m, done, per, c :: cs => (∀ k ∈ needs m c, k ∈ done) ∧ (isPer c = true → per = true) ∧
      ordered dim (m.next c) (done ++ makes dim m c) (per || isPartPer c) cs

end H2Pack.Life
