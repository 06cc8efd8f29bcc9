import Mathlib.Data.Rat.Defs

/-!
# The modes of a handle (src/H2Pack_typedef.c: `H2P_init`, `H2P_run_HSS`, `H2P_run_RPY`, `H2P_run_RPY_Ewald`)
-/

namespace H2Pack.Modes

/-- The three calls that choose a mode. -/
inductive Call
  | hss | rpy | ewald
deriving DecidableEq, Repr

/-- src/H2Pack_typedef.h: the fields concerned: `pt_dim`, `xpt_dim`, `is_HSS`, `is_RPY`, `is_RPY_Ewald`, `max_child`, `max_neighbor`, `n_lattice` and `per_lattices` (row after row; empty for `NULL`). -/
structure Handle where
  ptDim : Nat
  xptDim : Nat
  isHSS : Nat
  isRPY : Nat
  isEwald : Nat
  maxChild : Nat
  maxNeighbor : Nat
  nLattice : Nat
  lattices : List ℚ

/-- src/H2Pack_typedef.c:15-40, `H2P_init` (these fields; `is_RPY` and `n_lattice` by `memset`). -/
def init (ptDim : Nat) : Handle :=
  { ptDim := ptDim, xptDim := ptDim, isHSS := 0, isRPY := 0, isEwald := 0, maxChild := 1 <<< ptDim,
    maxNeighbor := (List.range ptDim).foldl (fun m _ => m * 3) 1, nLattice := 0, lattices := [] }

/-- src/H2Pack_typedef.c:139-149, `per_lattices_2d`. -/
def lattices2 : List ℚ := [
  -1, -1,
  -1,  0,
  -1,  1,
   0, -1,
   0,  0,
   0,  1,
   1, -1,
   1,  0,
   1,  1]

/-- src/H2Pack_typedef.c:151-179, `per_lattices_3d`. -/
def lattices3 : List ℚ := [
  -1, -1, -1,
  -1, -1,  0,
  -1, -1,  1,
  -1,  0, -1,
  -1,  0,  0,
  -1,  0,  1,
  -1,  1, -1,
  -1,  1,  0,
  -1,  1,  1,
   0, -1, -1,
   0, -1,  0,
   0, -1,  1,
   0,  0, -1,
   0,  0,  0,
   0,  0,  1,
   0,  1, -1,
   0,  1,  0,
   0,  1,  1,
   1, -1, -1,
   1, -1,  0,
   1, -1,  1,
   1,  0, -1,
   1,  0,  0,
   1,  0,  1,
   1,  1, -1,
   1,  1,  0,
   1,  1,  1]

/-- src/H2Pack_typedef.c:122-209. -/
def exec (h : Handle) : Call → Handle
  | .hss => { h with isHSS := 1, isEwald := 0 }
  | .rpy => { h with isRPY := 1, xptDim := h.ptDim + 1, isEwald := 0 }
  | .ewald =>
    if h.isHSS = 1 ∨ h.isRPY = 1 then h
    else
      let h := { h with isEwald := 1, isHSS := 0, isRPY := 0, xptDim := h.ptDim + 1 }
      let h := if h.ptDim = 2 then { h with nLattice := 9, lattices := lattices2 } else h
      if h.ptDim = 3 then { h with nLattice := 27, lattices := lattices3 } else h

/-- A history. -/
def run (h : Handle) (cs : List Call) : Handle := cs.foldl exec h

end H2Pack.Modes
