import Verif.Model.QR
import Mathlib.Data.Real.Sqrt

/-!
# Specification of the interpolative decomposition
-/

namespace H2Pack.ID

/-- The program ends in undefined behaviour (here: a division by zero). -/
def Fails {α : Type} (p : Nat → Res α) : Prop := ∃ F, ∀ fuel ≥ F, p fuel = .ub

/-- Exact real arithmetic; a division by zero has no result. -/
noncomputable def realOps (eps fast tiny : ℝ) : Ops ℝ where
  zero := 0
  one := 1
  two := 2
  add := (· + ·)
  sub := (· - ·)
  mul := (· * ·)
  neg := fun x => -x
  div := fun a b => if b = 0 then .ub else .ok (a / b)
  sqrt := Real.sqrt
  lt := fun a b => decide (a < b)
  le := fun a b => decide (a ≤ b)
  ofNat := fun n => n
  nrm2 := fun n x => Real.sqrt (∑ k ∈ Finset.range n, x k ^ 2)
  dot := fun n x y => ∑ k ∈ Finset.range n, x k * y k
  eps := eps
  fast := fast
  tiny := tiny

/-- `p` permutes `0 .. n-1`. -/
structure IsPerm (n : Nat) (p : Nat → Nat) : Prop where
  lt : ∀ j < n, p j < n
  inj : ∀ j < n, ∀ k < n, p j = p k → j = k

/-- Row number `i` of the selected rows, when they are given in groups of `kdim`. -/
def skel (kdim : Nat) (J : Nat → Nat) (i : Nat) : Nat := J (i / kdim) * kdim + i % kdim

/-- Squared distance of row `j` of `A` from the combination of the selected rows with the coefficients in row `j` of `U`. -/
def rowErr (ncol r : Nat) (A : Nat → Nat → ℝ) (U : Nat → Nat → ℝ) (s : Nat → Nat) (j : Nat) : ℝ :=
  ∑ c ∈ Finset.range ncol, (A j c - ∑ i ∈ Finset.range r, U j i * A (s i) c) ^ 2

/-- The shape of a decomposition: increasing group numbers `J` in range, `U` with a column for every selected row and the identity in
the selected rows. -/
structure Selected {K : Type} (zero one : K) (nrow kdim : Nat) (J : Nat → Nat) (len : Nat) (U : H2Pack.Dense.Mat K) : Prop where
  increasing : ∀ a b, a < b → b < len → J a < J b
  inRange : ∀ i < len, J i < nrow / kdim
  rows : U.nrow = nrow
  cols : U.ncol = len * kdim
  stored : U.nrow * U.ld ≤ U.size ∧ U.ncol ≤ U.ld
  identity : ∀ i < len * kdim, ∀ t < len * kdim, U.entry (skel kdim J i) t = if i = t then one else zero

/-- Every division has a result, as in IEEE arithmetic. -/
def Ops.Total {K : Type} (O : Ops K) : Prop := ∀ a b, ∃ c, O.div a b = .ok c

/-- Norm of the group `j` of rows. -/
noncomputable def grpNorm (ncol kdim : Nat) (A : Nat → Nat → ℝ) (j : Nat) : ℝ :=
  Real.sqrt (∑ k ∈ Finset.range kdim, ∑ c ∈ Finset.range ncol, A (j * kdim + k) c ^ 2)

/-- Error of the group `j` of rows. -/
noncomputable def grpErr (ncol kdim r : Nat) (A U : Nat → Nat → ℝ) (s : Nat → Nat) (j : Nat) : ℝ :=
  Real.sqrt (∑ k ∈ Finset.range kdim, rowErr ncol r A U s (j * kdim + k))

end H2Pack.ID
