import Verif.Model.ProxyPoint

/-! # What proxy points should be -/

namespace H2Pack.Proxy
open Finset

/-- `x` lies in the closed box `[-L/2, L/2]^dim`. -/
def InBox (dim : Nat) (L : ℝ) (x : Pt) : Prop := ∀ j < dim, |x j| ≤ L / 2

/-- Euclidean distance. -/
noncomputable def dist2 (dim : Nat) (x y : Pt) : ℝ := Real.sqrt (∑ j ∈ range dim, (x j - y j) ^ 2)

/-- Kernel block of the point `y` and the points `Q`: component `a` of `y`, column `j`. -/
def kblock (kern : Pt → Pt → Nat → Nat → ℝ) (kdim : Nat) (Q : List Pt) (y : Pt) (a j : Nat) : ℝ := kern y (at' Q (j / kdim)) a (j % kdim)

/-- Size of the block of `y`. -/
noncomputable def blockNorm (B : Pt → Nat → Nat → ℝ) (kdim ncol : Nat) (y : Pt) : ℝ := Real.sqrt (∑ a ∈ range kdim, ∑ j ∈ range ncol, B y a j ^ 2)

/-- Size of what is left of the block of `y` when the combination of the blocks of the points `S` with the coefficients `c` is subtracted. -/
noncomputable def blockErr (B : Pt → Nat → Nat → ℝ) (kdim ncol : Nat) (S : List Pt) (c : Nat → Nat → Nat → ℝ) (y : Pt) : ℝ :=
  Real.sqrt (∑ a ∈ range kdim, ∑ j ∈ range ncol, (B y a j - ∑ s ∈ range S.length, ∑ d ∈ range kdim, c a s d * B (at' S s) d j) ^ 2)

/-- `S` is a part of `P`, in the same order; the block of every point of `P` is a combination of those of the points of `S` up to `tau` times the size of the block of
some point of `P`; the blocks of the points of `S` are linearly independent. -/
def Represents (B : Pt → Nat → Nat → ℝ) (kdim ncol : Nat) (tau : ℝ) (P S : List Pt) : Prop :=
  S.Sublist P ∧ (∀ x : Nat → Nat → ℝ, (∀ j < ncol, ∑ s ∈ range S.length, ∑ d ∈ range kdim, x s d * B (at' S s) d j = 0) → ∀ s < S.length, ∀ d < kdim, x s d = 0) ∧
  ∀ y ∈ P, ∃ z ∈ P, ∃ c : Nat → Nat → Nat → ℝ, blockErr B kdim ncol S c y ≤ tau * blockNorm B kdim ncol z

/-- Layer by layer: the points kept so far and the next layer are represented by the points kept then. -/
inductive Layered (B : Pt → Nat → Nat → ℝ) (kdim ncol : Nat) (tau : ℝ) : List (List Pt) → List Pt → List Pt → Prop
  | nil (Y : List Pt) : Layered B kdim ncol tau [] Y Y
  | cons {l : List Pt} {ls : List (List Pt)} {Y Y' Z : List Pt} (h : Represents B kdim ncol tau (Y ++ l) Y') (h' : Layered B kdim ncol tau ls Y' Z) :
      Layered B kdim ncol tau (l :: ls) Y Z

/-- A sparse matrix of signs with `n` columns: every column has `nz` entries `1` or `-1`, in rows below `k`. -/
def Signs (k n nz : Nat) (S : Nat → Nat → ℝ) : Prop :=
  ∀ j < n, ∃ D : Finset Nat, D ⊆ range k ∧ D.card = nz ∧ ∀ c, (c ∈ D → S c j = 1 ∨ S c j = -1) ∧ (c ∉ D → S c j = 0)

/-- The blocks `B` with `k` columns times `S`. -/
def sketch (B : Pt → Nat → Nat → ℝ) (k : Nat) (S : Nat → Nat → ℝ) (y : Pt) (a j : Nat) : ℝ := ∑ c ∈ range k, B y a c * S c j

/-- `pp` has the points `Y` and behind each of them another one in the ring between the boxes `L2` and `L3`, at `33/100` of the distance of the nearest other point of
`Y` (`10^99` when there is no other point that near). -/
def Doubled (dim : Nat) (L2 L3 : ℝ) (Y pp : List Pt) : Prop :=
  pp.length = 2 * Y.length ∧ ∀ i < Y.length, at' pp (2 * i) = at' Y i ∧ InBox dim L3 (at' pp (2 * i + 1)) ∧ ¬ InBox dim L2 (at' pp (2 * i + 1)) ∧
    ∃ m : ℝ, (∀ j < Y.length, j ≠ i → m ≤ dist2 dim (at' Y i) (at' Y j)) ∧ (m = 10 ^ 99 ∨ ∃ j < Y.length, j ≠ i ∧ m = dist2 dim (at' Y i) (at' Y j)) ∧
      dist2 dim (at' pp (2 * i + 1)) (at' Y i) = m * (33 / 100)

end H2Pack.Proxy
