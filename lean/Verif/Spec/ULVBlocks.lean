import Verif.Spec.ULV
import Verif.Props.Metadata
import Mathlib.LinearAlgebra.Matrix.PosDef
import Mathlib.Data.Real.Basic
import Mathlib.Data.Real.Star

/-! # What the ULV factorizations get from the rest of the library, and positive definiteness -/

namespace H2Pack.ULV
open H2Pack.MV

section
variable {K : Type} [Field K]

/-- The blocks that the lookups return are the blocks of the representation. -/
structure Blocks (R : Rep K) (getB getD : Nat → Nat → Option (Blk K)) : Prop where
  b : ∀ i (h : i < R.adm.length), IsBlock (getB R.adm[i].1 R.adm[i].2) (R.B i) false
  d : ∀ i < R.arr.nLeaf, IsBlock (getD (R.leaf i) (R.leaf i)) (R.D i) false

/-- The diagonal blocks are symmetric. -/
def SymD (R : Rep K) : Prop := ∀ i < R.arr.nLeaf, ∀ a < R.rowE (R.leaf i) - R.rowS (R.leaf i), ∀ b < R.rowE (R.leaf i) - R.rowS (R.leaf i),
  (R.D i).e a b = (R.D i).e b a

end

/-- POTRF in exact arithmetic: it succeeds exactly for positive definite matrices (of which it reads the lower half). -/
def Lapack.Definite (Lp : Lapack ℝ) : Prop := ∀ d a, (Lp.potrf d a).1 = 0 ↔ (Matrix.of fun i j : Fin d => if j ≤ i then a i j else a j i).PosDef

end H2Pack.ULV
