import Verif.Model.ProxyFile

/-! # What a proxy point file should do -/

namespace H2Pack.Proxy

/-- The same width up to a factor of `2^(±1e-10)`. -/
def Fits (a b : ℝ) : Prop := |log2 a - log2 b| ≤ 1 / 10 ^ 10

/-- The first line of the file fits to the point set: the dimension, a tolerance that is not larger, the number of layers, box widths that are multiples of the ones of the
tree by powers of two (`minL` is half of the width of the smallest box). -/
def Matches {σ : Type} (T : Tree) (g : GenParam) (F : PFile σ) : Prop :=
  F.dim = T.dim ∧ F.reltol ≤ T.reltol ∧ F.nlayer = g.nlayer ∧ ∃ κ : Int, |(κ : ℝ) - log2 (T.width / 8 / F.minL)| ≤ 1 / 10 ^ 10

/-- The arguments of the generation of a set for boxes of width about `w`. -/
def ArgsFor (T : Tree) (g : GenParam) (w : ℝ) (a : GenArgs) : Prop :=
  a.reltol = T.reltol ∧ Fits a.L1 w ∧ a.L2 = (1 + 2 * (999999 / 1000000)) * a.L1 ∧ a.L3 = (1 + g.nlayer * (999999 / 1000000)) * a.L1 ∧
    a.nY = g.nY * (if g.alg = 0 then min (g.nlayer - 2) g.maxLayer else 1)

end H2Pack.Proxy
