import Verif.Model.SPDHSS
import Verif.Spec.ULVBlocks

/-!
# What the SPDHSS construction relies on
-/

namespace H2Pack.SPD
open H2Pack.MV (Mat Rep Blk WF kid IsBlock)
open H2Pack.Part (Arr kids Pairs calcPairs)

/-- The documented behaviour of SYEVD, GEQPF and ORGQR in exact arithmetic. -/
structure Lapack2.Correct (Lq : Lapack2) : Prop where
  /-- SYEVD: it converges; the columns of the result are orthonormal and diagonalize the symmetric matrix given by its upper half -/
  evInfo : ∀ n a, (Lq.syevd n a).1 = 0
  evOrth : ∀ n a, ∀ i < n, ∀ j < n, ∑ t ∈ Finset.range n, (Lq.syevd n a).2.1 t i * (Lq.syevd n a).2.1 t j = if i = j then 1 else 0
  ev : ∀ n a, ∀ j < n, ∀ i ≤ j, ∑ k ∈ Finset.range n, (Lq.syevd n a).2.1 i k * (Lq.syevd n a).2.2 k * (Lq.syevd n a).2.1 j k = a i j
  /-- GEQPF then ORGQR: the columns are orthonormal, and `a P = Q R` for a permutation `P` and the upper triangular `R` -/
  orth : ∀ m n a, ∀ i < min m n, ∀ j < min m n, ∑ t ∈ Finset.range m,
    Lq.orgqr m (min m n) (Lq.geqpf m n a).1 (Lq.geqpf m n a).2 t i * Lq.orgqr m (min m n) (Lq.geqpf m n a).1 (Lq.geqpf m n a).2 t j =
      if i = j then 1 else 0
  qr : ∀ m n a, ∃ p : Nat → Nat, ((List.range n).map p).Perm (List.range n) ∧ ∀ i < m, ∀ j < n,
    a i (p j) = ∑ t ∈ Finset.range (min m n), Lq.orgqr m (min m n) (Lq.geqpf m n a).1 (Lq.geqpf m n a).2 i t *
      if t ≤ j then (Lq.geqpf m n a).1 t j else 0

/-- GEQPF pivots: in every step the column whose remaining part is largest comes first. -/
def Lapack2.Pivoted (Lq : Lapack2) : Prop :=
  ∀ m n a, ∀ k < min m n, ∀ j < n, k ≤ j →
    ∑ i ∈ Finset.range (min m n), (if k ≤ i ∧ i ≤ j then (Lq.geqpf m n a).1 i j ^ 2 else 0) ≤ (Lq.geqpf m n a).1 k k ^ 2

/-- The pairs of different nodes visited by the search for the reduced pairs, when `adm` are the outcomes of its test: pairs of children of the
same node, and, as long as the pair does not pass the test, the pairs with both nodes (or the one that is not a leaf) replaced with
children. -/
inductive Vis {K : Type} (A : Arr K) (adm : Nat → Nat → Bool) : Nat → Nat → Prop
  | sib {v k l : Nat} : v < A.nNode → k < l → l < A.nChild v → Vis A adm ((kids A v).getD k 0) ((kids A v).getD l 0)
  | both {a b c d : Nat} : Vis A adm a b → adm a b = false → c ∈ kids A a → d ∈ kids A b → Vis A adm c d
  | left {a b d : Nat} : Vis A adm a b → adm a b = false → A.nChild a = 0 → d ∈ kids A b → Vis A adm a d
  | right {a b c : Nat} : Vis A adm a b → adm a b = false → A.nChild b = 0 → c ∈ kids A a → Vis A adm c b

/-- The H2 matrix from which the construction starts: a valid representation with the pairs found by the search, no bases above the
level `min_adm_level`, at least two levels, not too many nodes, and lookups that return its blocks. -/
structure Source (R : Rep ℝ) (pv : Pairs) (adm : Nat → Nat → Bool) (getB getD : Nat → Nat → Option (Blk ℝ)) : Prop where
  wf : WF R
  found : Returns (fun fuel => calcPairs R.arr adm 0 fuel (R.arr.nNode - 1) (R.arr.nNode - 1) ⟨[], [], R.arr.maxLevel⟩) pv
  adm : R.adm = pv.adm
  inadm : R.inadm = pv.inadm
  min : R.minAdm = pv.minAdm
  low : ∀ v < R.arr.nNode, R.arr.level v < R.minAdm → (R.U v).ncol = 0
  root : R.arr.nChild (R.arr.nNode - 1) ≠ 0
  small : R.arr.nNode * R.arr.nNode ≤ 2 ^ 31
  b : ∀ i (h : i < R.adm.length), IsBlock (getB R.adm[i].1 R.adm[i].2) (R.B i) false
  d0 : ∀ i < R.arr.nLeaf, IsBlock (getD (R.leaf i) (R.leaf i)) (R.D i) false
  d1 : ∀ i (h : i < R.inadm.length), IsBlock (getD R.inadm[i].1 R.inadm[i].2) (R.D (R.arr.nLeaf + i)) false

/-- The pairs of an HSS matrix with the same tree: the pairs of children of the same node. -/
structure HssPairs (R : Rep ℝ) (hss : Pairs) (mark : Nat → Nat) : Prop where
  pairs : ∀ a b, (a, b) ∈ hss.adm ↔ ∃ v < R.arr.nNode, ∃ k l, k < l ∧ l < R.arr.nChild v ∧ a = kid R v k ∧ b = kid R v l
  nodup : hss.adm.Nodup
  inadm : hss.inadm = []
  min : hss.minAdm = 1
  marked : ∀ x ∈ hss.adm, mark x.1 ≠ 0 ∧ mark x.2 ≠ 0

/-- The matrices `Yk` have the sizes with which `H2P_SPDHSS_H2_acc_matvec` creates them: for a leaf on level `s` the first `s` matrices have `nvec`
columns, all others are empty. -/
structure Sampled (R : Rep ℝ) (nvec : Nat) (Y : Nat → Nat → Option (Mat ℝ)) : Prop where
  leaf : ∀ v < R.arr.nNode, R.arr.nChild v = 0 → ∀ l < R.arr.level v, ∃ e, Y v l = some ⟨R.rowE v - R.rowS v, nvec, e⟩
  rest : ∀ v < R.arr.nNode, ∀ l < R.arr.maxLevel, R.arr.nChild v ≠ 0 ∨ R.arr.level v ≤ l → ∃ e, Y v l = some ⟨0, 0, e⟩

/-- What `H2P_SPDHSS_H2_build` relies on: correct libraries, a positive maximal rank, an H2 matrix, the pairs of an HSS matrix on the same tree, matrices
`Yk` of the right sizes (whatever their contents), and the nodes and pairs of each level handled in any order. -/
structure Input (P : Params) (R : Rep ℝ) (nvec : Nat) (pv hss : Pairs) (mark : Nat → Nat) (adm : Nat → Nat → Bool) (getB getD : Nat → Nat → Option (Blk ℝ))
    (ord : Nat → List Nat) (pord : Nat → List (Nat × Nat)) (Y : Nat → Nat → Option (Mat ℝ)) : Prop where
  lp : P.lp.Correct
  df : P.lp.Definite
  lq : P.lq.Correct
  rank : 0 < P.maxRank
  samples : 0 < nvec
  src : Source R pv adm getB getD
  hss : HssPairs R hss mark
  sampled : Sampled R nvec Y
  ord : ∀ l, (ord l).Perm (R.levelList l)
  pord : ∀ l, 1 ≤ l → l ≤ R.arr.maxLevel → ∃ L, Returns (fun fuel => levelPairs R.arr pv fuel (R.arr.maxLevel - l)) L ∧ (pord l).Perm L

end H2Pack.SPD
