import Verif.Model.ULV
import Verif.Spec.H2Matrix
import Mathlib.Algebra.Order.Field.Basic
import Mathlib.Data.Matrix.Mul

/-! # What LAPACK guarantees, and what an HSS representation is -/

namespace H2Pack.ULV
open H2Pack.MV (Mat Rep Blk WF kid)

section
variable {K : Type} [Field K]

/-- The row interchanges recorded in `ipiv` (1-based), applied in order: row `k` is exchanged with row `ipiv[k]`. -/
def interchange (d : Nat) (ipiv : Nat → Nat) (a : Nat → Nat → K) : Nat → Nat → K :=
  (List.range d).foldl (fun a k i j => if i = k then a (ipiv k - 1) j else if i = ipiv k - 1 then a k j else a i j) a

/-- The documented behaviour of the LAPACK routines in exact arithmetic. -/
structure Lapack.Correct (Lp : Lapack K) : Prop where
  /-- the matrix `Q` is determined by the first `m` rows and `k` columns of `A` and `k` entries of `tau` -/
  ormCongr : ∀ m k A A' tau tau', (∀ i < m, ∀ j < k, A i j = A' i j) → (∀ j < k, tau j = tau' j) →
    ∀ i < m, ∀ j < m, Lp.orm m k A tau i j = Lp.orm m k A' tau' i j
  /-- GEQRF: `Q` is orthogonal and `Qᵀ a` is `R` on and above the diagonal and zero below -/
  orth : ∀ m n a, n ≤ m → ∀ i < m, ∀ j < m,
    ∑ t ∈ Finset.range m, Lp.orm m n (Lp.geqrf m n a).1 (Lp.geqrf m n a).2 t i * Lp.orm m n (Lp.geqrf m n a).1 (Lp.geqrf m n a).2 t j =
      if i = j then 1 else 0
  qr : ∀ m n a, n ≤ m → ∀ i < m, ∀ j < n,
    ∑ t ∈ Finset.range m, Lp.orm m n (Lp.geqrf m n a).1 (Lp.geqrf m n a).2 t i * a t j =
      if i ≤ j then (Lp.geqrf m n a).1 i j else 0
  /-- GETRF: the row interchanges turn `a` into `L U` with a unit lower triangular `L` and an upper triangular `U`; `info = 0` iff
  no diagonal entry of `U` is zero -/
  piv : ∀ d a, ∀ k < d, k + 1 ≤ (Lp.getrf d a).2.1 k ∧ (Lp.getrf d a).2.1 k ≤ d
  lu : ∀ d a, ∀ i < d, ∀ j < d, interchange d (Lp.getrf d a).2.1 a i j =
    ∑ t ∈ Finset.range d, (if t < i then (Lp.getrf d a).2.2 i t else if t = i then 1 else 0) * (if t ≤ j then (Lp.getrf d a).2.2 t j else 0)
  luInfo : ∀ d a, (Lp.getrf d a).1 = 0 ↔ ∀ k < d, (Lp.getrf d a).2.2 k k ≠ 0
  /-- POTRF: when `info = 0`, `L Lᵀ` agrees with `a` on and below the diagonal and the diagonal of `L` has no zero -/
  chol : ∀ d a, (Lp.potrf d a).1 = 0 → ∀ i < d, ∀ j ≤ i,
    ∑ t ∈ Finset.range (j + 1), (Lp.potrf d a).2 i t * (Lp.potrf d a).2 j t = a i j
  cholDiag : ∀ d a, (Lp.potrf d a).1 = 0 → ∀ k < d, (Lp.potrf d a).2 k k ≠ 0

/-- An HSS representation: sizes match, the root is not a leaf, the only compressed blocks are those of two children of the
same node, each stored once with the earlier child first, and there are no dense blocks besides the diagonal ones. -/
structure HSS (R : Rep K) : Prop where
  wf : WF R
  min : R.minAdm = 1
  root : R.arr.nChild (R.arr.nNode - 1) ≠ 0
  inadm : R.inadm = []
  nodup : R.adm.Nodup
  pairs : ∀ a b, (a, b) ∈ R.adm ↔ ∃ v < R.arr.nNode, ∃ k l, k < l ∧ l < R.arr.nChild v ∧ a = kid R v k ∧ b = kid R v l
  tall : ∀ v < R.arr.nNode, 1 ≤ R.arr.level v → (R.U v).ncol ≤ (R.U v).nrow

/-- The number in row `r`, column `q` of `A + shift * I`, where `A` is the represented matrix, in the order of the tree. -/
def shifted (R : Rep K) (W : Nat → Nat → Nat → K) (shift : K) (r q : Nat) : K :=
  H2Pack.MV.entry R W r q + if r = q then shift else 0

/-- `A` is the represented matrix plus `shift * I`, in the order of the user's vectors: row and column `coordIdx i * kdim + a` of `A`
belong to row and column `i * kdim + a` of the tree. -/
def Represents (R : Rep K) (W : Nat → Nat → Nat → K) (shift : K) (A : Matrix (Fin R.size) (Fin R.size) K) : Prop :=
  ∀ i < R.nPoint, ∀ a < R.kdim, ∀ j < R.nPoint, ∀ b < R.kdim, ∀ r q : Fin R.size, r.1 = R.coordIdx i * R.kdim + a → q.1 = R.coordIdx j * R.kdim + b →
    A r q = shifted R W shift (i * R.kdim + a) (j * R.kdim + b)

/-- The nodes of every level are handled once. -/
def Order (R : Rep K) (ord : Nat → List Nat) : Prop := ∀ l, (ord l).Perm (R.levelList l)

end

end H2Pack.ULV
