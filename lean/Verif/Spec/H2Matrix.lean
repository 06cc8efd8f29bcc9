import Verif.Model.Matvec

/-! # The matrix defined by an H2 (HSS) representation, valid representations, valid environments -/

namespace H2Pack.MV
open H2Pack.Part (Arr kids ClusterTree)

section
variable {K : Type}

/-- Child number `k` of node `v`. -/
def kid (R : Rep K) (v k : Nat) : Nat := (kids R.arr v).getD k 0

/-- Position of the rows of child number `k` in the transfer matrix of `v`. -/
def off (R : Rep K) (v k : Nat) : Nat := ∑ j ∈ Finset.range k, (R.U (kid R v j)).ncol

/-- The blocks have matching sizes and the pairs refer to nodes of the tree.  `rank`: every node that has a basis
has rank at least one (see `C22_rank_zero_stale` for what happens otherwise). -/
structure WF (R : Rep K) : Prop where
  tree : ClusterTree R.arr R.nPoint
  kdim : 0 < R.kdim
  perm : ((List.range R.nPoint).map R.coordIdx).Perm (List.range R.nPoint)
  rank : ∀ v < R.arr.nNode, R.minAdm ≤ R.arr.level v → 0 < (R.U v).ncol
  uLeaf : ∀ v < R.arr.nNode, R.minAdm ≤ R.arr.level v → R.arr.nChild v = 0 → (R.U v).nrow = R.rowE v - R.rowS v
  uInner : ∀ v < R.arr.nNode, R.minAdm ≤ R.arr.level v → R.arr.nChild v ≠ 0 → (R.U v).nrow = off R v (R.arr.nChild v)
  admNode : ∀ x ∈ R.adm, x.1 < R.arr.nNode ∧ x.2 < R.arr.nNode
  admLevel : ∀ x ∈ R.adm, R.minAdm ≤ max (R.arr.level x.1) (R.arr.level x.2)
  marked : ∀ x ∈ R.adm, (R.arr.level x.2 ≤ R.arr.level x.1 → R.mark x.1 ≠ 0) ∧ (R.arr.level x.1 ≤ R.arr.level x.2 → R.mark x.2 ≠ 0)
  bRow : ∀ i (h : i < R.adm.length), (R.B i).nrow =
    if R.arr.level R.adm[i].2 ≤ R.arr.level R.adm[i].1 then (R.U R.adm[i].1).ncol else R.rowE R.adm[i].1 - R.rowS R.adm[i].1
  bCol : ∀ i (h : i < R.adm.length), (R.B i).ncol =
    if R.arr.level R.adm[i].1 ≤ R.arr.level R.adm[i].2 then (R.U R.adm[i].2).ncol else R.rowE R.adm[i].2 - R.rowS R.adm[i].2
  inadmNode : ∀ x ∈ R.inadm, x.1 < R.arr.nNode ∧ x.2 < R.arr.nNode
  d0 : ∀ i < R.arr.nLeaf, (R.D i).nrow = R.rowE (R.leaf i) - R.rowS (R.leaf i) ∧ (R.D i).ncol = R.rowE (R.leaf i) - R.rowS (R.leaf i)
  d1 : ∀ i (h : i < R.inadm.length), (R.D (R.arr.nLeaf + i)).nrow = R.rowE R.inadm[i].1 - R.rowS R.inadm[i].1 ∧
    (R.D (R.arr.nLeaf + i)).ncol = R.rowE R.inadm[i].2 - R.rowS R.inadm[i].2

/-- `nblk` blocks `[blk b, blk (b+1))` that cut `0..n-1`. -/
def Cuts (n nblk : Nat) (blk : Nat → Nat) : Prop :=
  blk 0 = 0 ∧ blk nblk = n ∧ ∀ b < nblk, blk b ≤ blk (b + 1)

/-- Every block is executed exactly once, by one of the threads. -/
def Sched (nThread nblk : Nat) (s : List (Nat × Nat)) : Prop :=
  (s.map Prod.snd).Perm (List.range nblk) ∧ ∀ x ∈ s, x.1 < nThread

/-- What the runtime guarantees: all iterations are executed once. -/
structure Env.Valid (E : Env K) (R : Rep K) : Prop where
  threads : 0 < E.nThread
  team : E.team = E.nThread
  fwd : ∀ l, (E.fwdOrd l).Perm (R.levelList l)
  bwd : ∀ l, (E.bwdOrd l).Perm (R.levelList l)
  cutB : Cuts R.adm.length E.nB E.blkB
  cutD0 : Cuts R.arr.nLeaf E.nD0 E.blkD0
  cutD1 : Cuts R.inadm.length E.nD1 E.blkD1
  schedB : Sched E.nThread E.nB E.schedB
  schedD0 : Sched E.nThread E.nD0 E.schedD0
  schedD1 : Sched E.nThread E.nD1 E.schedD1
  red : E.redOrd.Perm (List.range E.nThread)

end

section
variable {K : Type} [CommRing K]

/-- `W v` is the (nested) basis of node `v`: `U v` on the rows of a leaf, and
`blkdiag (W c₁, ..., W c_k) * U v` for a node with children `c₁, ..., c_k`. -/
structure Nested (R : Rep K) (W : Nat → Nat → Nat → K) : Prop where
  leaf : ∀ v < R.arr.nNode, R.minAdm ≤ R.arr.level v → R.arr.nChild v = 0 → ∀ r, ∀ c < (R.U v).ncol,
    W v r c = if R.rowS v ≤ r ∧ r < R.rowE v then (R.U v).e (r - R.rowS v) c else 0
  inner : ∀ v < R.arr.nNode, R.minAdm ≤ R.arr.level v → R.arr.nChild v ≠ 0 → ∀ r, ∀ c < (R.U v).ncol,
    W v r c = ∑ k ∈ Finset.range (R.arr.nChild v), ∑ d ∈ Finset.range (R.U (kid R v k)).ncol,
      W (kid R v k) r d * (R.U v).e (off R v k + d) c

/-- The factor on the side of node `v` in the block of the pair `v`, `w`: its basis, or the identity when `v` is
on a higher level than `w`. -/
def side (R : Rep K) (W : Nat → Nat → Nat → K) (v w r c : Nat) : K :=
  if R.arr.level w ≤ R.arr.level v then W v r c else if r = R.rowS v + c then 1 else 0

/-- Entry `(r, q)` of `S₀ * B_i * S₁ᵀ`. -/
def admEntry (R : Rep K) (W : Nat → Nat → Nat → K) (i r q : Nat) : K :=
  ∑ c ∈ Finset.range (R.B i).nrow, ∑ d ∈ Finset.range (R.B i).ncol,
    side R W (R.adm.getD i (0, 0)).1 (R.adm.getD i (0, 0)).2 r c * (R.B i).e c d *
    side R W (R.adm.getD i (0, 0)).2 (R.adm.getD i (0, 0)).1 q d

/-- Entry `(r, q)` of the block `M` placed on the rows of `v` and the columns of `w`. -/
def blockEntry (R : Rep K) (v w : Nat) (M : Mat K) (r q : Nat) : K :=
  if (R.rowS v ≤ r ∧ r < R.rowE v) ∧ R.rowS w ≤ q ∧ q < R.rowE w then M.e (r - R.rowS v) (q - R.rowS w) else 0

def inadmEntry (R : Rep K) (i r q : Nat) : K :=
  blockEntry R (R.inadm.getD i (0, 0)).1 (R.inadm.getD i (0, 0)).2 (R.D (R.arr.nLeaf + i)) r q

/-- Entry `(r, q)` of the H2 matrix in the permuted order. -/
def entry (R : Rep K) (W : Nat → Nat → Nat → K) (r q : Nat) : K :=
  (∑ i ∈ Finset.range R.adm.length, (admEntry R W i r q + admEntry R W i q r)) +
  (∑ i ∈ Finset.range R.arr.nLeaf, blockEntry R (R.leaf i) (R.leaf i) (R.D i) r q) +
  ∑ i ∈ Finset.range R.inadm.length, (inadmEntry R i r q + inadmEntry R i q r)

end

end H2Pack.MV
