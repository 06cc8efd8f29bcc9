import Verif.Model.QR
import Verif.Model.Metadata
import Verif.Model.Matmul
import Verif.Model.DAGQueue
import Verif.Model.AdmPairs

/-!
# Skeleton points and bases (src/H2Pack_build.c:32-270 `H2P_build_H2_UJ_proxy`, 277-641 `H2P_build_HSS_UJ_hybrid`)

The body of the task of one node is a function of the slots (`J[c]`, `J_coord[c]`, `U[c]`) of the children; it writes the slots of
its own node only.  Which node is handled when, and by which thread, is decided by the task queue (`DAGQueue`): `ujNode` is the
client computation of that model.  An unset slot (`NULL`) is `Res.ub`, so is what follows a division without result in the ID.
The contents of the buffers of the thread that happens to handle node `v` are parameters that depend on `v` (every node is
handled once).  Allocation, timers and statistics are not modelled; `H2_UJ_BUILD_RANDOMIZE` is not defined.
-/

namespace H2Pack.UJ
open H2Pack.Part (Arr kids)
open H2Pack.MV (point kmat copyMatrix gatherCols)
open H2Pack.ID (Ops Stop IDEnv idCompress)

/-- `J[v]` (`data`, `length`), `J_coord[v]` (`xpt_dim` rows, leading dimension `length`), `U[v]`. -/
structure Slot (K : Type) where
  jd : Nat → Nat
  jl : Nat
  jc : Nat → K
  U : H2Pack.Dense.Mat K

/-- Inputs of the construction: tree, points (`coord`, leading dimension `n_point`, in the order of the tree), kernel, proxy points of
every level (number and coordinates, leading dimension = number), stopping criterion; the arithmetic of the ID; contents of the
buffers before they are used for node `v`. -/
structure Input (K : Type) where
  arr : Arr K
  nPoint : Nat
  ptDim : Nat
  xdim : Nat
  kdim : Nat
  coord : Nat → K
  kern : (Nat → K) → (Nat → K) → Nat → Nat → K
  pp : Nat → Nat × (Nat → K)
  stop : Stop K
  ops : Ops K
  sz : Nat
  env : Nat → IDEnv K
  junkJ : Nat → Nat → Nat
  junkC : Nat → Nat → K
  junkS : Nat → Nat → K

section
variable {K : Type} [Field K]

/-- src/H2Pack_build.c:108-116 (and 338-348): `J`, `J_coord` of a leaf before the ID. -/
def leafJ (S : Input K) (v : Nat) : (Nat → Nat) × Nat × (Nat → K) :=
  let npt := S.arr.ptE v - S.arr.ptS v + 1
  (fun k => if k < npt then S.arr.ptS v + k else S.junkJ v k, npt,
    copyMatrix S.xdim npt (fun t => S.coord (S.arr.ptS v + t)) S.nPoint (S.junkC v) npt)

/-- src/H2Pack_build.c:120-134: `J_child_size`, then the concatenation of the lists of the children. -/
def concatJ (cs : List (Slot K)) (g : Nat → Nat) : (Nat → Nat) × Nat :=
  cs.foldl (fun s c => (fun k => if s.2 ≤ k ∧ k < s.2 + c.jl then c.jd (k - s.2) else s.1 k, s.2 + c.jl)) (g, 0)

/-- `copy_matrix` to `dst + off`. -/
def copyAt (off nrow ncol : Nat) (src : Nat → K) (lds : Nat) (dst : Nat → K) (ldd : Nat) : Nat → K := fun k =>
  if k < off then dst k else copyMatrix nrow ncol src lds (fun t => dst (off + t)) ldd (k - off)

/-- src/H2Pack_build.c:146-160: the coordinates of the children's skeleton points side by side; `tot` is `node_skel_coord->ncol`. -/
def concatC (xdim tot : Nat) (cs : List (Slot K)) (g : Nat → K) : (Nat → K) × Nat :=
  cs.foldl (fun s c => (copyAt s.2 xdim c.jl c.jc c.jl s.1 tot, s.2 + c.jl)) (g, 0)

/-- src/H2Pack_build.c:164-174: the first `pt_dim` rows are shifted by the centre of the box. -/
def shiftC (S : Input K) (v npt : Nat) (x : Nat → K) : Nat → K := fun t =>
  if t < S.ptDim * npt then x t - ((S.arr.enbox v).lo (t / npt) + (1 / 2) * (S.arr.enbox v).ext (t / npt)) else x t

/-- src/H2Pack_build.c:206-208: the skeleton points are moved to the front, in place. -/
def chooseJ (sub : Nat → Nat) (len : Nat) (d : Nat → Nat) : Nat → Nat :=
  (List.range len).foldl (fun d k => Function.update d k (d (sub k))) d

/-- The slots of the children (a `NULL` pointer is `ub`). -/
def getSlots (st : Nat → Res (Slot K)) : List Nat → Res (List (Slot K))
  | [] => .ok []
  | c :: l => do
    let s ← st c
    let r ← getSlots st l
    .ok (s :: r)

/-- src/H2Pack_build.c:104-161, steps (1) and (2): candidates and their coordinates. -/
def candidates (S : Input K) (v : Nat) (st : Nat → Res (Slot K)) : Res ((Nat → Nat) × Nat × (Nat → K)) :=
  if S.arr.height v = 0 then
    let l := leafJ S v
    .ok (l.1, l.2.1, copyMatrix S.xdim l.2.1 l.2.2 l.2.1 (S.junkS v) l.2.1)
  else do
    let cs ← getSlots st (kids S.arr v)
    let j := concatJ cs (S.junkJ v)
    .ok (j.1, j.2, (concatC S.xdim j.2 cs (S.junkS v)).1)

/-- src/H2Pack_build.c:198-218, steps (5) and (6), for a matrix with `ncol` columns and entries `A`. -/
def compress (S : Input K) (fuel v : Nat) (jd : Nat → Nat) (jl ncol : Nat) (A : Nat → Nat → K) : Res (Slot K) := do
  let r ← idCompress S.ops S.sz (jl * S.kdim) ncol S.kdim S.stop A true (S.env v) fuel
  let jd := chooseJ r.1.1 r.1.2 jd
  .ok ⟨jd, r.1.2, gatherCols S.xdim r.1.2 jd S.coord S.nPoint (S.junkC v) r.1.2, r.2⟩

/-- src/H2Pack_build.c:98-223: the task of node `v`. -/
def ujNode (S : Input K) (fuel v : Nat) (st : Nat → Res (Slot K)) : Res (Slot K) := do
  let c ← candidates S v st
  let x := shiftC S v c.2.1 c.2.2
  let pp := S.pp (S.arr.level v)
  compress S fuel v c.1 c.2.1 (pp.1 * S.kdim) (kmat S.kern S.kdim (point S.xdim x c.2.1) (point S.xdim pp.2 pp.1))

/-- The task queue hands out node numbers; the arrays of nodes have `n_node` elements. -/
def ujTask (S : Input K) (fuel v : Nat) (st : Nat → Res (Slot K)) : Res (Slot K) :=
  if v < S.arr.nNode then ujNode S fuel v st else .ub

/-- The same with an arbitrary matrix `A v` of `m v` columns for the ID: src/H2Pack_build.c:405-577 for HSS, where the columns come from the
skeleton points of neighbours (some of which may be in the course of being changed by other threads), from the proxy points, or from
the product with a random matrix. -/
def ujNodeAny (S : Input K) (m : Nat → Nat) (A : Nat → Nat → Nat → K) (fuel v : Nat) (st : Nat → Res (Slot K)) : Res (Slot K) := do
  let c ← candidates S v st
  compress S fuel v c.1 c.2.1 (m v) (A v)

/-- src/H2Pack_build.c:352-600 (HSS): the levels from `max_level` to `min_adm_level`; within a level the nodes in any order `ord l`
(`schedule(dynamic)`). -/
def hssSweep (S : Input K) (m : Nat) (N : Nat → Nat) (A : Nat → Nat → Nat → K) (fuel : Nat) (ord : Nat → List Nat) (st : Nat → Res (Slot K)) : Nat → Res (Slot K) :=
  ((List.range (S.arr.maxLevel + 1)).reverse.filter (fun l => m ≤ l)).foldl
    (fun st l => (ord l).foldl (fun st v => Function.update st v (ujNodeAny S N A fuel v st)) st) st

/-- src/H2Pack_build.c:240-263: empty slots are filled. -/
def finishUJ (m : Nat) (level : Nat → Nat) (st : Nat → Res (Slot K)) (junk : Nat → Slot K) : Nat → Slot K := fun v =>
  if level v < m then ⟨(junk v).jd, 0, (junk v).jc, ⟨0, 0, 0, 1, (junk v).U.data⟩⟩
  else match st v with
    | .ok s => s
    | _ => junk v

/-- What `H2P_generate_B_metadata`, `H2P_generate_D_metadata` and the products work on: the tree, points and kernel, with `U`, `J`, `J_coord` as
constructed, the two pair lists and `min_adm_level` (include/H2Pack_typedef.h, one `H2Pack_p`).  The dense blocks of `R` are not set yet. -/
def assemble (S : Input K) (sl : Nat → Slot K) (pv : H2Pack.Part.Pairs) (coordIdx : Nat → Nat) (mark : Nat → Nat) (simd : Nat) (bimv : Option (H2Pack.MV.Bimv K))
    (B D : Nat → H2Pack.MV.Mat K) (junkM junkW : Nat → Nat → K) : H2Pack.MV.JIT K where
  R := { arr := S.arr, nPoint := S.nPoint, kdim := S.kdim, coordIdx := coordIdx, U := fun v => ⟨(sl v).U.nrow, (sl v).U.ncol, (sl v).U.entry⟩
         adm := pv.adm, inadm := pv.inadm, B := B, D := D, minAdm := pv.minAdm, mark := mark }
  simd := simd
  xdim := S.xdim
  kern := S.kern
  bimv := bimv
  coord := S.coord
  jn := fun v => (sl v).jl
  jc := fun v => (sl v).jc
  junkM := junkM
  junkW := junkW

end

end H2Pack.UJ
