import Verif.Model.ProxyPoint
import Verif.Model.AdmPairs

/-!
# Enclosing box, proxy point file, proxy surface (src/H2Pack_gen_proxy_point.c:357-742)

Exact real arithmetic.  A proxy point file is the record of what `fscanf` reads from it; the text format is modelled in `textMinL`.  The environment variables of lines
470-475 are arguments (`GenParam`).  The set that `H2P_generate_proxy_point_nlayer` (model: `nlayer`) computes is a value `gen` of its arguments: the function seeds both
random number generators itself.  Debug output and timers are left out.
-/

namespace H2Pack.Proxy
open H2Pack.Part (alphaH2)

/-- `log2`. -/
noncomputable def log2 (x : ℝ) : ℝ := Real.logb 2 x

/-- `pow(2.0, k)`. -/
noncomputable def pow2 (k : ℝ) : ℝ := (2 : ℝ) ^ k

/-- A proxy point file: the five numbers of the first line and the sets of points; `σ` is the type of a set. -/
structure PFile (σ : Type) where
  dim : Nat
  reltol : ℝ
  nlayer : Int
  minL : ℝ
  sets : List σ

/-! ## H2P_calc_enclosing_box -/

/-- Lines 363-372: the mean of coordinate `j`. -/
noncomputable def center (n : Nat) (P : Nat → Pt) (j : Nat) : ℝ := (List.range n).foldl (fun s i => s + P i j) 0 / n

/-- Lines 374-385. -/
noncomputable def radius (dim n : Nat) (P : Nat → Pt) : ℝ :=
  (List.range dim).foldl (fun r j => (List.range n).foldl (fun r i => max r |P i j - center n P j|) r) 0

/-- Lines 387-404.  `log2(0)` is `-inf` and `pow(2, -inf)` is 0. -/
noncomputable def adjustRadius {σ : Type} (dim : Nat) (file : Option (PFile σ)) (r : ℝ) : ℝ :=
  match file with
  | none => r
  | some F => if F.dim = dim then (if r = 0 then 0 else F.minL * pow2 (⌈log2 (r / F.minL)⌉ : ℤ)) else r

/-- Lines 361-415 `H2P_calc_enclosing_box`: lower corner and widths. -/
noncomputable def enclosingBox {σ : Type} (dim n : Nat) (P : Nat → Pt) (file : Option (PFile σ)) : (Nat → ℝ) × (Nat → ℝ) :=
  let r := adjustRadius dim file (radius dim n P)
  (fun j => center n P j - r, fun _ => 2 * r)

/-! ## H2P_generate_proxy_point_ID_file -/

/-- The parameters of lines 470-474. -/
structure GenParam where
  alg : Nat
  nX : Nat
  nY : Nat
  nlayer : Int
  maxLayer : Int

/-- The arguments of the call in lines 579-585 that are not the same in all calls of one process. -/
structure GenArgs where
  reltol : ℝ
  L1 : ℝ
  L2 : ℝ
  L3 : ℝ
  nY : Int

/-- What the function reads: dimension of the points, `max_level`, `QR_stop_tol`, the width of the root box. -/
structure Tree where
  dim : Nat
  maxLevel : Nat
  reltol : ℝ
  width : ℝ

/-- Line 461. -/
noncomputable def ptMinL (T : Tree) : ℝ := T.width * (1/2) * (1/2) ^ T.maxLevel

/-- Lines 460, 464. -/
noncomputable def ptMaxL (T : Tree) : ℝ := T.width * (1/2) * (1/4)

/-- Lines 485-488: the test of the first line of the file.  For `minL0 ≤ 0` the difference of line 487 is NaN and the comparison is false. -/
noncomputable def usable {σ : Type} (T : Tree) (g : GenParam) (F : PFile σ) : Bool :=
  let k := log2 (ptMaxL T / F.minL)
  !(decide (F.dim ≠ T.dim) || decide (F.reltol > T.reltol) || decide (F.nlayer ≠ g.nlayer) || decide (0 < F.minL ∧ |(dround k : ℝ) - k| > 1 / 10 ^ 10))

/-- Lines 477-505: the file as it is used; a file that cannot be used has no sets. -/
noncomputable def header {σ : Type} (T : Tree) (g : GenParam) (file : Option (PFile σ)) : PFile σ :=
  match file with
  | some F => if usable T g F = true then F else ⟨T.dim, T.reltol, g.nlayer, ptMinL T, []⟩
  | none => ⟨T.dim, T.reltol, g.nlayer, ptMinL T, []⟩

/-- Lines 484, 496, 504: `maxL0`. -/
noncomputable def maxL0 {σ : Type} (H : PFile σ) : ℝ := H.minL * pow2 ((H.sets.length : ℝ) - 1)

/-- Lines 506-512: `curr_minL`, `curr_num_pp`, `file_idx_s`, `file_idx_e`, `pt_idx_s`, `pt_idx_e`. -/
structure Idx where
  minL : ℝ
  num : Int
  fs : Int
  fe : Int
  ps : Int
  pe : Int

/-- Lines 506-512. -/
noncomputable def indices {σ : Type} (T : Tree) (H : PFile σ) : Idx :=
  let lo := min (ptMinL T) H.minL
  let hi := max (ptMaxL T) (maxL0 H)
  ⟨lo, dround (log2 (hi / lo)) + 1, dround (log2 (H.minL / lo)), dround (log2 (maxL0 H / lo)), dround (log2 (ptMinL T / lo)), dround (log2 (ptMaxL T / lo))⟩

/-- Lines 566-575: the arguments for set number `i`. -/
noncomputable def genArgs (T : Tree) (g : GenParam) (minL : ℝ) (i : Nat) : GenArgs :=
  let L1 := 2 * minL * pow2 i
  let L2 := (1 + 2 * alphaH2) * L1
  let L3 := (1 + (g.nlayer : ℝ) * alphaH2) * L1
  ⟨T.reltol, L1, L2, L3, if g.alg = 0 then g.nY * min (dround ((L3 - L2) / L1)) g.maxLayer else g.nY⟩

/-- Lines 526-554, 563-586: the sets `pp0`.  An index outside of `pp_sizes` or `pp0` is undefined behaviour. -/
noncomputable def allSets {σ : Type} (T : Tree) (g : GenParam) (gen : GenArgs → σ) (H : PFile σ) (I : Idx) : Res (Nat → σ) :=
  if I.fs ≤ I.fe ∧ ¬ (0 ≤ I.fs ∧ I.fe < I.num ∧ I.fe - I.fs < H.sets.length) then .ub
  else .ok fun i =>
    if I.fs ≤ (i : Int) ∧ (i : Int) ≤ I.fe then (H.sets[((i : Int) - I.fs).toNat]?).getD (gen (genArgs T g I.minL i)) else gen (genArgs T g I.minL i)

/-- Lines 599-614: the set for every level (none: no points). -/
noncomputable def levelSets {σ : Type} (T : Tree) (I : Idx) (pp0 : Nat → σ) : Res (Nat → Option σ) :=
  if I.ps ≤ I.pe ∧ ¬ (0 ≤ I.ps ∧ I.pe < I.num ∧ I.pe - I.ps ≤ T.maxLevel) then .ub
  else .ok fun level => if level ≤ T.maxLevel ∧ I.ps + (T.maxLevel - level : Int) ≤ I.pe then some (pp0 (I.ps + (T.maxLevel - level : Int)).toNat) else none

/-- Lines 451-616 `H2P_generate_proxy_point_ID_file` with an optional file (`name` says whether a file name is given): the sets of the levels and the file afterwards. -/
noncomputable def idFile {σ : Type} (T : Tree) (g : GenParam) (gen : GenArgs → σ) (name : Bool) (file : Option (PFile σ)) : Res ((Nat → Option σ) × Option (PFile σ)) := do
  let H := header T g (if name then file else none)
  let I := indices T H
  if H.minL ≤ 0 ∨ T.width ≤ 0 then .ub                    -- lines 508-512: conversion of an infinity or NaN to `int`
  else if I.num < 0 then .ub
  else do
    let pp0 ← allSets T g gen H I
    let pp ← levelSets T I pp0
    .ok (pp, if name then some ⟨T.dim, H.reltol, H.nlayer, I.minL, (List.range I.num.toNat).map pp0⟩ else file)

/-- Line 426: `minL` is written with twelve digits after the point. -/
noncomputable def textMinL (x : ℝ) : ℝ := (dround (x * 10 ^ 12) : ℝ) / 10 ^ 12

/-! ## H2P_generate_proxy_point_surface -/

/-- Lines 635-643: points on an axis. -/
noncomputable def nAxis (dim minNpt : Nat) : Nat := if dim = 2 then (minNpt + 3) / 4 else ⌈Real.sqrt ((minNpt : ℝ) / 6)⌉₊

/-- Lines 645, 657-663: `h_i` in iteration `i`. -/
noncomputable def hVal (n i : Nat) : ℝ := (List.range (i + 1)).foldl (fun s _ => s + 2 / ((n : ℝ) + 1)) (-1)

/-- A point with three coordinates. -/
def pt3 (a b c : ℝ) : Pt := fun j => if j = 0 then a else if j = 1 then b else if j = 2 then c else 0

/-- Lines 647-716: the points on the surface of `[-1,1]^dim`. -/
noncomputable def unitSurface (dim minNpt : Nat) : List Pt :=
  let n := nAxis dim minNpt
  if dim = 3 then (List.range n).flatMap fun i => (List.range n).flatMap fun j =>
    let a := hVal n i
    let b := hVal n j
    [pt3 a b (-1), pt3 a b 1, pt3 a (-1) b, pt3 a 1 b, pt3 (-1) a b, pt3 1 a b]
  else (List.range n).flatMap fun i =>
    let a := hVal n i
    [pt3 a (-1) 0, pt3 a 1 0, pt3 (-1) a 0, pt3 1 a 0]

/-- Lines 726-730: `pow_2_level` at `level`. -/
noncomputable def powLevel (level : Nat) : ℝ := (List.range (level + 1)).foldl (fun s _ => s * 2) (1/2)

/-- Lines 620-742 `H2P_generate_proxy_point_surface`, `xpt_dim ≤ pt_dim + 1` (lines 718-722 set one extra coordinate to zero): the points of every level; `none` is the null
pointer.  For other dimensions the function returns without a result. -/
noncomputable def surface (dim minNpt maxLevel minLevel : Nat) (maxL : ℝ) : Option (Nat → Option (List Pt)) :=
  if dim < 2 ∨ 3 < dim then none
  else some fun level =>
    if minLevel ≤ level ∧ level ≤ maxLevel then
      let w := (1 + 2 * alphaH2) * (maxL / powLevel level * (1/2))
      some ((unitSurface dim minNpt).map fun x j => w * x j)
    else none

end H2Pack.Proxy
