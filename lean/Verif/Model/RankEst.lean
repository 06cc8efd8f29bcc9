import Verif.Model.AFNPrecond
import Verif.Model.Utils
import Verif.Model.ApproxKNN
import Mathlib.Analysis.SpecialFunctions.Pow.Real

/-!
# Rank estimation and the whole of AFN_precond_build (src/AFN_precond.c:858-1013, 1110-1213)

Exact real arithmetic; LAPACK as in `Model/ULV.lean`, `Model/SPDHSS.lean`.  `rb` is the sequence of values of `rand()`; the number of used values is passed on.  The loops
of `H2P_rand_sample` have fuel `fr`.
-/

namespace H2Pack.AFN
open H2Pack.ULV (Lapack fsub bsub permOf)

/-- What the function depends on besides the arguments: libraries, threads of `AFNi_FPS` (`orders rep`, initial contents `st rep` in repetition `rep`), random numbers. -/
structure RankIn where
  env : Env
  kf : (Nat → ℝ) → (Nat → ℝ) → ℝ
  npt : Nat
  dim : Nat
  coord : Nat → Nat → ℝ
  mu : ℝ
  maxK : Nat
  ss : Nat
  nRep : Nat
  nThread : Nat
  big : ℝ
  orders : Nat → Nat → List Nat
  st : Nat → FpsSt ℝ
  rb : Nat → Nat

/-- `GETRF` and `GETRS` for one right-hand side. -/
noncomputable def luSolve1 (Lp : Lapack ℝ) (r : Nat) (a : Nat → Nat → ℝ) (b : Nat → ℝ) : Nat → ℝ :=
  let f := Lp.getrf r a
  bsub r f.2.2 (fsub true f.2.2 fun i => b (permOf r f.2.1 i))

/-- `calc_2norm` of the entries of an `n`-by-`n` matrix, squared. -/
noncomputable def sumSq (n : Nat) (a : Nat → Nat → ℝ) : ℝ := ∑ i ∈ Finset.range n, ∑ j ∈ Finset.range n, a i j * a i j

/-- Lines 904-917: `Knys = Ks(:, 1:r) * (K11 \ K1)`. -/
noncomputable def knys (Lp : Lapack ℝ) (ks : Nat → Nat → ℝ) (r : Nat) (i j : Nat) : ℝ := ∑ t ∈ Finset.range r, ks i t * luSolve1 Lp r ks (fun s => ks s j) t

/-- Lines 907-922: the test `relerr < 0.1`.  If `K11` is singular or the norm is zero the quotient is infinite or NaN and the test fails. -/
noncomputable def rankTest (Lp : Lapack ℝ) (n : Nat) (ks : Nat → Nat → ℝ) (r : Nat) : Bool :=
  decide ((Lp.getrf r ks).1 = 0 ∧ sumSq n ks ≠ 0 ∧ Real.sqrt (sumSq n fun i j => ks i j - knys Lp ks r i j) / Real.sqrt (sumSq n ks) < 1 / 10)

/-- Lines 899-923: the binary search. -/
def bsearch (test : Nat → Bool) (rs re : Nat) : Nat :=
  if rs < re then
    let rc := (rs + re) / 2
    if test rc = true then bsearch test rs rc else bsearch test (rc + 1) re
  else rs
termination_by re - rs
decreasing_by all_goals omega

/-- Lines 866, 955: the scaling of the coordinates. -/
noncomputable def scaleFac (a b dim : Nat) : ℝ := ((a : ℝ) / b) ^ (1 / (dim : ℝ))

/-- Lines 894-898: the matrix `Ks` of the points `x`. -/
noncomputable def shiftedK (I : RankIn) (x : Nat → Nat → ℝ) (i j : Nat) : ℝ :=
  let k : Nat → Nat → ℝ := fun i j => I.kf (fun d => x d i) (fun d => x d j)
  k i j + if i = j then Real.sqrt I.ss * I.env.ulp (sumSq I.ss k) else 0

/-- Lines 880-924: repetition number `rep`; `u` random numbers have been used. -/
noncomputable def scaledRep (I : RankIn) (fr rep u : Nat) : Res (Nat × Nat) := do
  let s ← H2Pack.Utils.sampleLoop I.rb I.npt fr I.ss (fun _ => false) u                                       -- line 882
  let xs : Nat → Nat → ℝ := fun d j => I.coord d (s.1.getD j 0) * scaleFac I.ss I.npt I.dim                   -- lines 883-889
  let p ← fps ⟨I.ss, I.dim, xs, I.nThread, I.big⟩ I.ss I.ss (I.orders rep) (I.st rep)                         -- lines 891-893
  let ks := shiftedK I fun d j => xs d (p.idx j)
  .ok (bsearch (rankTest I.env.lp I.ss ks) 1 I.ss, s.2)

/-- A loop over the repetitions, from `rep` on (`k` are left): the maximum of the results. -/
def repLoop (f : Nat → Nat → Res (Nat × Nat)) : Nat → Nat → Nat → Nat → Res (Nat × Nat)
  | 0, _, m, u => .ok (m, u)
  | k + 1, rep, m, u => do
    let a ← f rep u
    repLoop f k (rep + 1) (if a.1 > m then a.1 else m) a.2

/-- Lines 926, 978: `DCEIL(sample_r * a / b)`, converted to `int`. -/
noncomputable def scaleUp (m a b : Nat) : Nat := ⌈(m : ℝ) * a / b⌉₊

/-- src/AFN_precond.c:860-930 `AFNi_rank_est_scaled`. -/
noncomputable def rankScaled (I : RankIn) (fr u : Nat) : Res (Nat × Nat) :=
  if I.ss = 0 ∨ I.npt = 0 then .ub
  else do
    let a ← repLoop (scaledRep I fr) I.nRep 0 0 u
    .ok (scaleUp a.1 I.npt I.ss, a.2)

/-- Lines 946-977: a repetition in `AFNi_Nys_rank_est`; `m` is `max_k_`.  The array `ev` has `max_k` entries. -/
noncomputable def nysRep (I : RankIn) (m fr _rep u : Nat) : Res (Nat × Nat) := do
  let s ← H2Pack.Utils.sampleLoop I.rb I.npt fr I.ss (fun _ => false) u                                       -- lines 950-959
  let sc := if m > I.ss then scaleFac I.ss m I.dim else 1
  let xs : Nat → Nat → ℝ := fun d j => I.coord d (s.1.getD j 0) * sc                                          -- lines 960-966
  let ev := I.env.lq.syevd I.ss fun i j => I.kf (fun d => xs d i) (fun d => xs d j) + if i = j then I.mu else 0   -- lines 969-971
  if I.maxK < I.ss then .ub                                                                                   -- line 971 stores `ss_npt` eigenvalues
  else .ok ((List.range I.ss).countP fun i => decide (ev.2.2 i > 11 / 10 * I.mu), s.2)                        -- lines 973-976

/-- src/AFN_precond.c:934-982 `AFNi_Nys_rank_est`. -/
noncomputable def rankNys (I : RankIn) (fr u : Nat) : Res (Nat × Nat) :=
  if I.ss = 0 then .ub
  else do
    let m := max I.maxK I.ss                                                                                  -- lines 939-940
    let a ← repLoop (nysRep I m fr) I.nRep 0 0 u
    .ok (scaleUp a.1 m I.ss, a.2)

/-- src/AFN_precond.c:997-1013 `AFNi_rank_est`. -/
noncomputable def rankEst (I : RankIn) (fr u : Nat) : Res Nat := do
  let a ← rankScaled I fr u
  if a.1 > I.maxK then .ok a.1
  else do
    let b ← rankNys I fr a.2
    .ok b.1

/-- `n1` (line 1127). -/
def landmarks (est maxK : Nat) : Nat := if est < maxK then est else maxK

/-- src/AFN_precond.c:1110-1213 `AFN_precond_build` without an H2 matrix (the neighbours are the exact ones, line 586); `orders`, `st` are those of the call of `AFNi_FPS` in line
1155, `order` the order of the threads of the neighbour search.  With `n1 > n` the size `n2` is negative. -/
noncomputable def buildAll (I : RankIn) (orders : Nat → List Nat) (st : FpsSt ℝ) (fsai : Nat) (order : List Nat) (ev : CsrEnv) (fr fuel : Nat) : Res (Option Precond) := do
  let est ← rankEst I fr 0
  if I.npt < landmarks est I.maxK then .ub
  else do
    let perm ← orderPoints ⟨I.npt, I.dim, I.coord, I.nThread, I.big⟩ (landmarks est I.maxK) orders st
    let nn ← (if est < I.maxK then .ok fun _ => []
      else exactKNN I.dim (fun d j => I.coord d (perm (landmarks est I.maxK + j))) (I.npt - landmarks est I.maxK) fsai order fuel)
    precondBuild I.env I.kf I.mu I.npt I.coord est I.maxK perm nn ev fuel

end H2Pack.AFN
