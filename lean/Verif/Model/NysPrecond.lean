import Verif.Model.AFNPrecond
import Verif.Model.Utils

/-! # The randomized Nyström preconditioner (examples/AFN_precond/Nys_precond.c)

It calls the routines of src/AFN_precond.c modelled in `Model/AFNPrecond`; applying it is the Nyström branch of `precondApply`
(examples/AFN_precond/Nys_precond.c:79-88 has the same three statements).  Allocation does not fail. -/

namespace H2Pack.AFN

/-- examples/AFN_precond/Nys_precond.c:33-38: the order of the points from the sample `s`; `junk` is the new array `perm`. -/
def sampleOrder (n k : Nat) (s : List Nat) (junk : Nat → Nat) : Res (Nat → Nat) :=
  let perm : Nat → Nat := fun i => if i < k then s.getD i 0 else junk i                            -- line 33
  let flag : Nat → Bool := (List.range k).foldl (fun f i => Function.update f (perm i) true) (fun _ => false)   -- lines 34-35
  ((List.range n).foldl (appendRest n flag) (.ok (perm, k))).bind fun p => .ok p.1                   -- lines 36-38

/-- examples/AFN_precond/Nys_precond.c:22-76 `Nys_precond_build` for a scalar kernel; `r` are the values of `rand()`. -/
noncomputable def nysPrecondBuild (E : Env) (kf : (Nat → ℝ) → (Nat → ℝ) → ℝ) (mu : ℝ) (n : Nat) (coord : Nat → Nat → ℝ) (k : Nat) (r : Nat → Nat) (junk : Nat → Nat)
    (fuel : Nat) : Res (Option Precond) :=
  (H2Pack.Utils.randSample r n k fuel).bind fun s =>
    (sampleOrder n k s.1 junk).bind fun perm =>
      let kk : Nat → Nat → ℝ := fun i j => kf (fun d => coord d (perm i)) (fun d => coord d (perm j))  -- lines 39, 42-62
      (nysBuild E mu k (n - k) kk).bind fun N => .ok (N.map fun N => ⟨n, k, perm, .inl N⟩)              -- lines 67-74

end H2Pack.AFN
