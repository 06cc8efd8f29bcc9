import Verif.Props.TensorKernels
import Verif.Props.BuildUJ2
import Verif.Props.MatvecJIT

/-! # C88: construction and product with a built-in kernel -/

namespace H2Pack.Kern
open H2Pack.MV (Bimv JIT Env Mat MetaEnv generateB generateD matvec point BimvSpec)
open H2Pack.Part (Pairs ClusterTree h2Pairs)
open H2Pack.UJ (Input Slot ujTask finishUJ assemble Built)
open H2Pack.KernSpec

/-- A built-in kernel with its product routine, for the vector unit `S`: number of coordinates per point, number of components, kernel, routine.
The RPY points have the radius as their fourth coordinate. -/
inductive Builtin (S : Simd) : Nat → Nat → ((Nat → ℝ) → (Nat → ℝ) → Nat → Nat → ℝ) → Bimv ℝ → Prop
  | scalar (dim : Nat) (hd : 0 < dim) (N : Scalar) (hN : N.Valid) : Builtin S dim 1 (kernOf dim N) (scalarBimv S (body N) dim)
  | stokes (eta a0 : ℝ) : Builtin S 3 3 (KernSpec.stokes eta a0) (stokesBimv S S.len eta a0)
  | rpy (eta : ℝ) : Builtin S 4 3 (KernSpec.rpy eta) (rpyBimv S S.len eta)

theorem Builtin.kdim_pos {S : Simd} {xd kd kern f} (h : Builtin S xd kd kern f) : 0 < kd := by cases h <;> omega

theorem Builtin.sym {S : Simd} {xd kd kern f} (h : Builtin S xd kd kern f) : ∀ x y a b, kern x y a b = kern y x b a := by
  cases h with
  | scalar dim hd N hN => exact fun x y a b => C84_symmetric _ N x y a b
  | stokes eta a0 => exact C87_stokes_symmetric eta a0
  | rpy eta => exact C87_rpy_symmetric eta

theorem Builtin.spec {S : Simd} (hS : S.Ok) (heven : 2 ∣ S.len) {xd kd kern f} (h : Builtin S xd kd kern f) : BimvSpec S.len xd kd kern f := by
  cases h with
  | scalar dim hd N hN => exact C85_contract hS heven N hN hd
  | stokes eta a0 => exact C86_stokes_contract hS eta a0
  | rpy eta => exact C86_rpy_contract hS eta

/-- **C88.**  An H2 matrix built with a built-in kernel, by any number of threads in any schedule: the metadata functions return, the representation covers
every entry once, and the product computed just in time with the kernel's own vectorised routine is the product computed with stored blocks,
for every input vector, schedule and buffer contents.  No hypothesis is left on the kernel or on its routine. -/
theorem C88_builtin_h2 {Vu : Simd} (hV : Vu.Ok) (heven : 2 ∣ Vu.len) (S : Input ℝ) {f : Bimv ℝ} (hb : Builtin Vu S.xdim S.kdim S.kern f)
    (T : ClusterTree S.arr S.nPoint) (hO : ∀ a b, S.ops.div a b ≠ .diverge)
    (fuel0 : Nat) (hf0 : 2 * S.arr.nNode ≤ fuel0) (pv : Pairs) (hpv : h2Pairs S.ptDim S.arr fuel0 = .ok pv) (hne : pv.adm ≠ [])
    {fuel P : Nat} {c : H2Pack.DAG.Config (Res (Slot ℝ)) P}
    (hx : H2Pack.DAG.Execution (H2Pack.DAG.upwardDAG S.arr.nNode S.arr.level S.arr.parent pv.minAdm) (ujTask S fuel) c) (hP : 0 < P) (hd : ∀ a, c.th a = .done)
    (hok : ∀ v < S.arr.nNode, pv.minAdm ≤ S.arr.level v → ∃ s, c.res v = .ok s ∧ 0 < s.jl) (junk : Nat → Slot ℝ)
    (coordIdx : Nat → Nat) (perm : ((List.range S.nPoint).map coordIdx).Perm (List.range S.nPoint)) (mark : Nat → Nat)
    (B D : Nat → Mat ℝ) (junkM junkW : Nat → Nat → ℝ) (Em : MetaEnv) (hEm : Em.Valid S.arr.nNode) :
    ∃ MB MD, Returns (generateB (assemble S (finishUJ pv.minAdm S.arr.level c.res junk) pv coordIdx mark Vu.len (some f) B D junkM junkW) false Em) MB ∧
      Returns (generateD (assemble S (finishUJ pv.minAdm S.arr.level c.res junk) pv coordIdx mark Vu.len (some f) B D junkM junkW) false Em) MD ∧
      Built S pv (finishUJ pv.minAdm S.arr.level c.res junk) (assemble S (finishUJ pv.minAdm S.arr.level c.res junk) pv coordIdx MB.nAdm Vu.len (some f) B D junkM junkW) ∧
      ∀ (E E' : Env ℝ), E.Valid (assemble S (finishUJ pv.minAdm S.arr.level c.res junk) pv coordIdx MB.nAdm Vu.len (some f) B D junkM junkW).aot →
        E'.Valid (assemble S (finishUJ pv.minAdm S.arr.level c.res junk) pv coordIdx MB.nAdm Vu.len (some f) B D junkM junkW).aot →
        ∀ (g g' : (Nat → Nat) × (Nat → Nat)) (dx dy dx' dy' : Nat → ℝ) (g0 g1 : Nat → Nat → ℝ) (gx x : Nat → ℝ),
        ∃ N, ∀ fl, N ≤ fl → ∃ y, (assemble S (finishUJ pv.minAdm S.arr.level c.res junk) pv coordIdx MB.nAdm Vu.len (some f) B D junkM junkW).matvec E g dx dy g0 g1 gx fl x = .ok y ∧
          ∀ k < S.nPoint * S.kdim,
            y k = matvec (assemble S (finishUJ pv.minAdm S.arr.level c.res junk) pv coordIdx MB.nAdm Vu.len (some f) B D junkM junkW).aot E' g' dx' dy' x k := by
  obtain ⟨MB, MD, h1, h2, h3, h4⟩ := H2Pack.UJ.C50_h2_build S T hb.kdim_pos hO fuel0 hf0 pv hpv hne hx hP hd hok junk coordIdx perm mark Vu.len hV.len (some f)
    (by rintro g ⟨⟩; exact hb.spec hV heven) (by rintro ⟨⟩) hb.sym B D junkM junkW Em hEm
  exact ⟨MB, MD, h1, h2, h4, fun E E' hE hE' g g' dx dy dx' dy' g0 g1 gx x =>
    H2Pack.MV.C23_jit_eq_aot h3 E E' hE hE' g g' dx dy dx' dy' g0 g1 gx x⟩

/-- The built-in kernels exist for a vector unit of four lanes. -/
example : Builtin (exactSimd 4) 3 1 (kernOf 3 (.coulomb 0)) (scalarBimv (exactSimd 4) (body (.coulomb 0)) 3) := .scalar 3 (by omega) _ trivial
example : Builtin (exactSimd 4) 4 3 (rpy 1) (rpyBimv (exactSimd 4) 4 1) := .rpy 1

end H2Pack.Kern
