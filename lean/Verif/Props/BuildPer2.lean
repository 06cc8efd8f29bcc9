import Verif.Props.BuildPer
import Verif.Props.BuildUJ3

/-!
# C54: schedules and accuracy of the periodic construction; a concrete case of C53 - C55
-/

set_option linter.unusedSectionVars false

namespace H2Pack.Per
open H2Pack.Part (Arr kids ClusterTree PerPairs perPairs latShift Desc)
open H2Pack.MV (JIT Per KMv MvSpec Mat MetaEnv generateB generateD Nested)
open H2Pack.UJ (Input Slot Skeleton cands pt assemble finishUJ ujTask proxyCols proxyVal interpErr pointNorm castArr castBox cast_tree real_no_div)
open H2Pack.ID (realOps)
open Finset

section
variable {K : Type} [Field K]

/-- **C54** (ends).  Every fair schedule of any number of threads ends with all tasks done. -/
theorem C54_ends (S : Input K) (T : ClusterTree S.arr S.nPoint) (fuel NT : Nat) (hP : 0 < NT) (garbage : H2Pack.DAG.Dyn) (res : Nat → Res (Slot K))
    (sched : Nat → Fin NT) (fair : ∀ a n, ∃ m, n ≤ m ∧ sched m = a) :
    ∃ Q d k, H2Pack.DAG.init (H2Pack.DAG.upwardDAGPeriodic S.arr.nNode S.arr.level S.arr.parent 0) garbage = .ok Q d ∧
      (∀ a, (H2Pack.DAG.run Q (ujTask S fuel) (H2Pack.DAG.start NT d res) sched k).th a = .done) ∧
      H2Pack.DAG.Execution (H2Pack.DAG.upwardDAGPeriodic S.arr.nNode S.arr.level S.arr.parent 0) (ujTask S fuel) (H2Pack.DAG.run Q (ujTask S fuel) (H2Pack.DAG.start NT d res) sched k) := by
  obtain ⟨W, hi, _⟩ := H2Pack.DAG.upward_periodic_executable (H2Pack.Part.up_tree T)
  obtain ⟨Q, d, hQ⟩ := hi garbage
  obtain ⟨k, hk, _⟩ := H2Pack.DAG.C17_fair_termination W (f := ujTask S fuel) res hQ hP sched fair
  exact ⟨Q, d, k, hQ, hk, garbage, Q, d, res, hQ, H2Pack.DAG.run_reach _ _ _ _ _⟩

theorem exec_exists_per (S : Input K) (T : ClusterTree S.arr S.nPoint) (fuel P : Nat) (hP : 0 < P) :
    ∃ c : H2Pack.DAG.Config (Res (Slot K)) P, H2Pack.DAG.Execution (H2Pack.DAG.upwardDAGPeriodic S.arr.nNode S.arr.level S.arr.parent 0) (ujTask S fuel) c ∧ ∀ a, c.th a = .done := by
  obtain ⟨Q, d, k, _, h2, h3⟩ := C54_ends S T fuel P hP ⟨0, 0, fun _ => 0, fun _ => 0⟩ (fun _ => .ub) (fun n => ⟨n % P, Nat.mod_lt _ hP⟩) (by
    intro a n
    refine ⟨n * P + a, ?_, ?_⟩
    · have := Nat.le_mul_of_pos_right n hP
      omega
    · apply Fin.ext
      show (n * P + a) % P = a
      rw [Nat.mul_comm, Nat.mul_add_mod, Nat.mod_eq_of_lt a.2])
  exact ⟨_, h3, h2⟩

/-- **C54** (determinism).  The slots do not depend on the number of threads or the schedule, and no task runs forever. -/
theorem C54_determined (S : Input K) (T : ClusterTree S.arr S.nPoint) (hkd : 0 < S.kdim) (hO : ∀ a b, S.ops.div a b ≠ .diverge) :
    ∃ (F : Nat) (r : Nat → Res (Slot K)), ∀ fuel ≥ F, ∀ (NT : Nat) (c : H2Pack.DAG.Config (Res (Slot K)) NT),
      H2Pack.DAG.Execution (H2Pack.DAG.upwardDAGPeriodic S.arr.nNode S.arr.level S.arr.parent 0) (ujTask S fuel) c → 0 < NT → (∀ a, c.th a = .done) →
      ∀ v < S.arr.nNode, c.res v = r v ∧ r v ≠ .diverge := by
  obtain ⟨F, r, h⟩ := H2Pack.UJ.done_determined T hkd hO 0 (fun v c => ((S.pp (S.arr.level v)).1 * S.kdim,
    H2Pack.MV.kmat S.kern S.kdim (H2Pack.MV.point S.xdim (H2Pack.UJ.shiftC S v c.2.1 c.2.2) c.2.1) (H2Pack.MV.point S.xdim (S.pp (S.arr.level v)).2 (S.pp (S.arr.level v)).1)))
  refine ⟨F, r, fun fuel hf P c hx hP hd v hv => h fuel hf c.res ?_ v hv (Nat.zero_le _)⟩
  have := H2Pack.UJ.execution_done_per T hx hP hd
  rw [H2Pack.UJ.ujNode_eq] at this
  exact this

end

variable {e f t : ℝ}

/-- **C54** (accuracy, relative criterion).  In exact arithmetic every candidate of every node, the root included, is reproduced from the skeleton
points on all proxy points up to the tolerance times the largest norm of a candidate. -/
theorem C54_relative (S : Input ℝ) (he : 0 ≤ e) (hops : S.ops = realOps e f t) (T : ClusterTree S.arr S.nPoint) (hkd : 0 < S.kdim) (tol : ℝ) (hst : S.stop = .rel tol)
    {fuel P : Nat} {c : H2Pack.DAG.Config (Res (Slot ℝ)) P}
    (hx : H2Pack.DAG.Execution (H2Pack.DAG.upwardDAGPeriodic S.arr.nNode S.arr.level S.arr.parent 0) (ujTask S fuel) c) (hP : 0 < P) (hd : ∀ a, c.th a = .done)
    (sl : Nat → Slot ℝ) (hok : ∀ v < S.arr.nNode, c.res v = .ok (sl v)) :
    ∀ v < S.arr.nNode, ∀ i < (cands S sl v).length, ∃ p ∈ cands S sl v,
      interpErr S sl v i ≤ max (Real.sqrt (proxyCols S v : Nat) * e) (tol * Real.sqrt S.kdim) * pointNorm S v p := fun v hv =>
  H2Pack.UJ.done_relative S he hops T hkd tol hst (H2Pack.UJ.execution_done_per T hx hP hd) sl (fun v hv _ => hok v hv) v hv (Nat.zero_le _)

/-- **C54** (accuracy, absolute criterion). -/
theorem C54_absolute (S : Input ℝ) (he : 0 ≤ e) (hops : S.ops = realOps e f t) (T : ClusterTree S.arr S.nPoint) (hkd : 0 < S.kdim) (tol : ℝ) (hst : S.stop = .abs tol)
    {fuel P : Nat} {c : H2Pack.DAG.Config (Res (Slot ℝ)) P}
    (hx : H2Pack.DAG.Execution (H2Pack.DAG.upwardDAGPeriodic S.arr.nNode S.arr.level S.arr.parent 0) (ujTask S fuel) c) (hP : 0 < P) (hd : ∀ a, c.th a = .done)
    (sl : Nat → Slot ℝ) (hok : ∀ v < S.arr.nNode, c.res v = .ok (sl v)) :
    ∀ v < S.arr.nNode, ∀ i < (cands S sl v).length, interpErr S sl v i ≤ max (Real.sqrt (proxyCols S v : Nat) * e) tol := fun v hv =>
  H2Pack.UJ.done_absolute S he hops T hkd tol hst (H2Pack.UJ.execution_done_per T hx hP hd) sl (fun v hv _ => hok v hv) v hv (Nat.zero_le _)

/-- **C54** (scalar kernels).  For a scalar kernel that does not vanish on all proxy points of a level and a relative tolerance below one, the
periodic construction succeeds in exact arithmetic; every node has at least one skeleton point. -/
theorem C54_scalar (S : Input ℝ) (he : 0 ≤ e) (hops : S.ops = realOps e f t) (T : ClusterTree S.arr S.nPoint) (hkd : S.kdim = 1) (tol : ℝ) (htol : 0 < tol) (hst : S.stop = .rel tol)
    (hq : ∀ v < S.arr.nNode, max (Real.sqrt (proxyCols S v : Nat) * e) tol < 1)
    (hnz : ∀ v < S.arr.nNode, ∀ p, S.arr.ptS v ≤ p → p ≤ S.arr.ptE v → ∃ c < proxyCols S v, proxyVal S v p 0 c ≠ 0) :
    ∃ F, ∀ fuel ≥ F, ∀ (P : Nat) (c : H2Pack.DAG.Config (Res (Slot ℝ)) P),
      H2Pack.DAG.Execution (H2Pack.DAG.upwardDAGPeriodic S.arr.nNode S.arr.level S.arr.parent 0) (ujTask S fuel) c → 0 < P → (∀ a, c.th a = .done) →
      ∃ sl : Nat → Slot ℝ, ∀ v < S.arr.nNode, c.res v = .ok (sl v) ∧ Skeleton S sl v ∧ 0 < (sl v).jl := by
  obtain ⟨F, r, h⟩ := C54_determined S T (by omega) (real_no_div hops)
  refine ⟨F, fun fuel hf P c hx hP hd => ?_⟩
  obtain ⟨sl, hsl⟩ := H2Pack.UJ.done_scalar S he hops T hkd tol htol hst (m := 0) (fun v hv _ => hq v hv) (fun v hv _ => hnz v hv) (H2Pack.UJ.execution_done_per T hx hP hd)
    (fun v hv _ => by
      have := h fuel hf P c hx hP hd v hv
      rw [this.1]; exact this.2)
  exact ⟨sl, fun v hv => hsl v hv (Nat.zero_le _)⟩

/-! ## A concrete case: four points in a square cell -/

theorem cast_calcPer (A : Arr ℚ) (adm : Nat → Nat → Bool) (hs : Bool) (l : Nat) : ∀ (fuel a b : Nat) (pv : PerPairs),
    H2Pack.Part.calcPairsPer (castArr A) adm hs l fuel a b pv = H2Pack.Part.calcPairsPer A adm hs l fuel a b pv := by
  intro fuel
  induction fuel with
  | zero => intro a b pv; rfl
  | succ k ih =>
    intro a b pv
    have e : ∀ v, kids (castArr A) v = kids A v := fun _ => rfl
    unfold H2Pack.Part.calcPairsPer
    simp only [ih, e]
    rfl

theorem cast_perPairs (A : Arr ℚ) (n fuel : Nat) : perPairs n (castArr A) (nLattice n) (lattice ℝ n) fuel = perPairs n A (nLattice n) (lattice ℚ n) fuel := by
  have hl : ∀ l, latShift (castArr A) (lattice ℝ n) l = fun j => ((latShift A (lattice ℚ n) l j : ℚ) : ℝ) := by
    intro l
    funext j
    unfold latShift lattice
    push_cast
    rfl
  have hsh : ∀ l, H2Pack.Part.hasShift n (latShift (castArr A) (lattice ℝ n) l) = H2Pack.Part.hasShift n (latShift A (lattice ℚ n) l) := by
    intro l
    rw [hl]
    unfold H2Pack.Part.hasShift
    congr 1
    funext j
    rw [decide_eq_decide]
    have : (|((latShift A (lattice ℚ n) l j : ℚ) : ℝ)| : ℝ) = ((|latShift A (lattice ℚ n) l j| : ℚ) : ℝ) := by push_cast; rfl
    rw [this]
    constructor
    · intro h
      have : (((1 / 10 ^ 10 : ℚ)) : ℝ) < ((|latShift A (lattice ℚ n) l j| : ℚ) : ℝ) := by push_cast; push_cast at h; exact h
      exact_mod_cast this
    · intro h
      have : (((1 / 10 ^ 10 : ℚ)) : ℝ) < ((|latShift A (lattice ℚ n) l j| : ℚ) : ℝ) := by exact_mod_cast h
      push_cast at this
      push_cast
      exact this
  have hadm : ∀ l, (fun a b => H2Pack.Utils.checkBoxAdmissible ((castArr A).enbox a) (H2Pack.Part.shiftBox ((castArr A).enbox b) (latShift (castArr A) (lattice ℝ n) l)) n (H2Pack.Part.alphaH2 : ℝ)) =
      fun a b => H2Pack.Utils.checkBoxAdmissible (A.enbox a) (H2Pack.Part.shiftBox (A.enbox b) (latShift A (lattice ℚ n) l)) n (H2Pack.Part.alphaH2 : ℚ) := by
    intro l
    funext a b
    have h : (H2Pack.Part.alphaH2 : ℝ) = ((H2Pack.Part.alphaH2 : ℚ) : ℝ) := by unfold H2Pack.Part.alphaH2; push_cast; rfl
    have h2 : H2Pack.Part.shiftBox ((castArr A).enbox b) (latShift (castArr A) (lattice ℝ n) l) = castBox (H2Pack.Part.shiftBox (A.enbox b) (latShift A (lattice ℚ n) l)) := by
      rw [hl]
      unfold H2Pack.Part.shiftBox castBox castArr castBox
      dsimp only
      congr 1
      funext j
      push_cast
      rfl
    rw [h, h2]
    exact H2Pack.UJ.cast_adm _ _ _ _
  unfold perPairs
  simp only [hadm, hsh, cast_calcPer]
  rfl

/-- Four points, one in every quarter of the cell `[0, 4]²`. -/
def cellCoord (p j : Nat) : ℚ := if j = 0 then (if p % 2 = 0 then 1 else 3) else if p / 2 = 0 then 1 else 3

def cellBox : H2Pack.Utils.Box ℚ := ⟨fun _ => 0, fun _ => 4⟩

def cellPairs : Option (Nat × Nat × Nat) :=
  match H2Pack.Part.partitionPoints 2 2 4 cellCoord 1 (1/100) (some cellBox) (fun _ => 0) H2Pack.Part.exJunk (fun _ _ => 0) 10 with
  | .ok R => match perPairs 2 R.arr (nLattice 2) (lattice ℚ 2) 30 with
    | .ok pv => some (R.arr.nNode, pv.adm.length, pv.inadm.length)
    | _ => none
  | _ => none

set_option maxRecDepth 100000 in
theorem cellPairs_eq : cellPairs = some (5, 108, 32) := by decide +kernel

/-- The tree of the four points and its periodic pair lists. -/
theorem cell_build : ∃ (A : Arr ℝ) (pv : PerPairs), ClusterTree A 4 ∧ A.nNode = 5 ∧ (∀ j, (A.enbox (A.nNode - 1)).ext j = 4) ∧
    perPairs 2 A (nLattice 2) (lattice ℝ 2) 30 = .ok pv ∧ pv.adm.length = 108 ∧ pv.inadm.length = 32 := by
  have h := cellPairs_eq
  unfold cellPairs at h
  have O := H2Pack.Part.partitionPoints_spec 2 2 4 (by norm_num) (le_refl _) cellCoord 1 (1/100) (some cellBox) (fun _ => 0) H2Pack.Part.exJunk (fun _ _ => 0) 10
  cases h1 : H2Pack.Part.partitionPoints 2 2 4 cellCoord 1 (1/100) (some cellBox) (fun _ => 0) H2Pack.Part.exJunk (fun _ _ => 0) 10 with
  | ok R =>
    rw [h1] at h O
    dsimp only at h O
    cases h2 : perPairs 2 R.arr (nLattice 2) (lattice ℚ 2) 30 with
    | ok pv =>
      rw [h2] at h
      simp only [Option.some.injEq, Prod.mk.injEq] at h
      refine ⟨castArr R.arr, pv, cast_tree O.tree, h.1, fun j => ?_, by rw [cast_perPairs]; exact h2, h.2.1, h.2.2⟩
      show (((R.arr.enbox (R.arr.nNode - 1)).ext j : ℚ) : ℝ) = 4
      rw [O.rootBox]
      show (((4 : ℚ)) : ℝ) = 4
      norm_num
    | ub => rw [h2] at h; simp at h
    | diverge => rw [h2] at h; simp at h
  | ub => rw [h1] at h; simp at h
  | diverge => rw [h1] at h; simp at h

noncomputable def cellInput (A : Arr ℝ) : Input ℝ where
  arr := A
  nPoint := 4
  ptDim := 2
  xdim := 2
  kdim := 1
  coord i := i
  kern _ _ _ _ := 1
  pp _ := (1, fun _ => 100)
  stop := .rel (1 / 1000)
  ops := realOps 0 0 0
  sz := 8
  env _ := H2Pack.ID.demoIDEnv ℝ 0
  junkJ _ _ := 5
  junkC _ _ := 5
  junkS _ _ := 5

theorem cell_interp {A : Arr ℝ} (sl : Nat → Slot ℝ) {u i : Nat} (h : interpErr (cellInput A) sl u i ≤ 1 / 1000) {G : (Nat → ℝ) → Nat → ℝ} (hG : ∀ s a, G s a = 1) :
    |interpOf (cellInput A) sl G u i 0| ≤ 1 / 1000 := by
  have e : interpErr (cellInput A) sl u i = |interpOf (cellInput A) sl G u i 0| := by
    unfold interpErr interpOf proxyVal proxyCols
    simp only [hG]
    unfold cellInput
    dsimp only
    simp only [sum_range_one, Nat.mul_one, Nat.add_zero]
    rw [Real.sqrt_sq_eq_abs]
  rw [← e]
  exact h

/-- A concrete case of the theorems C53 - C55: four points in a square cell with 108 admissible pairs, the kernel one, the periodic kernel ten, any number
of threads. -/
theorem cell_case (NT : Nat) (hP : 0 < NT) : ∃ (S : Input ℝ) (pkern : (Nat → ℝ) → (Nat → ℝ) → Nat → Nat → ℝ) (pv : PerPairs) (sl : Nat → Slot ℝ) (P : Per ℝ) (MB MD : H2Pack.MV.Meta),
    S.nPoint = 4 ∧ S.ptDim = 2 ∧ pv.adm.length = 108 ∧ BuiltPer S pkern (nLattice S.ptDim) (lattice ℝ S.ptDim) pv sl P ∧
    (∀ j < S.ptDim, 1 / 10^10 < (S.arr.enbox (S.arr.nNode - 1)).ext j) ∧
    PerAccurate S pkern (nLattice S.ptDim) (lattice ℝ S.ptDim) pv sl (1 / 1000) (1 / 1000) ∧
    P.PerMeta MB MD ∧ S.ops.zero = 0 ∧ S.ops.one = 1 ∧ P.J.R.mark = MB.nAdm ∧ P.J.R.adm ≠ [] ∧
    ∃ E : MetaEnv, E.Valid P.J.R.arr.nNode ∧ Returns (H2Pack.MV.generateB P.J true E) MB ∧ Returns (H2Pack.MV.generateD P.J true E) MD := by
  obtain ⟨A, pv, T, hn, hbox, hp, ha, _⟩ := cell_build
  have hc : ∀ v, proxyCols (cellInput A) v = 1 := fun v => rfl
  obtain ⟨F, hF⟩ := C54_scalar (cellInput A) (le_refl 0) rfl T rfl (1 / 1000) (by norm_num) rfl
    (fun v _ => by rw [hc]; norm_num) (fun v _ p _ _ => ⟨0, by rw [hc]; norm_num, by show (1 : ℝ) ≠ 0; norm_num⟩)
  obtain ⟨c, hx, hd⟩ := exec_exists_per (cellInput A) T F NT hP
  obtain ⟨sl0, hsl0⟩ := hF F (le_refl _) NT c hx hP hd
  let E : MetaEnv := ⟨3, 2, 2, fun _ => 0, fun _ => 0, List.range A.nNode⟩
  have hE : E.Valid A.nNode := ⟨by show 1 ≤ 3; omega, List.Perm.refl _⟩
  have hpos : ∀ j < 2, (0 : ℝ) < (A.enbox (A.nNode - 1)).ext j := fun j _ => by rw [hbox]; norm_num
  obtain ⟨MB, MD, _, _, P, hPf, hB, r1, r2, hM⟩ := C54_periodic_build (cellInput A) T Nat.one_pos (real_no_div rfl) (le_refl 2) (show 2 ≤ 8 by omega) hpos (fun _ _ _ _ => 10)
    30 (show 2 * A.nNode ≤ 30 by omega) pv hp (by rintro h; rw [h] at ha; simp at ha) hx hP hd
    (fun v hv => ⟨sl0 v, (hsl0 v hv).1, (hsl0 v hv).2.2⟩) (fun v => sl0 v) (fun i => 3 - i) (show ((List.range 4).map fun i => 3 - i).Perm (List.range 4) by decide) (fun _ => 0) 4 (by omega) none (fun f h => by simp at h)
    (fun _ => ⟨0, 0, fun _ _ => 0⟩) (fun _ => ⟨0, 0, fun _ _ => 0⟩) (fun _ _ => 7) (fun _ _ => 7) 7 (fun _ _ => 7) (fun _ => 7) (fun _ => 7) (fun _ _ => 7) E E hE hE
  have hres : ∀ v < A.nNode, finishUJ 0 A.level c.res (fun v => sl0 v) v = sl0 v := fun v hv => H2Pack.UJ.finish_at (Nat.zero_le _) (hsl0 v hv).1
  have hacc : ∀ u < A.nNode, ∀ i < (cands (cellInput A) (finishUJ 0 A.level c.res (fun v => sl0 v)) u).length,
      interpErr (cellInput A) (finishUJ 0 A.level c.res (fun v => sl0 v)) u i ≤ 1 / 1000 := by
    intro u hu i hi
    obtain ⟨p, _, hpe⟩ := C54_relative (cellInput A) (le_refl 0) rfl T Nat.one_pos (1 / 1000) rfl hx hP hd _
      (fun v hv => by rw [hres v hv]; exact (hsl0 v hv).1) u hu i hi
    refine le_trans hpe ?_
    have hpn : pointNorm (cellInput A) u p = 1 := by
      unfold pointNorm proxyVal proxyCols cellInput
      simp
    rw [hpn, hc]
    show max (Real.sqrt ((1 : Nat) : ℝ) * 0) (1 / 1000 * Real.sqrt ((1 : Nat) : ℝ)) * 1 ≤ 1 / 1000
    norm_num
  have hdesc : ∀ {u v}, v < A.nNode → Desc A u v → u < A.nNode := fun hv h => lt_of_le_of_lt (T.desc_le h hv) hv
  have hnodes := hB.ok.admNode
  have hdiff : ∀ s t a b, diffKern (cellInput A) (fun _ _ _ _ => 10) (nLattice 2) (lattice ℝ 2) s t a b = 1 := by
    intro s t a b
    show (10 : ℝ) - ∑ l ∈ range 9, (1 : ℝ) = 1
    simp
    norm_num
  have z1 : ∀ {a : Nat}, a < (cellInput A).kdim → a = 0 := fun {a} h => by have : a < 1 := h; omega
  have hnode : ∀ x ∈ pv.adm, x.1 < A.nNode ∧ x.2.1 < A.nNode := by
    intro x hx
    obtain ⟨⟨_, _, _, _, _, _, _, _, _, _, _, _, _, hform⟩, _⟩ := hB
    rw [hform] at hnodes
    exact hnodes (x.1, x.2.1) (List.mem_map.2 ⟨x, hx, rfl⟩)
  refine ⟨cellInput A, _, pv, _, P, MB, MD, rfl, rfl, ha, hB, fun j _ => by show _ < (A.enbox (A.nNode - 1)).ext j; rw [hbox]; norm_num, ⟨?_, ?_, ?_, ?_⟩, hM, rfl, rfl, by rw [hPf]; rfl, ?_, E, by rw [hPf]; exact hE, r1, r2⟩
  · intro x hx _ u hu y _ _ b _ i hi a ha'
    obtain rfl := z1 ha'
    exact cell_interp _ (hacc u (hdesc (hnode x hx).1 hu) i hi) (fun _ _ => rfl)
  · intro x hx _ u hu y _ _ b _ i hi a ha'
    obtain rfl := z1 ha'
    exact cell_interp _ (hacc u (hdesc (hnode x hx).2 hu) i hi) (fun _ _ => rfl)
  · intro u hu y _ b _ i hi a ha'
    obtain rfl := z1 ha'
    exact cell_interp _ (hacc u hu i hi) (fun _ _ => hdiff _ _ _ _)
  · intro u hu y _ b _ i hi a ha'
    obtain rfl := z1 ha'
    exact cell_interp _ (hacc u hu i hi) (fun _ _ => hdiff _ _ _ _)
  · rw [hPf]
    show pv.adm.map _ ≠ []
    intro h
    rw [List.map_eq_nil_iff] at h
    rw [h] at ha
    simp at ha

example : ∃ (S : Input ℝ) (pkern : (Nat → ℝ) → (Nat → ℝ) → Nat → Nat → ℝ) (pv : PerPairs) (sl : Nat → Slot ℝ) (P : Per ℝ),
    pv.adm.length = 108 ∧ BuiltPer S pkern (nLattice S.ptDim) (lattice ℝ S.ptDim) pv sl P := by
  obtain ⟨S, pk, pv, sl, P, _, _, _, _, h, hB, _⟩ := cell_case 3 (by omega)
  exact ⟨S, pk, pv, sl, P, h, hB⟩

end H2Pack.Per
