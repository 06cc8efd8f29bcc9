import Verif.Props.BuildUJ2
import Mathlib.Data.Real.Basic

/-!
# C50-C52: the constructions end; concrete cases
-/

namespace H2Pack.UJ
open H2Pack.Part (Arr Pairs kids ClusterTree Holds Desc h2Pairs hssPairs)
open H2Pack.MV
open H2Pack.ID (realOps)
open Finset

/-- **C50** (the construction ends).  Whatever the number of threads and the schedule, as long as no thread is left out for ever: all threads
come to the end of the construction, and then every node at `min_adm_level` or below has been handled. -/
theorem C50_h2_ends {K : Type} [Field K] (S : Input K) (T : ClusterTree S.arr S.nPoint) {m : Nat} (hm : 1 ≤ m) (fuel P : Nat) (hP : 0 < P) (garbage : H2Pack.DAG.Dyn) (res : Nat → Res (Slot K))
    (sched : Nat → Fin P) (fair : ∀ a n, ∃ m, n ≤ m ∧ sched m = a) :
    ∃ Q d k, H2Pack.DAG.init (H2Pack.DAG.upwardDAG S.arr.nNode S.arr.level S.arr.parent m) garbage = .ok Q d ∧
      (∀ a, (H2Pack.DAG.run Q (ujTask S fuel) (H2Pack.DAG.start P d res) sched k).th a = .done) ∧
      H2Pack.DAG.Execution (H2Pack.DAG.upwardDAG S.arr.nNode S.arr.level S.arr.parent m) (ujTask S fuel) (H2Pack.DAG.run Q (ujTask S fuel) (H2Pack.DAG.start P d res) sched k) := by
  obtain ⟨W, hi, _⟩ := H2Pack.DAG.upward_executable (H2Pack.Part.up_tree T) hm
  obtain ⟨Q, d, hQ⟩ := hi garbage
  obtain ⟨k, hk, _⟩ := H2Pack.DAG.C17_fair_termination W (f := ujTask S fuel) res hQ hP sched fair
  exact ⟨Q, d, k, hQ, hk, garbage, Q, d, res, hQ, H2Pack.DAG.run_reach _ _ _ _ _⟩

theorem exec_exists {K : Type} [Field K] (S : Input K) (T : ClusterTree S.arr S.nPoint) {m : Nat} (hm : 1 ≤ m) (fuel P : Nat) (hP : 0 < P) :
    ∃ c : H2Pack.DAG.Config (Res (Slot K)) P, H2Pack.DAG.Execution (H2Pack.DAG.upwardDAG S.arr.nNode S.arr.level S.arr.parent m) (ujTask S fuel) c ∧ ∀ a, c.th a = .done := by
  obtain ⟨Q, d, k, _, h2, h3⟩ := C50_h2_ends S T hm fuel P hP ⟨0, 0, fun _ => 0, fun _ => 0⟩ (fun _ => .ub) (fun n => ⟨n % P, Nat.mod_lt _ hP⟩) (by
    intro a n
    refine ⟨n * P + a, ?_, ?_⟩
    · have := Nat.le_mul_of_pos_right n hP
      omega
    · apply Fin.ext
      show (n * P + a) % P = a
      rw [Nat.mul_comm, Nat.mul_add_mod, Nat.mod_eq_of_lt a.2])
  exact ⟨_, h3, h2⟩

/-! ## A concrete case: points on a line -/

/-- The same box with real numbers. -/
def castBox (b : H2Pack.Utils.Box ℚ) : H2Pack.Utils.Box ℝ := ⟨fun i => b.lo i, fun i => b.ext i⟩

/-- The same tree with real numbers. -/
def castArr (A : Arr ℚ) : Arr ℝ where
  nNode := A.nNode
  nLeaf := A.nLeaf
  maxLevel := A.maxLevel
  maxChild := A.maxChild
  parent := A.parent
  children := A.children
  nChild := A.nChild
  level := A.level
  height := A.height
  ptS := A.ptS
  ptE := A.ptE
  enbox v := castBox (A.enbox v)
  levelN := A.levelN
  levelNodes := A.levelNodes
  heightN := A.heightN
  heightNodes := A.heightNodes

theorem cast_tree {A : Arr ℚ} {n : Nat} (T : ClusterTree A n) : ClusterTree (castArr A) n where
  nonempty := T.nonempty
  rootParent := T.rootParent
  rootLevel := T.rootLevel
  rootS := T.rootS
  rootE := T.rootE
  width := T.width
  childNonneg := T.childNonneg
  pad := T.pad
  childLt := T.childLt
  parentOfChild := T.parentOfChild
  childOfParent := T.childOfParent
  kidsNodup := T.kidsNodup
  childLevel := T.childLevel
  leafHeight := T.leafHeight
  nodeHeight := T.nodeHeight
  maxLevel := T.maxLevel
  clusterLe := T.clusterLe
  clusterLt := T.clusterLt
  tile := T.tile
  nLeaf := T.nLeaf
  levelLe := T.levelLe
  levelRow := T.levelRow
  levelList := T.levelList
  heightRow := T.heightRow
  heightList := T.heightList

theorem cast_dim (b0 b1 : H2Pack.Utils.Box ℚ) (alpha : ℚ) (i : Nat) :
    H2Pack.Utils.dimAdmissible (castBox b0) (castBox b1) (alpha : ℝ) i = H2Pack.Utils.dimAdmissible b0 b1 alpha i := by
  unfold H2Pack.Utils.dimAdmissible castBox
  dsimp only
  rw [decide_eq_decide]
  have h1 : (if ((b0.ext i : ℚ) : ℝ) < ((b1.ext i : ℚ) : ℝ) then ((b0.ext i : ℚ) : ℝ) else ((b1.ext i : ℚ) : ℝ)) = ((if b0.ext i < b1.ext i then b0.ext i else b1.ext i : ℚ) : ℝ) := by
    by_cases h : b0.ext i < b1.ext i
    · rw [if_pos h, if_pos (by exact_mod_cast h)]
    · rw [if_neg h, if_neg (by exact_mod_cast h)]
  rw [h1]
  constructor
  · intro h
    have : (((alpha * (if b0.ext i < b1.ext i then b0.ext i else b1.ext i) + 1 / 2 * (b0.ext i + b1.ext i) : ℚ)) : ℝ) ≤ ((|b0.lo i + 1 / 2 * b0.ext i - (b1.lo i + 1 / 2 * b1.ext i)| : ℚ) : ℝ) := by
      push_cast
      exact h
    exact_mod_cast this
  · intro h
    have : (((alpha * (if b0.ext i < b1.ext i then b0.ext i else b1.ext i) + 1 / 2 * (b0.ext i + b1.ext i) : ℚ)) : ℝ) ≤ ((|b0.lo i + 1 / 2 * b0.ext i - (b1.lo i + 1 / 2 * b1.ext i)| : ℚ) : ℝ) := by
      exact_mod_cast h
    push_cast at this
    exact this

theorem cast_adm (b0 b1 : H2Pack.Utils.Box ℚ) (alpha : ℚ) (n : Nat) :
    H2Pack.Utils.checkBoxAdmissible (castBox b0) (castBox b1) n (alpha : ℝ) = H2Pack.Utils.checkBoxAdmissible b0 b1 n alpha := by
  unfold H2Pack.Utils.checkBoxAdmissible
  generalize 0 = i
  induction n generalizing i with
  | zero => rfl
  | succ n ih => unfold H2Pack.Utils.admLoop; rw [cast_dim, ih]

theorem cast_calc (A : Arr ℚ) (adm : Nat → Nat → Bool) (m : Nat) : ∀ (fuel a b : Nat) (pv : Pairs),
    H2Pack.Part.calcPairs (castArr A) adm m fuel a b pv = H2Pack.Part.calcPairs A adm m fuel a b pv := by
  intro fuel
  induction fuel with
  | zero => intro a b pv; rfl
  | succ k ih =>
    intro a b pv
    have e : ∀ v, kids (castArr A) v = kids A v := fun _ => rfl
    unfold H2Pack.Part.calcPairs
    simp only [ih, e]
    rfl

theorem cast_pairs (A : Arr ℚ) (n fuel : Nat) : h2Pairs n (castArr A) fuel = h2Pairs n A fuel := by
  unfold h2Pairs
  rw [cast_calc]
  have : (fun a b => H2Pack.Utils.checkBoxAdmissible ((castArr A).enbox a) ((castArr A).enbox b) n (H2Pack.Part.alphaH2 : ℝ)) =
      fun a b => H2Pack.Utils.checkBoxAdmissible (A.enbox a) (A.enbox b) n (H2Pack.Part.alphaH2 : ℚ) := by
    funext a b
    have h : (H2Pack.Part.alphaH2 : ℝ) = ((H2Pack.Part.alphaH2 : ℚ) : ℝ) := by unfold H2Pack.Part.alphaH2; push_cast; rfl
    rw [h]
    exact cast_adm _ _ _ _
  rw [this]
  rfl

/-- The construction for points on a line with the constant kernel, one proxy point per level, relative tolerance `1/1000`. -/
noncomputable def lineInput (A : Arr ℝ) : Input ℝ where
  arr := A
  nPoint := 6
  ptDim := 1
  xdim := 1
  kdim := 1
  coord i := i
  kern _ _ _ _ := 1
  pp _ := (1, fun _ => 100)
  stop := .rel (1 / 1000)
  ops := realOps 0 0 0
  sz := 8
  env _ := H2Pack.ID.demoIDEnv ℝ 0
  junkJ _ _ := 5
  junkC _ _ := 5
  junkS _ _ := 5

theorem line_real : ∃ (A : Arr ℝ) (pv : Pairs), ClusterTree A 6 ∧ A.nNode = 12 ∧ h2Pairs 1 A 30 = .ok pv ∧
    pv.adm = [(0, 2), (6, 9), (0, 8), (0, 9), (3, 6), (3, 7), (4, 9)] ∧ pv.minAdm = 2 := by
  obtain ⟨R, pv, O, hn, hp, ha, _, hm⟩ := line_build
  exact ⟨castArr R.arr, pv, cast_tree O.tree, hn, by rw [cast_pairs]; exact hp, ha, hm⟩

theorem far_of_interp {A : Arr ℝ} (sl : Nat → Slot ℝ) {u i : Nat} (h : interpErr (lineInput A) sl u i ≤ 1 / 1000) (y : Nat) : |farErr (lineInput A) sl u i 0 y 0| ≤ 1 / 1000 := by
  have e : interpErr (lineInput A) sl u i = |farErr (lineInput A) sl u i 0 y 0| := by
    unfold interpErr farErr proxyVal proxyCols lineInput
    dsimp only
    simp only [sum_range_one, Nat.mul_one, Nat.add_zero]
    rw [Real.sqrt_sq_eq_abs]
  rw [← e]
  exact h

/-- A concrete case of the theorems C50-C52: six points on a line, the constant kernel, any number of threads. -/
theorem line_case (P : Nat) (hP : 0 < P) : ∃ (S : Input ℝ) (pv : Pairs) (sl : Nat → Slot ℝ) (J : JIT ℝ), S.nPoint = 6 ∧ pv.adm.length = 7 ∧ J.Ok ∧ Built S pv sl J ∧
    (∀ v < S.arr.nNode, pv.minAdm ≤ S.arr.level v → 0 < (sl v).jl) ∧ FarAccurate S sl pv (1 / 1000) ∧ S.ops.zero = 0 ∧ S.ops.one = 1 ∧ pv.minAdm = 2 := by
  obtain ⟨A, pv, T, hn, hp, ha, hm⟩ := line_real
  have hc : ∀ v, proxyCols (lineInput A) v = 1 := fun v => rfl
  obtain ⟨F, hF⟩ := C50_scalar (lineInput A) (le_refl 0) rfl T rfl (1 / 1000) (by norm_num) rfl (m := pv.minAdm) (by omega)
    (fun v _ _ => by rw [hc]; norm_num) (fun v _ _ p _ _ => ⟨0, by rw [hc]; norm_num, by show (1 : ℝ) ≠ 0; norm_num⟩)
  obtain ⟨c, hx, hd⟩ := exec_exists (lineInput A) T (m := pv.minAdm) (by omega) F P hP
  obtain ⟨sl0, hsl0⟩ := hF F (le_refl _) P c hx hP hd
  let E : MetaEnv := ⟨3, 2, 2, fun _ => 0, fun _ => 0, List.range A.nNode⟩
  have hE : E.Valid A.nNode := ⟨by show 1 ≤ 3; omega, List.Perm.refl _⟩
  have hpts : ∀ v < A.nNode, A.ptE v < 6 := T.clusterLt
  obtain ⟨MB, MD, _, _, hOk, hB⟩ := C50_h2_build (lineInput A) T Nat.one_pos (real_no_div rfl) 30 (show 2 * A.nNode ≤ 30 by omega) pv hp (by rw [ha]; simp) hx hP hd
    (fun v hv hl => ⟨sl0 v, (hsl0 v hv hl).1, (hsl0 v hv hl).2.2⟩) (fun v => sl0 v) (fun i => 5 - i) (show ((List.range 6).map fun i => 5 - i).Perm (List.range 6) by decide) (fun _ => 0) 4 (by omega) none (fun f h => by simp at h)
    (fun _ v hv => by
      have := hpts v hv
      show (A.ptE v - A.ptS v + 1) * 1 * 1 ≤ 16384
      omega) (fun _ _ _ _ => rfl) (fun _ => ⟨0, 0, fun _ _ => 0⟩) (fun _ => ⟨0, 0, fun _ _ => 0⟩) (fun _ _ => 7) (fun _ _ => 7) E hE
  have hres : ∀ v < A.nNode, pv.minAdm ≤ A.level v → finishUJ pv.minAdm A.level c.res (fun v => sl0 v) v = sl0 v := fun v hv hl => finish_at hl (hsl0 v hv hl).1
  refine ⟨lineInput A, pv, _, _, rfl, by rw [ha]; rfl, hOk, hB, fun v hv hl => ?_, ?_, rfl, rfl, hm⟩
  · have := hres v hv hl
    show 0 < (finishUJ pv.minAdm A.level c.res (fun v => sl0 v) v).jl
    rw [this]
    exact (hsl0 v hv hl).2.2
  · intro v w hvw hlv u hu y _ _ b hb i hi a ha'
    obtain rfl : b = 0 := by have : b < 1 := hb; omega
    obtain rfl : a = 0 := by have : a < 1 := ha'; omega
    have hv : v < A.nNode ∧ pv.minAdm ≤ A.level v := by
      rcases hvw with h | h
      · have h1 := hB.covered.wf.admNode _ h
        have h2 : pv.minAdm ≤ max (A.level v) (A.level w) := hB.covered.wf.admLevel _ h
        have hlv' : A.level w ≤ A.level v := hlv
        exact ⟨h1.1, by omega⟩
      · have h1 := hB.covered.wf.admNode _ h
        have h2 : pv.minAdm ≤ max (A.level w) (A.level v) := hB.covered.wf.admLevel _ h
        have hlv' : A.level w ≤ A.level v := hlv
        exact ⟨h1.2, by omega⟩
    have hul : u < A.nNode ∧ pv.minAdm ≤ A.level u := by
      obtain ⟨hv1, hv2⟩ := hv
      have hd : Desc A u v := hu
      clear hu hlv hvw
      induction hd with
      | refl => exact ⟨hv1, hv2⟩
      | @step c v hc _ ih =>
        obtain ⟨_, a2, a3⟩ := kid_facts (S := lineInput A) T hv1 hv2 hc
        exact ih a2 a3
    apply far_of_interp
    obtain ⟨p, _, hpe⟩ := C50_relative (lineInput A) (le_refl 0) rfl T Nat.one_pos (1 / 1000) rfl (m := pv.minAdm) (by omega) hx hP hd _
      (fun v hv hl => by rw [finish_at (m := pv.minAdm) (level := (lineInput A).arr.level) (junk := fun v => sl0 v) hl (hsl0 v hv hl).1]; exact (hsl0 v hv hl).1) u hul.1 hul.2 i hi
    refine le_trans hpe ?_
    have hpn : pointNorm (lineInput A) u p = 1 := by
      unfold pointNorm proxyVal proxyCols lineInput
      simp
    rw [hpn, hc]
    show max (Real.sqrt ((1 : Nat) : ℝ) * 0) (1 / 1000 * Real.sqrt ((1 : Nat) : ℝ)) * 1 ≤ 1 / 1000
    norm_num


def ratOps : H2Pack.ID.Ops ℚ where
  zero := 0
  one := 1
  two := 2
  add := (· + ·)
  sub := (· - ·)
  mul := (· * ·)
  neg := fun x => -x
  div := fun a b => .ok (a / b)
  sqrt := fun a => a
  lt := fun a b => decide (a < b)
  le := fun a b => decide (a ≤ b)
  ofNat := fun n => n
  nrm2 := fun n x => ((List.range n).map fun k => |x k|).sum
  dot := fun n x y => ((List.range n).map fun k => x k * y k).sum
  eps := 0
  fast := 0
  tiny := 0

def lineInputQ (A : Arr ℚ) : Input ℚ where
  arr := A
  nPoint := 6
  ptDim := 1
  xdim := 1
  kdim := 1
  coord i := i
  kern _ _ _ _ := 1
  pp _ := (1, fun _ => 100)
  stop := .rank 1
  ops := ratOps
  sz := 8
  env _ := H2Pack.ID.demoIDEnv ℚ 0
  junkJ _ _ := 5
  junkC _ _ := 5
  junkS _ _ := 5

def hssCheck : Bool :=
  match H2Pack.Part.partitionPoints 1 1 6 H2Pack.Part.lineCoord 1 (1/100) (some H2Pack.Part.lineBox) (fun _ => 0) H2Pack.Part.exJunk (fun _ _ => 0) 10 with
  | .ok R =>
    decide (R.arr.nChild (R.arr.nNode - 1) = 2) &&
    (match H2Pack.Part.inadmLists 1 3 1 R.arr with | .ok _ => true | _ => false) &&
    (List.range R.arr.nNode).all fun v => R.arr.level v = 0 ||
      (match hssSweep (lineInputQ R.arr) 1 (fun _ => 1) (fun _ _ _ => 1) 10 (fun l => (List.range R.arr.nNode).filter (fun v => R.arr.level v = l)) (fun _ => .ub) v with | .ok s => decide (0 < s.jl) | _ => false)
  | _ => false

set_option maxRecDepth 100000 in
theorem hssCheck_eq : hssCheck = true := by decide +kernel

/-- The HSS construction for six points on a line: every node on a level with bases gets a skeleton point. -/
theorem line_hss : ∃ R : H2Pack.Part.Partitioned ℚ, ∃ f, H2Pack.Part.Outcome 1 1 6 H2Pack.Part.lineCoord 1 (1/100) H2Pack.Part.lineBox R ∧
    2 ≤ R.arr.nChild (R.arr.nNode - 1) ∧ H2Pack.Part.inadmLists 1 3 1 R.arr = .ok f ∧
    ∀ v < R.arr.nNode, 1 ≤ R.arr.level v → ∃ s, hssSweep (lineInputQ R.arr) 1 (fun _ => 1) (fun _ _ _ => 1) 10 (fun l => (List.range R.arr.nNode).filter (fun v => R.arr.level v = l)) (fun _ => .ub) v = .ok s ∧ 0 < s.jl := by
  have h := hssCheck_eq
  unfold hssCheck at h
  have O := H2Pack.Part.partitionPoints_spec 1 1 6 (by norm_num) (le_refl _) H2Pack.Part.lineCoord 1 (1/100) (some H2Pack.Part.lineBox) (fun _ => 0) H2Pack.Part.exJunk (fun _ _ => 0) 10
  cases h1 : H2Pack.Part.partitionPoints 1 1 6 H2Pack.Part.lineCoord 1 (1/100) (some H2Pack.Part.lineBox) (fun _ => 0) H2Pack.Part.exJunk (fun _ _ => 0) 10 with
  | ok R =>
    rw [h1] at h O
    dsimp only at h O
    cases h2 : H2Pack.Part.inadmLists 1 3 1 R.arr with
    | ok f =>
      rw [h2] at h
      simp only [Bool.and_eq_true, decide_eq_true_eq, List.all_eq_true, List.mem_range, Bool.or_eq_true] at h
      obtain ⟨⟨h3, _⟩, h4⟩ := h
      refine ⟨R, f, O, by omega, h2, fun v hv hl => ?_⟩
      have h5 := h4 v hv
      rcases h5 with h5 | h5
      · omega
      · cases h6 : hssSweep (lineInputQ R.arr) 1 (fun _ => 1) (fun _ _ _ => 1) 10 (fun l => (List.range R.arr.nNode).filter (fun v => R.arr.level v = l)) (fun _ => .ub) v with
        | ok s => rw [h6] at h5; exact ⟨s, rfl, by simpa using h5⟩
        | ub => rw [h6] at h5; simp at h5
        | diverge => rw [h6] at h5; simp at h5
    | ub => rw [h2] at h; simp at h
    | diverge => rw [h2] at h; simp at h
  | ub => rw [h1] at h; simp at h
  | diverge => rw [h1] at h; simp at h

/-- A concrete case of C50_hss_build. -/
example : ∃ (S : Input ℚ) (pv : Pairs) (sl : Nat → Slot ℚ) (J : JIT ℚ), S.nPoint = 6 ∧ H2Pack.ULV.HSS J.aot ∧ J.Ok ∧ Built S pv sl J := by
  obtain ⟨R, f, O, h2, hl, hs⟩ := line_hss
  have hcube : ∀ j < 1, H2Pack.Part.lineBox.ext 0 ≤ H2Pack.Part.lineBox.ext j := by
    intro j hj
    obtain rfl : j = 0 := by omega
    exact le_refl _
  obtain ⟨pv, hpv, _, hm, _⟩ := H2Pack.Part.C12_hss_pairs_exact 1 1 H2Pack.Part.lineCoord 1 (1/100) (by norm_num) H2Pack.Part.lineBox hcube R O h2 _ (le_refl _)
  let E : MetaEnv := ⟨3, 2, 2, fun _ => 0, fun _ => 0, List.range R.arr.nNode⟩
  have hE : E.Valid R.arr.nNode := ⟨by show 1 ≤ 3; omega, List.Perm.refl _⟩
  have hs' : ∀ v < R.arr.nNode, pv.minAdm ≤ R.arr.level v → ∃ s, hssSweep (lineInputQ R.arr) pv.minAdm (fun _ => 1) (fun _ _ _ => 1) 10 (fun l => (List.range R.arr.nNode).filter (fun v => R.arr.level v = l)) (fun _ => .ub) v = .ok s ∧ 0 < s.jl := by
    rw [hm]; exact hs
  obtain ⟨h3, h4, h5, _⟩ := C50_hss_build (lineInputQ R.arr) 1 H2Pack.Part.lineCoord 1 (1/100) (by norm_num) H2Pack.Part.lineBox hcube R O h2 _ (le_refl _) rfl pv hpv 3 f hl
    Nat.one_pos (by intro a b; show Res.ok _ ≠ _; simp) (fun _ => 1) (fun _ _ _ => 1) 10 _ (fun l => List.Perm.refl _) (fun _ => .ub) hs' (fun _ => ⟨fun _ => 0, 0, fun _ => 0, ⟨0, 0, 0, 0, fun _ => 0⟩⟩)
    (fun i => 5 - i) (show ((List.range 6).map fun i => 5 - i).Perm (List.range 6) by decide) 4 (by omega) none (fun f h => by simp at h)
    (fun _ v hv => by
      have := O.tree.clusterLt v hv
      show (R.arr.ptE v - R.arr.ptS v + 1) * 1 * 1 ≤ 16384
      omega) (fun _ _ _ _ => rfl) (fun _ => ⟨0, 0, fun _ _ => 0⟩) (fun _ => ⟨0, 0, fun _ _ => 0⟩) (fun _ _ => 7) (fun _ _ => 7) E hE _ rfl
  exact ⟨_, pv, _, _, rfl, h3, h4, h5⟩

end H2Pack.UJ
