import Verif.Props.SamplePoint2

/-!
# C83: skeleton points and bases from sample points
-/

namespace H2Pack.Sample
open Finset
open H2Pack.Part (Arr kids ClusterTree Desc h2Pairs Pairs)
open H2Pack.MV
open H2Pack.UJ
open H2Pack.ID (idCompress realOps grpErr grpNorm skel)

/-- The sample point construction has the form of the others. -/
theorem spNode_eq (S : Input ℝ) (sp : Nat → List Pt) (fuel : Nat) : spNode S sp fuel = nodeWith S fuel (fun v c => ((sp v).length * S.kdim,
    kmat S.kern S.kdim (point S.xdim c.2.2 c.2.1) (spCol S.xdim (sp v)))) := rfl

/-- The task queue runs every task once, after those of the children. -/
theorem sp_done {S : Input ℝ} (T : ClusterTree S.arr S.nPoint) (sp : Nat → List Pt) {m : Nat} (hm : 1 ≤ m) {fuel P : Nat} {c : H2Pack.DAG.Config (Res (Slot ℝ)) P}
    (hx : H2Pack.DAG.Execution (H2Pack.DAG.upwardDAG S.arr.nNode S.arr.level S.arr.parent m) (spTask S sp fuel) c) (hP : 0 < P) (hd : ∀ a, c.th a = .done) :
    Done S m (spNode S sp fuel) c.res := by
  intro v hv hl
  have e := H2Pack.DAG.C19_upward_results (H2Pack.Part.up_tree T) hm (f := spTask S sp fuel) (fun t r r' h => by
    unfold spTask
    split
    · next ht =>
      rw [spNode_eq]
      apply nodeWith_congr
      intro k hk
      have := (T.childLt t ht k hk)
      exact h k (by omega) (T.parentOfChild t ht k hk)
    · rfl) hx hP hd v hv hl
  rw [e, spTask, if_pos hv]

/-- **C83** (skeletons).  For every tree, kernel, sample points, stopping criterion and arithmetic, every number of threads and every schedule of the task queue: when the construction is finished
and every node at `min_adm_level` or below has got its slot, the slots are skeletons. -/
theorem C83_skeletons (S : Input ℝ) (sp : Nat → List Pt) (T : ClusterTree S.arr S.nPoint) (hkd : 0 < S.kdim) (hO : ∀ a b, S.ops.div a b ≠ .diverge) {m : Nat} (hm : 1 ≤ m) {fuel P : Nat}
    {c : H2Pack.DAG.Config (Res (Slot ℝ)) P}
    (hx : H2Pack.DAG.Execution (H2Pack.DAG.upwardDAG S.arr.nNode S.arr.level S.arr.parent m) (spTask S sp fuel) c) (hP : 0 < P) (hd : ∀ a, c.th a = .done)
    (sl : Nat → Slot ℝ) (hok : ∀ v < S.arr.nNode, m ≤ S.arr.level v → c.res v = .ok (sl v)) :
    ∀ v < S.arr.nNode, m ≤ S.arr.level v → Skeleton S sl v ∧ 0 < (cands S sl v).length := by
  intro v hv hl
  have h := sp_done T sp hm hx hP hd
  rw [spNode_eq] at h
  have := done_skeleton T hkd hO h hok v hv hl
  exact ⟨this.1, this.2.1⟩

/-- **C83** (determinism).  The slots do not depend on the number of threads or the schedule, and no task runs forever. -/
theorem C83_determined (S : Input ℝ) (sp : Nat → List Pt) (T : ClusterTree S.arr S.nPoint) (hkd : 0 < S.kdim) (hO : ∀ a b, S.ops.div a b ≠ .diverge) {m : Nat} (hm : 1 ≤ m) :
    ∃ (F : Nat) (r : Nat → Res (Slot ℝ)), ∀ fuel ≥ F, ∀ (P : Nat) (c : H2Pack.DAG.Config (Res (Slot ℝ)) P),
      H2Pack.DAG.Execution (H2Pack.DAG.upwardDAG S.arr.nNode S.arr.level S.arr.parent m) (spTask S sp fuel) c → 0 < P → (∀ a, c.th a = .done) →
      ∀ v < S.arr.nNode, m ≤ S.arr.level v → c.res v = r v ∧ r v ≠ .diverge := by
  obtain ⟨F, r, h⟩ := done_determined T hkd hO m (fun v c => ((sp v).length * S.kdim, kmat S.kern S.kdim (point S.xdim c.2.2 c.2.1) (spCol S.xdim (sp v))))
  refine ⟨F, r, fun fuel hf P c hx hP hd => h fuel hf c.res ?_⟩
  have := sp_done T sp hm hx hP hd
  rw [spNode_eq] at this
  exact this

/-- **C83** (IEEE-like arithmetic).  When every division has a result, the construction gives every node its slot unless some node ends up without any skeleton point. -/
theorem C83_returns (S : Input ℝ) (sp : Nat → List Pt) (T : ClusterTree S.arr S.nPoint) (hkd : 0 < S.kdim) (hO : S.ops.Total) {m : Nat} (hm : 1 ≤ m) :
    ∃ F, ∀ fuel ≥ F, ∀ (P : Nat) (c : H2Pack.DAG.Config (Res (Slot ℝ)) P),
      H2Pack.DAG.Execution (H2Pack.DAG.upwardDAG S.arr.nNode S.arr.level S.arr.parent m) (spTask S sp fuel) c → 0 < P → (∀ a, c.th a = .done) →
      (∀ v < S.arr.nNode, m ≤ S.arr.level v → ∀ s, c.res v = .ok s → 0 < s.jl) →
      ∀ v < S.arr.nNode, m ≤ S.arr.level v → ∃ s, c.res v = .ok s := by
  obtain ⟨F, h⟩ := done_total T hkd hO m (fun v c => ((sp v).length * S.kdim, kmat S.kern S.kdim (point S.xdim c.2.2 c.2.1) (spCol S.xdim (sp v))))
  refine ⟨F, fun fuel hf P c hx hP hd => h fuel hf c.res ?_⟩
  have := sp_done T sp hm hx hP hd
  rw [spNode_eq] at this
  exact this

/-- **C83** (the construction ends).  Whatever the number of threads and the schedule, as long as no thread is left out for ever: all threads come to the end of the construction. -/
theorem C83_ends (S : Input ℝ) (sp : Nat → List Pt) (T : ClusterTree S.arr S.nPoint) {m : Nat} (hm : 1 ≤ m) (fuel P : Nat) (hP : 0 < P) (garbage : H2Pack.DAG.Dyn) (res : Nat → Res (Slot ℝ))
    (sched : Nat → Fin P) (fair : ∀ a n, ∃ m, n ≤ m ∧ sched m = a) :
    ∃ Q d k, H2Pack.DAG.init (H2Pack.DAG.upwardDAG S.arr.nNode S.arr.level S.arr.parent m) garbage = .ok Q d ∧
      (∀ a, (H2Pack.DAG.run Q (spTask S sp fuel) (H2Pack.DAG.start P d res) sched k).th a = .done) ∧
      H2Pack.DAG.Execution (H2Pack.DAG.upwardDAG S.arr.nNode S.arr.level S.arr.parent m) (spTask S sp fuel) (H2Pack.DAG.run Q (spTask S sp fuel) (H2Pack.DAG.start P d res) sched k) := by
  obtain ⟨W, hi, _⟩ := H2Pack.DAG.upward_executable (H2Pack.Part.up_tree T) hm
  obtain ⟨Q, d, hQ⟩ := hi garbage
  obtain ⟨k, hk, _⟩ := H2Pack.DAG.C17_fair_termination W (f := spTask S sp fuel) res hQ hP sched fair
  exact ⟨Q, d, k, hQ, hk, garbage, Q, d, res, hQ, H2Pack.DAG.run_reach _ _ _ _ _⟩

theorem sp_exec_exists (S : Input ℝ) (sp : Nat → List Pt) (T : ClusterTree S.arr S.nPoint) {m : Nat} (hm : 1 ≤ m) (fuel P : Nat) (hP : 0 < P) :
    ∃ c : H2Pack.DAG.Config (Res (Slot ℝ)) P, H2Pack.DAG.Execution (H2Pack.DAG.upwardDAG S.arr.nNode S.arr.level S.arr.parent m) (spTask S sp fuel) c ∧ ∀ a, c.th a = .done := by
  obtain ⟨Q, d, k, _, h2, h3⟩ := C83_ends S sp T hm fuel P hP ⟨0, 0, fun _ => 0, fun _ => 0⟩ (fun _ => .ub) (fun n => ⟨n % P, Nat.mod_lt _ hP⟩) (by
    intro a n
    refine ⟨n * P + a, ?_, ?_⟩
    · have := Nat.le_mul_of_pos_right n hP
      omega
    · apply Fin.ext
      show (n * P + a) % P = a
      rw [Nat.mul_comm, Nat.mul_add_mod, Nat.mod_eq_of_lt a.2])
  exact ⟨_, h3, h2⟩

/-- **C83** (end to end).  Pair search, sample point construction by any number of threads in any schedule, metadata: the result is a valid representation that covers every matrix entry once
(so the theorems on its entries and products apply), if the construction found a skeleton point for every node. -/
theorem C83_build (S : Input ℝ) (sp : Nat → List Pt) (T : ClusterTree S.arr S.nPoint) (hkd : 0 < S.kdim) (hO : ∀ a b, S.ops.div a b ≠ .diverge)
    (fuel0 : Nat) (hf0 : 2 * S.arr.nNode ≤ fuel0) (pv : Pairs) (hpv : h2Pairs S.ptDim S.arr fuel0 = .ok pv) (hne : pv.adm ≠ [])
    {fuel P : Nat} {c : H2Pack.DAG.Config (Res (Slot ℝ)) P}
    (hx : H2Pack.DAG.Execution (H2Pack.DAG.upwardDAG S.arr.nNode S.arr.level S.arr.parent pv.minAdm) (spTask S sp fuel) c) (hP : 0 < P) (hd : ∀ a, c.th a = .done)
    (hok : ∀ v < S.arr.nNode, pv.minAdm ≤ S.arr.level v → ∃ s, c.res v = .ok s ∧ 0 < s.jl) (junk : Nat → Slot ℝ)
    (coordIdx : Nat → Nat) (perm : ((List.range S.nPoint).map coordIdx).Perm (List.range S.nPoint)) (mark : Nat → Nat) (simd : Nat) (hsimd : 0 < simd)
    (bimv : Option (Bimv ℝ)) (hbimv : ∀ f, bimv = some f → BimvSpec simd S.xdim S.kdim S.kern f)
    (small : bimv = none → ∀ v < S.arr.nNode, (S.arr.ptE v - S.arr.ptS v + 1) * S.kdim * S.kdim ≤ 16384)
    (sym : ∀ s t a b, S.kern s t a b = S.kern t s b a) (B D : Nat → Mat ℝ) (junkM junkW : Nat → Nat → ℝ) (E : MetaEnv) (hE : E.Valid S.arr.nNode) :
    ∃ MB MD, Returns (generateB (assemble S (finishUJ pv.minAdm S.arr.level c.res junk) pv coordIdx mark simd bimv B D junkM junkW) false E) MB ∧
      Returns (generateD (assemble S (finishUJ pv.minAdm S.arr.level c.res junk) pv coordIdx mark simd bimv B D junkM junkW) false E) MD ∧
      (assemble S (finishUJ pv.minAdm S.arr.level c.res junk) pv coordIdx MB.nAdm simd bimv B D junkM junkW).Ok ∧
      Built S pv (finishUJ pv.minAdm S.arr.level c.res junk) (assemble S (finishUJ pv.minAdm S.arr.level c.res junk) pv coordIdx MB.nAdm simd bimv B D junkM junkW) := by
  have h := sp_done T sp (minAdm_pos S T fuel0 hf0 pv hpv hne) hx hP hd
  rw [spNode_eq] at h
  exact h2_build_of S T hkd hO fuel0 hf0 pv hpv hne h hok junk coordIdx perm mark simd hsimd bimv hbimv small sym B D junkM junkW E hE

/-! ## Accuracy on the sample points -/

section
variable {S : Input ℝ} {sp : Nat → List Pt} {sl : Nat → Slot ℝ} {v : Nat}

/-- The matrix that is compressed. -/
theorem kmat_sample {n : Nat} {L : List Nat} {x : Nat → ℝ}
    (hx : ∀ d < S.xdim, ∀ k < n, x (d * n + k) = S.coord (d * S.nPoint + L.getD k 0)) {r : Nat} (hr : r < n * S.kdim) (c : Nat) :
    kmat S.kern S.kdim (point S.xdim x n) (spCol S.xdim (sp v)) r c = S.kern (pt S (L.getD (r / S.kdim) 0)) (spCol S.xdim (sp v) (c / S.kdim)) (r % S.kdim) (c % S.kdim) := by
  unfold kmat
  congr 1
  funext d
  unfold pt point
  split_ifs with hd
  · exact hx d hd _ (Nat.div_lt_of_lt_mul (by rw [Nat.mul_comm]; exact hr))
  · rfl

/-- The errors of the decomposition are those of the interpolation. -/
theorem sp_err (hkd : 0 < S.kdim) (hO : ∀ a b, S.ops.div a b ≠ .diverge) {fuel : Nat} {st : Nat → Res (Slot ℝ)}
    (hn : spNode S sp fuel v st = .ok (sl v)) (hk : ∀ c ∈ kids S.arr v, st c = .ok (sl c) ∧ Skeleton S sl c) :
    0 < (cands S sl v).length ∧ ∃ (A : Nat → Nat → ℝ) (sub : Nat → Nat), Returns (fun fuel => idCompress S.ops S.sz ((cands S sl v).length * S.kdim) ((sp v).length * S.kdim) S.kdim S.stop A true (S.env v) fuel) ((sub, (sl v).jl), (sl v).U) ∧
      (∀ i < (cands S sl v).length, grpNorm ((sp v).length * S.kdim) S.kdim A i = spNorm S sp v ((cands S sl v).getD i 0)) ∧
      ∀ i < (cands S sl v).length, grpErr ((sp v).length * S.kdim) S.kdim ((sl v).jl * S.kdim) A (sl v).U.entry (skel S.kdim sub) i = spErr S sp sl v i := by
  obtain ⟨jd, x, e1, e2, e3⟩ := candidates_spec (S := S) (st := st) (sl := sl) (v := v) (fun h0 c hc => ⟨(hk c hc).1, (hk c hc).2.coord⟩)
  have h4 := hn
  rw [spNode, e1, Res.bind_ok] at h4
  dsimp only at h4
  obtain ⟨sub, g1, g2, g3, g4, g5, g6, g7, g8⟩ := compress_spec hkd hO h4
  have hA : ∀ r < (cands S sl v).length * S.kdim, ∀ c, kmat S.kern S.kdim (point S.xdim x (cands S sl v).length) (spCol S.xdim (sp v)) r c =
      S.kern (pt S ((cands S sl v).getD (r / S.kdim) 0)) (spCol S.xdim (sp v) (c / S.kdim)) (r % S.kdim) (c % S.kdim) :=
    fun r hr c => kmat_sample e3 hr c
  have hrow : ∀ i < (cands S sl v).length, ∀ a < S.kdim, i * S.kdim + a < (cands S sl v).length * S.kdim := by
    intro i hi a ha
    have := Nat.mul_le_mul_right S.kdim (show i + 1 ≤ (cands S sl v).length by omega)
    rw [Nat.add_mul] at this; omega
  have hdiv : (cands S sl v).length * S.kdim / S.kdim = (cands S sl v).length := Nat.mul_div_cancel _ hkd
  refine ⟨g3, _, sub, g1, ?_, ?_⟩
  · intro i hi
    unfold grpNorm spNorm
    congr 1
    apply sum_congr rfl
    intro a ha
    rw [mem_range] at ha
    rw [H2Pack.MV.sum_rows]
    apply sum_congr rfl
    intro j _
    apply sum_congr rfl
    intro b hb
    rw [mem_range] at hb
    rw [hA _ (hrow i hi a ha), (H2Pack.MV.div_mod_row ha).1, (H2Pack.MV.div_mod_row ha).2, (H2Pack.MV.div_mod_row hb).1, (H2Pack.MV.div_mod_row hb).2]
  · intro i hi
    unfold grpErr spErr H2Pack.ID.rowErr
    congr 1
    apply sum_congr rfl
    intro a ha
    rw [mem_range] at ha
    rw [H2Pack.MV.sum_rows]
    apply sum_congr rfl
    intro j _
    apply sum_congr rfl
    intro b' hb'
    rw [mem_range] at hb'
    rw [hA _ (hrow i hi a ha), (H2Pack.MV.div_mod_row ha).1, (H2Pack.MV.div_mod_row ha).2, (H2Pack.MV.div_mod_row hb').1, (H2Pack.MV.div_mod_row hb').2, H2Pack.MV.sum_rows]
    congr 2
    apply sum_congr rfl
    intro k hk
    rw [mem_range] at hk
    apply sum_congr rfl
    intro b hb
    rw [mem_range] at hb
    have hs : sub k < (cands S sl v).length := by have := g2.inRange k hk; rwa [hdiv] at this
    unfold skel
    rw [(H2Pack.MV.div_mod_row hb).1, (H2Pack.MV.div_mod_row hb).2, hA _ (hrow _ hs b hb), (H2Pack.MV.div_mod_row hb).1, (H2Pack.MV.div_mod_row hb).2, (H2Pack.MV.div_mod_row hb').1, (H2Pack.MV.div_mod_row hb').2]
    congr 3
    rw [g7 k hk]
    have h9 := List.getElem_of_eq e2.symm hs
    simp only [List.getD, List.getElem?_eq_getElem hs, Option.getD_some]
    rw [h9]
    simp [firstN]

variable {e f t : ℝ}

/-- **C83** (accuracy, relative criterion).  In exact arithmetic every candidate of every node is reproduced from the skeleton points with the coefficients in `U`, on all sample points of the node, up to
the tolerance times the largest norm of a candidate; the tolerance is `1e-4` times the one given. -/
theorem C83_relative (S : Input ℝ) (sp : Nat → List Pt) (he : 0 ≤ e) (hops : S.ops = realOps e f t) (T : ClusterTree S.arr S.nPoint) (hkd : 0 < S.kdim) (tol : ℝ) (hst : S.stop = spStop (.rel tol))
    {m : Nat} (hm : 1 ≤ m) {fuel P : Nat} {c : H2Pack.DAG.Config (Res (Slot ℝ)) P}
    (hx : H2Pack.DAG.Execution (H2Pack.DAG.upwardDAG S.arr.nNode S.arr.level S.arr.parent m) (spTask S sp fuel) c) (hP : 0 < P) (hd : ∀ a, c.th a = .done)
    (sl : Nat → Slot ℝ) (hok : ∀ v < S.arr.nNode, m ≤ S.arr.level v → c.res v = .ok (sl v)) :
    ∀ v < S.arr.nNode, m ≤ S.arr.level v → ∀ i < (cands S sl v).length, ∃ p ∈ cands S sl v,
      spErr S sp sl v i ≤ max (Real.sqrt ((sp v).length * S.kdim : Nat) * e) (tol / 10000 * Real.sqrt S.kdim) * spNorm S sp v p := by
  intro v hv hl i hi
  have hD := sp_done T sp hm hx hP hd
  obtain ⟨h0, A, sub, h1, h3, h4⟩ := sp_err hkd (real_no_div hops) (sp := sp) (st := c.res) (fuel := fuel) (sl := sl) (v := v) (by rw [← hD v hv hl]; exact hok v hv hl) (fun k hk => by
    obtain ⟨a1, a2, a3⟩ := kid_facts T hv hl hk
    exact ⟨hok k a2 a3, (C83_skeletons S sp T hkd (real_no_div hops) hm hx hP hd sl hok k a2 a3).1⟩)
  have hdiv : (cands S sl v).length * S.kdim / S.kdim = (cands S sl v).length := Nat.mul_div_cancel _ hkd
  rw [hst, hops] at h1
  obtain ⟨j, hj, hh⟩ := H2Pack.ID.C47_relative he S.sz _ ((sp v).length * S.kdim) S.kdim hkd (Nat.mul_pos h0 hkd) (Dvd.intro_left _ rfl) ⟨_, Nat.mul_comm _ _⟩ _ A (S.env v) sub _ _ h1 i (by rw [hdiv]; exact hi)
  rw [hdiv] at hj
  rw [h4 i hi, h3 j hj] at hh
  rw [show tol * (1 / 10000) = tol / 10000 by ring] at hh
  refine ⟨_, ?_, hh⟩
  simp [List.getD, hj]

/-- **C83** (accuracy, absolute criterion). -/
theorem C83_absolute (S : Input ℝ) (sp : Nat → List Pt) (he : 0 ≤ e) (hops : S.ops = realOps e f t) (T : ClusterTree S.arr S.nPoint) (hkd : 0 < S.kdim) (tol : ℝ) (hst : S.stop = spStop (.abs tol))
    {m : Nat} (hm : 1 ≤ m) {fuel P : Nat} {c : H2Pack.DAG.Config (Res (Slot ℝ)) P}
    (hx : H2Pack.DAG.Execution (H2Pack.DAG.upwardDAG S.arr.nNode S.arr.level S.arr.parent m) (spTask S sp fuel) c) (hP : 0 < P) (hd : ∀ a, c.th a = .done)
    (sl : Nat → Slot ℝ) (hok : ∀ v < S.arr.nNode, m ≤ S.arr.level v → c.res v = .ok (sl v)) :
    ∀ v < S.arr.nNode, m ≤ S.arr.level v → ∀ i < (cands S sl v).length, spErr S sp sl v i ≤ max (Real.sqrt ((sp v).length * S.kdim : Nat) * e) (tol / 10000) := by
  intro v hv hl i hi
  have hD := sp_done T sp hm hx hP hd
  obtain ⟨h0, A, sub, h1, h3, h4⟩ := sp_err hkd (real_no_div hops) (sp := sp) (st := c.res) (fuel := fuel) (sl := sl) (v := v) (by rw [← hD v hv hl]; exact hok v hv hl) (fun k hk => by
    obtain ⟨a1, a2, a3⟩ := kid_facts T hv hl hk
    exact ⟨hok k a2 a3, (C83_skeletons S sp T hkd (real_no_div hops) hm hx hP hd sl hok k a2 a3).1⟩)
  have hdiv : (cands S sl v).length * S.kdim / S.kdim = (cands S sl v).length := Nat.mul_div_cancel _ hkd
  rw [hst, hops] at h1
  have hh := H2Pack.ID.C47_absolute he S.sz _ ((sp v).length * S.kdim) S.kdim hkd (Nat.mul_pos h0 hkd) (Dvd.intro_left _ rfl) ⟨_, Nat.mul_comm _ _⟩ _ A (S.env v) sub _ _ h1 i (by rw [hdiv]; exact hi)
  rw [h4 i hi] at hh
  rw [show tol * (1 / 10000) = tol / 10000 by ring] at hh
  exact hh

/-- **C83** (single sample points).  Where a sample point of node `v` is a point of the problem, the error `spErr` bounds the error of the interpolation at this point, for all components. -/
theorem C83_point (S : Input ℝ) (sp : Nat → List Pt) (sl : Nat → Slot ℝ) (v i y : Nat) (hy : (fun d => S.coord (d * S.nPoint + y)) ∈ sp v) {a b : Nat} (ha : a < S.kdim) (hb : b < S.kdim) :
    |farErr S sl v i a y b| ≤ spErr S sp sl v i := by
  obtain ⟨j, hj, hjy⟩ := List.getElem_of_mem hy
  have hcol : spCol S.xdim (sp v) j = pt S y := by
    funext d
    unfold spCol pt point
    simp [List.getD, List.getElem?_eq_getElem hj, hjy]
  unfold spErr
  rw [← Real.sqrt_sq_eq_abs]
  apply Real.sqrt_le_sqrt
  have h1 : farErr S sl v i a y b ^ 2 ≤ ∑ b ∈ range S.kdim, (S.kern (pt S ((cands S sl v).getD i 0)) (spCol S.xdim (sp v) j) a b -
      ∑ k ∈ range (sl v).jl, ∑ a' ∈ range S.kdim, (sl v).U.entry (i * S.kdim + a) (k * S.kdim + a') * S.kern (pt S ((sl v).jd k)) (spCol S.xdim (sp v) j) a' b) ^ 2 := by
    refine le_trans (le_of_eq ?_) (single_le_sum (fun b _ => sq_nonneg _) (mem_range.mpr hb))
    rw [hcol]
    rfl
  refine le_trans h1 ?_
  refine le_trans ?_ (single_le_sum (fun a _ => sum_nonneg fun j _ => sum_nonneg fun b _ => sq_nonneg _) (mem_range.mpr ha))
  exact single_le_sum (f := fun j => ∑ b ∈ range S.kdim, (S.kern (pt S ((cands S sl v).getD i 0)) (spCol S.xdim (sp v) j) a b -
      ∑ k ∈ range (sl v).jl, ∑ a' ∈ range S.kdim, (sl v).U.entry (i * S.kdim + a) (k * S.kdim + a') * S.kern (pt S ((sl v).jd k)) (spCol S.xdim (sp v) j) a' b) ^ 2)
    (fun j _ => sum_nonneg fun b _ => sq_nonneg _) (mem_range.mpr hj)

/-- A candidate that interacts with the sample points forces a nonempty skeleton. -/
theorem sp_rank_pos (he : 0 ≤ e) (hops : S.ops = realOps e f t) (hkd : 0 < S.kdim) {tol : ℝ} (hst : S.stop = .rel tol)
    (hq : max (Real.sqrt ((sp v).length * S.kdim : Nat) * e) (tol * Real.sqrt S.kdim) < 1) {fuel : Nat} {st : Nat → Res (Slot ℝ)}
    (hn : spNode S sp fuel v st = .ok (sl v)) (hk : ∀ c ∈ kids S.arr v, st c = .ok (sl c) ∧ Skeleton S sl c)
    (hnz : ∃ p ∈ cands S sl v, spNorm S sp v p ≠ 0) : 0 < (sl v).jl := by
  obtain ⟨h0, A, sub, h1, h3, h4⟩ := sp_err hkd (real_no_div hops) hn hk
  have hdiv : (cands S sl v).length * S.kdim / S.kdim = (cands S sl v).length := Nat.mul_div_cancel _ hkd
  by_contra hc
  have hz : (sl v).jl = 0 := by omega
  rw [hst, hops] at h1
  have hh := H2Pack.ID.C47_relative he S.sz _ ((sp v).length * S.kdim) S.kdim hkd (Nat.mul_pos h0 hkd) (Dvd.intro_left _ rfl) ⟨_, Nat.mul_comm _ _⟩ tol A (S.env v) sub _ _ h1
  have hE : ∀ i < (cands S sl v).length, spErr S sp sl v i = spNorm S sp v ((cands S sl v).getD i 0) := by
    intro i hi
    unfold spErr spNorm
    rw [hz]
    simp
  obtain ⟨p, hp, hnp⟩ := hnz
  obtain ⟨i0, hi0, hp0⟩ := List.getElem_of_mem hp
  obtain ⟨i, hi, hmax⟩ := Finset.exists_max_image (range (cands S sl v).length) (fun i => spNorm S sp v ((cands S sl v).getD i 0)) ⟨0, mem_range.2 h0⟩
  rw [mem_range] at hi
  obtain ⟨j, hj, hle⟩ := hh i (by rw [hdiv]; exact hi)
  rw [hdiv] at hj
  rw [h4 i hi, h3 j hj, hE i hi] at hle
  have hmj := hmax j (mem_range.2 hj)
  have hm0 := hmax i0 (mem_range.2 hi0)
  have e0 : spNorm S sp v ((cands S sl v).getD i0 0) = spNorm S sp v p := by
    congr 1; simp [List.getD, hi0, hp0]
  beta_reduce at hmj hm0
  rw [e0] at hm0
  have hpos : 0 < spNorm S sp v p := lt_of_le_of_ne (Real.sqrt_nonneg _) (Ne.symm hnp)
  generalize spNorm S sp v ((cands S sl v).getD i 0) = x at *
  generalize spNorm S sp v ((cands S sl v).getD j 0) = y at *
  have hq0 : 0 ≤ max (Real.sqrt ((sp v).length * S.kdim : Nat) * e) (tol * Real.sqrt S.kdim) := le_trans (mul_nonneg (Real.sqrt_nonneg _) he) (le_max_left _ _)
  generalize max (Real.sqrt ((sp v).length * S.kdim : Nat) * e) (tol * Real.sqrt S.kdim) = q at *
  have h5 : q * y ≤ q * x := mul_le_mul_of_nonneg_left hmj hq0
  have h6 : q * x < x := by nlinarith
  linarith

/-- Scalar kernels, for slots computed after those of the children. -/
theorem sp_scalar (S : Input ℝ) (sp : Nat → List Pt) (he : 0 ≤ e) (hops : S.ops = realOps e f t) (T : ClusterTree S.arr S.nPoint) (hkd : S.kdim = 1) (tol : ℝ) (htol : 0 < tol) (hst : S.stop = .rel tol)
    {m : Nat} (hq : ∀ v < S.arr.nNode, m ≤ S.arr.level v → max (Real.sqrt ((sp v).length : Nat) * e) tol < 1)
    (hnz : ∀ v < S.arr.nNode, m ≤ S.arr.level v → ∀ p, S.arr.ptS v ≤ p → p ≤ S.arr.ptE v → ∃ j < (sp v).length, S.kern (pt S p) (spCol S.xdim (sp v) j) 0 0 ≠ 0)
    {fuel : Nat} {st : Nat → Res (Slot ℝ)} (hD : Done S m (spNode S sp fuel) st) (hdet : ∀ v < S.arr.nNode, m ≤ S.arr.level v → st v ≠ .diverge) :
    ∃ sl : Nat → Slot ℝ, ∀ v < S.arr.nNode, m ≤ S.arr.level v → st v = .ok (sl v) ∧ Skeleton S sl v ∧ 0 < (sl v).jl := by
  have hkd' : 0 < S.kdim := by omega
  refine ⟨slotOf st, fun v => ?_⟩
  induction v using Nat.strong_induction_on with
  | _ v ih =>
    intro hv hl
    have hk : ∀ k ∈ kids S.arr v, st k = .ok (slotOf st k) ∧ Skeleton S (slotOf st) k ∧ 0 < (slotOf st k).jl := fun k hk => by
      obtain ⟨a1, a2, a3⟩ := kid_facts T hv hl hk
      exact ih k a1 a2 a3
    obtain ⟨jd, x, e1, e2, e3⟩ := candidates_spec (S := S) (st := st) (sl := slotOf st) (v := v) (fun h0 k h => ⟨(hk k h).1, (hk k h).2.1.coord⟩)
    have hcl := (cands_inc T hv (sl := slotOf st) (fun _ k h => (hk k h).2.1)).2
    have hpos : 0 < (cands S (slotOf st) v).length := by
      unfold cands
      by_cases h0 : S.arr.height v = 0
      · rw [if_pos h0, List.length_range']; omega
      · rw [if_neg h0]
        have hne : S.arr.nChild v ≠ 0 := fun h => h0 (T.leafHeight v hv h)
        have hne' : kids S.arr v ≠ [] := fun h => hne (H2Pack.Part.kids_nil_iff.1 h)
        obtain ⟨k, hkm⟩ := List.exists_mem_of_ne_nil _ hne'
        have := (hk k hkm).2.2
        apply List.length_pos_of_mem (a := (slotOf st k).jd 0)
        refine List.mem_flatMap.2 ⟨k, hkm, List.mem_map.2 ⟨0, List.mem_range.2 this, rfl⟩⟩
    have hp0 := hcl _ (List.getElem_mem hpos)
    obtain ⟨q, hq1, hq2⟩ := hnz v hv hl _ hp0.1 hp0.2
    have hev := hD v hv hl
    have e' := hev
    rw [spNode, e1, Res.bind_ok] at e'
    dsimp only at e'
    have hA : kmat S.kern S.kdim (point S.xdim x (cands S (slotOf st) v).length) (spCol S.xdim (sp v)) 0 q ≠ 0 := by
      rw [kmat_sample e3 (Nat.mul_pos hpos hkd'), Nat.zero_div, Nat.zero_mod, hkd, Nat.div_one, Nat.mod_one]
      simpa [List.getD, hpos] using hq2
    have hret : ∃ G y, ∀ fuel ≥ G, compress S fuel v jd (cands S (slotOf st) v).length ((sp v).length * S.kdim)
        (kmat S.kern S.kdim (point S.xdim x (cands S (slotOf st) v).length) (spCol S.xdim (sp v))) = .ok y := by
      have := H2Pack.ID.C47_relative_returns (e := e) (f := f) (t := t) S.sz ((cands S (slotOf st) v).length * S.kdim) ((sp v).length * S.kdim) (Nat.mul_pos hpos hkd') tol htol _ (S.env v)
        ⟨0, Nat.mul_pos hpos hkd', q, by rw [hkd, Nat.mul_one]; exact hq1, hA⟩
      obtain ⟨J, len, U, G, hG⟩ := this
      refine ⟨G, ⟨chooseJ J len jd, len, H2Pack.MV.gatherCols S.xdim len (chooseJ J len jd) S.coord S.nPoint (S.junkC v) len, U⟩, fun fuel hf => ?_⟩
      have := hG fuel hf
      beta_reduce at this
      unfold compress
      rw [hops, hst]
      rw [hkd] at this ⊢
      rw [this]
      rfl
    obtain ⟨G, y, hG⟩ := hret
    have hok : st v = .ok y := by
      rcases compress_mono' S fuel v jd (cands S (slotOf st) v).length ((sp v).length * S.kdim)
        (kmat S.kern S.kdim (point S.xdim x (cands S (slotOf st) v).length) (spCol S.xdim (sp v))) (le_max_left fuel G) with h2 | h2
      · rw [h2] at e'
        exact absurd e' (hdet v hv hl)
      · rw [hG _ (le_max_right _ _)] at h2
        rw [e', ← h2]
    have hsl : st v = .ok (slotOf st v) := by rw [slotOf, hok]
    have hsk := skeleton_of T hkd' (real_no_div hops) hv (sl := slotOf st) (st := st) (fun _ k h => ⟨(hk k h).1, (hk k h).2.1⟩) e1 (by rw [← hsl]; exact e'.symm)
    refine ⟨hsl, hsk.1, ?_⟩
    refine sp_rank_pos he hops hkd' hst ?_ (sp := sp) (st := st) (fuel := fuel) (sl := slotOf st) (v := v) (by rw [← hev]; exact hsl) (fun k h => ⟨(hk k h).1, (hk k h).2.1⟩) ?_
    · have := hq v hv hl
      rw [hkd]
      simpa using this
    · refine ⟨_, List.getElem_mem hpos, ?_⟩
      unfold spNorm
      rw [hkd]
      intro hz
      rw [Real.sqrt_eq_zero (sum_nonneg fun a _ => sum_nonneg fun j _ => sum_nonneg fun b _ => sq_nonneg _), sum_range_one] at hz
      have := (sum_eq_zero_iff_of_nonneg (fun j _ => sum_nonneg fun b _ => sq_nonneg _)).1 hz q (mem_range.2 hq1)
      rw [sum_range_one] at this
      exact hq2 (pow_eq_zero_iff (by norm_num) |>.1 this)

/-- **C83** (scalar kernels).  For a scalar kernel and a relative tolerance, if every point of the cluster of a node interacts with at least one sample point of the node: the construction succeeds in exact arithmetic for every tree, number of threads and
schedule, and every node has at least one skeleton point. -/
theorem C83_scalar (S : Input ℝ) (sp : Nat → List Pt) (he : 0 ≤ e) (hops : S.ops = realOps e f t) (T : ClusterTree S.arr S.nPoint) (hkd : S.kdim = 1) (tol : ℝ) (htol : 0 < tol) (hst : S.stop = spStop (.rel tol))
    {m : Nat} (hm : 1 ≤ m) (hq : ∀ v < S.arr.nNode, m ≤ S.arr.level v → max (Real.sqrt ((sp v).length : Nat) * e) (tol / 10000) < 1)
    (hnz : ∀ v < S.arr.nNode, m ≤ S.arr.level v → ∀ p, S.arr.ptS v ≤ p → p ≤ S.arr.ptE v → ∃ j < (sp v).length, S.kern (pt S p) (spCol S.xdim (sp v) j) 0 0 ≠ 0) :
    ∃ F, ∀ fuel ≥ F, ∀ (P : Nat) (c : H2Pack.DAG.Config (Res (Slot ℝ)) P),
      H2Pack.DAG.Execution (H2Pack.DAG.upwardDAG S.arr.nNode S.arr.level S.arr.parent m) (spTask S sp fuel) c → 0 < P → (∀ a, c.th a = .done) →
      ∃ sl : Nat → Slot ℝ, ∀ v < S.arr.nNode, m ≤ S.arr.level v → c.res v = .ok (sl v) ∧ Skeleton S sl v ∧ 0 < (sl v).jl := by
  obtain ⟨F, r, h⟩ := C83_determined S sp T (by omega) (real_no_div hops) hm
  refine ⟨F, fun fuel hf P c hx hP hd => sp_scalar S sp he hops T hkd (tol * (1 / 10000)) (by positivity) hst ?_ hnz (sp_done T sp hm hx hP hd) (fun v hv hl => ?_)⟩
  · intro v hv hl
    rw [show tol * (1 / 10000) = tol / 10000 by ring]
    exact hq v hv hl
  · have := h fuel hf P c hx hP hd v hv hl
    rw [this.1]; exact this.2

/-! ## Nodes without sample points -/

/-- **C83** (rank 0).  A node without sample points gets no skeleton points, and a node all of whose children got none has no defined slot. -/
theorem C83_rank_zero (S : Input ℝ) (sp : Nat → List Pt) (T : ClusterTree S.arr S.nPoint) (hkd : 0 < S.kdim) (hO : ∀ a b, S.ops.div a b ≠ .diverge) {m : Nat} (hm : 1 ≤ m) {fuel P : Nat}
    {c : H2Pack.DAG.Config (Res (Slot ℝ)) P}
    (hx : H2Pack.DAG.Execution (H2Pack.DAG.upwardDAG S.arr.nNode S.arr.level S.arr.parent m) (spTask S sp fuel) c) (hP : 0 < P) (hd : ∀ a, c.th a = .done) :
    ∀ v < S.arr.nNode, m ≤ S.arr.level v →
      (sp v = [] → ∀ s, c.res v = .ok s → s.jl = 0) ∧
      (S.arr.nChild v ≠ 0 → (∀ k ∈ kids S.arr v, sp k = []) → ∀ s, c.res v ≠ .ok s) := by
  have hD := sp_done T sp hm hx hP hd
  have hzero : ∀ v < S.arr.nNode, m ≤ S.arr.level v → sp v = [] → ∀ s, c.res v = .ok s → s.jl = 0 := by
    intro v hv hl hs s hok
    have h := hD v hv hl
    rw [hok, spNode] at h
    cases hc : candidates S v c.res with
    | ub => rw [hc] at h; simp at h
    | diverge => rw [hc] at h; simp at h
    | ok x =>
      rw [hc, Res.bind_ok, hs] at h
      obtain ⟨_, _, _, _, _, h5, _⟩ := compress_spec hkd hO h.symm
      rw [List.length_nil, Nat.zero_mul] at h5
      have := Nat.eq_zero_of_le_zero h5
      rcases Nat.mul_eq_zero.mp this with h | h
      · exact h
      · omega
  refine fun v hv hl => ⟨hzero v hv hl, fun h0 hk s hok => ?_⟩
  have h := hD v hv hl
  rw [hok, spNode] at h
  have hh : S.arr.height v ≠ 0 := fun e => by
    have hn := T.nodeHeight v hv h0
    omega
  cases hc : candidates S v c.res with
  | ub => rw [hc] at h; simp at h
  | diverge => rw [hc] at h; simp at h
  | ok x =>
    rw [hc, Res.bind_ok] at h
    obtain ⟨_, _, _, h3, _⟩ := compress_spec hkd hO h.symm
    unfold candidates at hc
    rw [if_neg hh] at hc
    cases hg : getSlots c.res (kids S.arr v) with
    | ub => rw [hg] at hc; simp at hc
    | diverge => rw [hg] at hc; simp at hc
    | ok cs =>
      rw [hg, Res.bind_ok] at hc
      obtain rfl := Res.ok.inj hc
      dsimp only at h3
      have hcs : ∀ (L : List Nat) (cs : List (Slot ℝ)), getSlots c.res L = .ok cs → ∀ s ∈ cs, ∃ k ∈ L, c.res k = .ok s := by
        intro L
        induction L with
        | nil => intro cs h s hs; rw [getSlots] at h; obtain rfl := Res.ok.inj h; simp at hs
        | cons k L ih =>
          intro cs h s hs
          rw [getSlots] at h
          cases hk : c.res k with
          | ub => rw [hk] at h; simp at h
          | diverge => rw [hk] at h; simp at h
          | ok s0 =>
            rw [hk, Res.bind_ok] at h
            cases hg : getSlots c.res L with
            | ub => rw [hg] at h; simp at h
            | diverge => rw [hg] at h; simp at h
            | ok r =>
              rw [hg, Res.bind_ok] at h
              obtain rfl := Res.ok.inj h
              rcases List.mem_cons.mp hs with rfl | hs
              · exact ⟨k, List.mem_cons_self .., hk⟩
              · obtain ⟨k', hk', e⟩ := ih r hg s hs
                exact ⟨k', List.mem_cons_of_mem _ hk', e⟩
      have hlen := congrArg List.length (concatJ_spec cs (S.junkJ v, 0))
      rw [firstN_length, List.length_append, List.length_flatMap] at hlen
      have hz : (List.map (fun a => (Slot.pts a).length) cs).sum = 0 := by
        rw [List.sum_eq_zero_iff]
        intro n hn
        obtain ⟨s', hs', rfl⟩ := List.mem_map.mp hn
        obtain ⟨k, hkm, e⟩ := hcs _ _ hg s' hs'
        obtain ⟨_, a2, a3⟩ := kid_facts T hv hl hkm
        have := hzero k a2 a3 (hk k hkm) s' e
        rw [pts_length, this]
      rw [hz] at hlen
      have h3' : 0 < (concatJ cs (S.junkJ v)).2 := h3
      have : (concatJ cs (S.junkJ v)).2 = 0 := by
        have h' := hlen
        simp [firstN] at h'
        exact h'
      omega

/-- **C83** (lost far field).  If an inner node at `min_adm_level` or below and its children have no partner, its slot is not defined, whatever far field the node gets from its ancestors: the ancestors' sample points
are handed down to the node, but not to its children. -/
theorem C83_lost (S : Input ℝ) (Q : In) (ri : Int) (H : Setting Q ri) (o1 o2 o3 : Nat → List Nat) (h1 : ∀ l, LevelOrder Q l (o1 l)) (h2 : ∀ l, LevelOrder Q l (o2 l)) (h3 : ∀ l, LevelOrder Q l (o3 l))
    (sp : Nat → List Pt) (hsp : samplePoints Q ri o1 o2 o3 = .ok sp) (harr : S.arr = Q.arr) (hn : S.nPoint = Q.nPoint) (hkd : 0 < S.kdim) (hO : ∀ a b, S.ops.div a b ≠ .diverge) (hm : 1 ≤ Q.minAdm) {fuel P : Nat}
    {c : H2Pack.DAG.Config (Res (Slot ℝ)) P}
    (hx : H2Pack.DAG.Execution (H2Pack.DAG.upwardDAG S.arr.nNode S.arr.level S.arr.parent Q.minAdm) (spTask S sp fuel) c) (hP : 0 < P) (hd : ∀ a, c.th a = .done)
    (v : Nat) (hv : v < Q.arr.nNode) (hl : Q.minAdm ≤ Q.arr.level v) (h0 : Q.arr.nChild v ≠ 0) (hpv : partners Q.adm v = []) (hpk : ∀ k ∈ kids Q.arr v, partners Q.adm k = []) :
    ∀ s, c.res v ≠ .ok s := by
  have T : ClusterTree S.arr S.nPoint := by rw [harr, hn]; exact H.tree
  refine (C83_rank_zero S sp T hkd hO hm hx hP hd v (by rw [harr]; exact hv) (by rw [harr]; exact hl)).2 (by rw [harr]; exact h0) ?_
  intro k hk
  rw [harr] at hk
  have a2 : k < Q.arr.nNode := lt_trans (H.tree.childLt v hv k hk) hv
  have a3 := H.tree.childLevel v hv k hk
  exact (C82_empty Q ri H o1 o2 o3 h1 h2 h3 sp hsp k a2 (by omega)).mpr ⟨hpk k hk, Or.inr ⟨v, hv, hk, hpv⟩⟩

end

end H2Pack.Sample
