import Verif.Props.SampleUJ

/-!
# C81-C83: concrete cases
-/

namespace H2Pack.Sample
open Finset
open H2Pack.Part (Arr kids ClusterTree Desc h2Pairs Pairs)
open H2Pack.UJ

/-! ## The grid size -/

/-- Two points in each set, the kernel `1 / (1 + |x - y|^2)`, arithmetic with all divisions defined. -/
noncomputable def demoR : RIn where
  dim := 1
  kdim := 1
  kern x y _ _ := 1 / (1 + (x 0 - y 0) ^ 2)
  k := 2
  len := 1
  tau := 1 / 2
  reltol := 1 / 100
  rnd t := if t = 1 then 0 else 1 / 2
  ops := { H2Pack.ID.realOps 0 0 0 with div := fun a b => .ok (a / b) }
  sz := 8
  env _ := H2Pack.ID.demoIDEnv ℝ 0
  sched := List.reverse

theorem demoR_spread : Spread demoR.dim demoR.c1 := by
  refine ⟨_, List.mem_map.2 ⟨0, by simp [demoR], rfl⟩, _, List.mem_map.2 ⟨1, by simp [demoR], rfl⟩, 0, by simp [demoR], ?_⟩
  norm_num [demoR]

theorem demoR_tol : demoR.tol ≤ 1 := by
  unfold RIn.tol demoR
  dsimp only
  split_ifs <;> norm_num

/-- A concrete case of C81_select and C81_bound. -/
example : ∃ r, Returns (selectR demoR) r ∧ 0 ≤ r ∧ r ≤ 15 := by
  obtain ⟨r, h, h0, h1⟩ := C81_bound demoR (by decide) (by decide) demoR_spread (fun L => List.reverse_perm L) (fun a b => ⟨a / b, rfl⟩) demoR_tol
  exact ⟨r, h, h0, by simpa [demoR] using h1⟩

/-- A concrete case of C81_undefined: all points of the second set coincide. -/
example : H2Pack.ID.Fails (selectR { demoR with len := 0 }) := C81_undefined _ (by decide) (Or.inr (C81_flat _ rfl))

/-! ## Trees -/

/-- Points on a line. -/
def lineOf (l : List ℚ) (i _ : Nat) : ℚ := l.getD i 0

/-- What the examples use of the tree and the pairs for the points `l`: `n_node`, `min_adm_level`, the admissible pairs; level, cluster, `n_child`, children of every node. -/
def treeOf (ml : Nat) (l : List ℚ) : Option (Nat × Nat × List (Nat × Nat) × List (List Nat)) :=
  match H2Pack.Part.partitionPoints 1 1 l.length (lineOf l) ml (1/100) (some H2Pack.Part.lineBox) (fun _ => 0) H2Pack.Part.exJunk (fun _ _ => 0) 12 with
  | .ok R => match h2Pairs 1 R.arr 60 with
    | .ok pv => some (R.arr.nNode, pv.minAdm, pv.adm, (List.range R.arr.nNode).map fun v => R.arr.level v :: R.arr.ptS v :: R.arr.ptE v :: R.arr.nChild v :: kids R.arr v)
    | _ => none
  | _ => none

theorem treeOf_real {ml : Nat} {l : List ℚ} (hl : 1 ≤ l.length) {nd ma : Nat} {adm : List (Nat × Nat)} {T : List (List Nat)} (h : treeOf ml l = some (nd, ma, adm, T)) :
    ∃ (A : Arr ℝ) (pv : Pairs), ClusterTree A l.length ∧ A.nNode = nd ∧ h2Pairs 1 A 60 = .ok pv ∧ pv.adm = adm ∧ pv.minAdm = ma ∧
      ∀ v < nd, T[v]? = some (A.level v :: A.ptS v :: A.ptE v :: A.nChild v :: kids A v) := by
  unfold treeOf at h
  have O := H2Pack.Part.partitionPoints_spec 1 1 l.length hl (le_refl _) (lineOf l) ml (1/100) (some H2Pack.Part.lineBox) (fun _ => 0) H2Pack.Part.exJunk (fun _ _ => 0) 12
  cases h1 : H2Pack.Part.partitionPoints 1 1 l.length (lineOf l) ml (1/100) (some H2Pack.Part.lineBox) (fun _ => 0) H2Pack.Part.exJunk (fun _ _ => 0) 12 with
  | ok R =>
    rw [h1] at h O
    dsimp only at h O
    cases h2 : h2Pairs 1 R.arr 60 with
    | ok pv =>
      rw [h2] at h
      simp only [Option.some.injEq, Prod.mk.injEq] at h
      obtain ⟨e1, e2, e3, rfl⟩ := h
      refine ⟨castArr R.arr, pv, cast_tree O.tree, e1, by rw [cast_pairs]; exact h2, e3, e2, ?_⟩
      intro v hv
      rw [List.getElem?_map, List.getElem?_range (by omega)]
      rfl
    | ub => rw [h2] at h; simp at h
    | diverge => rw [h2] at h; simp at h
  | ub => rw [h1] at h; simp at h
  | diverge => rw [h1] at h; simp at h

/-- Four points in two groups. -/
def pts4 : List ℚ := [2/10, 7/10, 61/10, 73/10]

set_option maxRecDepth 100000 in
theorem tree4_eq : treeOf 1 pts4 = some (10, 2, [(3, 7)], [[4, 0, 0, 0], [4, 1, 1, 0], [3, 0, 1, 2, 0, 1], [2, 0, 1, 1, 2], [1, 0, 1, 1, 3], [3, 2, 2, 0], [3, 3, 3, 0],
    [2, 2, 3, 2, 5, 6], [1, 2, 3, 1, 7], [0, 0, 3, 2, 4, 8]]) := by decide +kernel

/-- Three points: a leaf above `min_adm_level` has a partner. -/
def pts3 : List ℚ := [1/10, 6/10, 71/10]

set_option maxRecDepth 100000 in
theorem tree3_eq : treeOf 1 pts3 = some (7, 2, [(3, 5)], [[4, 0, 0, 0], [4, 1, 1, 0], [3, 0, 1, 2, 0, 1], [2, 0, 1, 1, 2], [1, 0, 1, 1, 3], [1, 2, 2, 0], [0, 0, 2, 2, 4, 5]]) := by
  decide +kernel

/-- Eight points, at most two in a leaf. -/
def pts8 : List ℚ := [2/10, 13/10, 22/10, 34/10, 45/10, 53/10, 62/10, 77/10]

set_option maxRecDepth 100000 in
theorem tree8_eq : treeOf 2 pts8 = some (7, 2, [(0, 3), (0, 4), (1, 4)], [[2, 0, 1, 0], [2, 2, 3, 0], [1, 0, 3, 2, 0, 1], [2, 4, 5, 0], [2, 6, 7, 0], [1, 4, 7, 2, 3, 4],
    [0, 0, 7, 2, 2, 5]]) := by decide +kernel

/-- Six points, one in a leaf. -/
def pts6 : List ℚ := [1, 2, 3, 4, 5, 6]

set_option maxRecDepth 100000 in
theorem tree6_eq : treeOf 1 pts6 = some (12, 2, [(0, 2), (6, 9), (0, 8), (0, 9), (3, 6), (3, 7), (4, 9)], [[2, 0, 0, 0], [4, 1, 1, 0], [4, 2, 2, 0], [3, 1, 2, 2, 1, 2], [2, 1, 2, 1, 3], [1, 0, 2, 2, 0, 4], [3, 3, 3, 0],
    [3, 4, 4, 0], [2, 3, 4, 2, 6, 7], [2, 5, 5, 0], [1, 3, 5, 2, 8, 9], [0, 0, 5, 2, 5, 10]]) := by decide +kernel

/-- The selection for points on a line, with all points of the partners. -/
noncomputable def lineIn (A : Arr ℝ) (pv : Pairs) (l : List ℚ) : In := ⟨A, l.length, 1, fun i => (l.getD i 0 : ℚ), pv.adm, pv.minAdm, 0⟩

/-- One order of the nodes of a level. -/
def ordOf (A : Arr ℝ) (l : Nat) : List Nat := (List.range A.nNode).filter fun v => A.level v = l

theorem ordOf_level (A : Arr ℝ) (pv : Pairs) (l : List ℚ) : ∀ k, LevelOrder (lineIn A pv l) k (ordOf A k) := fun _ => List.Perm.refl _

theorem line_setting {A : Arr ℝ} {pv : Pairs} {l : List ℚ} (T : ClusterTree A l.length) (hp : ∀ p ∈ pv.adm, p.1 < A.nNode ∧ p.2 < A.nNode) (hl : ∀ x ∈ l, |x| ≤ 10 ^ 100) : Setting (lineIn A pv l) 2 where
  tree := T
  dim := Nat.one_pos
  size := by norm_num
  pairs := hp
  range i := by
    show |((l.getD i 0 : ℚ) : ℝ)| ≤ 10 ^ 100
    have : |l.getD i 0| ≤ 10 ^ 100 := by
      by_cases h : i < l.length
      · simp only [List.getD, List.getElem?_eq_getElem h, Option.getD_some]
        exact hl _ (List.getElem_mem h)
      · simp [List.getD, List.getElem?_eq_none (not_lt.mp h)]
    exact_mod_cast this

theorem line_distinct {A : Arr ℝ} {pv : Pairs} {l : List ℚ} (h : ∀ i < l.length, ∀ j < l.length, i ≠ j → l.getD i 0 ≠ l.getD j 0) : Distinct (lineIn A pv l) := by
  intro i hi j hj hne
  refine ⟨0, Nat.one_pos, ?_⟩
  show ((l.getD (0 * l.length + i) 0 : ℚ) : ℝ) ≠ ((l.getD (0 * l.length + j) 0 : ℚ) : ℝ)
  rw [Nat.zero_mul, Nat.zero_add, Nat.zero_add]
  exact_mod_cast h i hi j hj hne

/-- The refined points of a leaf with two points. -/
theorem refined_two {Q : In} {r : Int} {clu : Nat → List Pt} (h : RefinedPoints Q r clu) {v : Nat} (hv : v < Q.arr.nNode) (hl : Q.minAdm ≤ Q.arr.level v) (h0 : Q.arr.nChild v = 0)
    (he : Q.arr.ptE v = Q.arr.ptS v + 1) : clu v = [Q.pt (Q.arr.ptS v), Q.pt (Q.arr.ptS v + 1)] := by
  obtain ⟨G, hG, hc⟩ := h.node v hv hl
  rw [if_pos h0] at hG
  have hG' : G = [Q.pt (Q.arr.ptS v), Q.pt (Q.arr.ptS v + 1)] := by
    rw [hG]; unfold clusterPts
    rw [show Q.arr.ptE v - Q.arr.ptS v + 1 = 2 by omega]
    rfl
  rcases hc with hc | hc
  · rw [hc.2, hG']
  · rw [hG'] at hc; simp at hc

/-- A concrete case of C82_points, C82_source, C82_size, C82_defined: eight points on a line; all nodes at `min_adm_level` and below get sample points. -/
theorem demo8 : ∃ (A : Arr ℝ) (pv : Pairs) (sp : Nat → List Pt), ClusterTree A 8 ∧ A.nNode = 7 ∧ h2Pairs 1 A 60 = .ok pv ∧ pv.adm = [(0, 3), (0, 4), (1, 4)] ∧ pv.minAdm = 2 ∧ Setting (lineIn A pv pts8) 2 ∧
    samplePoints (lineIn A pv pts8) 2 (ordOf A) (ordOf A) (ordOf A) = .ok sp ∧ ∀ v < 7, 2 ≤ A.level v → sp v ≠ [] := by
  obtain ⟨A, pv, T, hn, hp, ha, hm, hT⟩ := treeOf_real (l := pts8) (by decide) tree8_eq
  have h0 := hT 0 (by norm_num)
  have h1 := hT 1 (by norm_num)
  have h2 := hT 2 (by norm_num)
  have h3 := hT 3 (by norm_num)
  have h4 := hT 4 (by norm_num)
  have h5 := hT 5 (by norm_num)
  have h6 := hT 6 (by norm_num)
  simp at h0 h1 h2 h3 h4 h5 h6
  have H : Setting (lineIn A pv pts8) 2 := line_setting T (by rw [ha, hn]; decide) (by decide +kernel)
  have hpart : ∀ v, partners pv.adm v = partners [(0, 3), (0, 4), (1, 4)] v := fun v => by rw [ha]
  have hsub : ∀ v < 7, 2 ≤ A.level v → partners pv.adm v ≠ [] ∧ ∃ w ∈ partners pv.adm v, w < 7 ∧ 2 ≤ A.level w ∧ A.nChild w = 0 ∧ A.ptE w = A.ptS w + 1 ∧ A.ptE w < 8 := by
    intro v hv hl
    rw [hpart]
    interval_cases v
    · exact ⟨by decide, 3, by decide, by omega⟩
    · exact ⟨by decide, 4, by decide, by omega⟩
    · omega
    · exact ⟨by decide, 0, by decide, by omega⟩
    · exact ⟨by decide, 0, by decide, by omega⟩
    · omega
    · omega
  obtain ⟨sp, hsp⟩ := C82_defined (lineIn A pv pts8) 2 H (ordOf A) (ordOf A) (ordOf A) (ordOf_level A pv pts8) (ordOf_level A pv pts8) (ordOf_level A pv pts8) rfl (line_distinct (by decide +kernel)) (by
    intro clu hc v hv hl hne
    have hl' : 2 ≤ A.level v := by have : pv.minAdm ≤ A.level v := hl; omega
    obtain ⟨_, w, hw, w1, w2, w3, w4, w5⟩ := hsub v (by have : v < A.nNode := hv; omega) hl'
    have hcw := refined_two hc (v := w) (by show w < A.nNode; omega) (by show pv.minAdm ≤ A.level w; omega) w3 w4
    have hin : ∀ p ∈ clu w, p ∈ ((partners (lineIn A pv pts8).adm v).map clu).flatten := fun p hp => List.mem_flatten.2 ⟨_, List.mem_map.2 ⟨w, hw, rfl⟩, hp⟩
    refine ⟨_, hin _ (by rw [hcw]; exact List.mem_cons_self ..), _, hin _ (by rw [hcw]; exact List.mem_cons_of_mem _ (List.mem_cons_self ..)), ?_⟩
    exact line_distinct (A := A) (pv := pv) (l := pts8) (by decide +kernel) _ (by show A.ptS w < 8; omega) _ (by show A.ptS w + 1 < 8; omega) (by omega))
  refine ⟨A, pv, sp, T, hn, hp, ha, hm, H, hsp, fun v hv hl => ?_⟩
  intro he
  have := (C82_empty (lineIn A pv pts8) 2 H (ordOf A) (ordOf A) (ordOf A) (ordOf_level A pv pts8) (ordOf_level A pv pts8) (ordOf_level A pv pts8) sp hsp v (by show v < A.nNode; omega) (by show pv.minAdm ≤ A.level v; omega)).1 he
  exact (hsub v hv hl).1 this.1

/-- The inputs of the construction for points on a line, constant kernel. -/
noncomputable def lineUJ (A : Arr ℝ) (l : List ℚ) : Input ℝ := { lineInput A with nPoint := l.length, coord := fun i => (l.getD i 0 : ℚ), stop := spStop (.rel (1 / 1000)) }

/-- A concrete case of C83_scalar, C83_build and C83_relative: eight points, any number of threads. -/
example (P : Nat) (hP : 0 < P) : ∃ (S : Input ℝ) (pv : Pairs) (sl : Nat → Slot ℝ) (J : H2Pack.MV.JIT ℝ), S.nPoint = 8 ∧ pv.adm.length = 3 ∧ J.Ok ∧ Built S pv sl J ∧
    (∀ v < S.arr.nNode, pv.minAdm ≤ S.arr.level v → 0 < (sl v).jl) := by
  obtain ⟨A, pv, sp, T, hn, hp, ha, hm, H, hsp, hne⟩ := demo8
  obtain ⟨F, hF⟩ := C83_scalar (lineUJ A pts8) sp (le_refl 0) rfl T rfl (1 / 1000) (by norm_num) rfl (m := pv.minAdm) (by omega)
    (fun v _ _ => by norm_num) (fun v hv hl p _ _ => ⟨0, List.length_pos_iff.2 (hne v (by have : v < A.nNode := hv; omega) (by have : pv.minAdm ≤ A.level v := hl; omega)), by show (1 : ℝ) ≠ 0; norm_num⟩)
  obtain ⟨c, hx, hd⟩ := sp_exec_exists (lineUJ A pts8) sp T (m := pv.minAdm) (by omega) F P hP
  obtain ⟨sl0, hsl0⟩ := hF F (le_refl _) P c hx hP hd
  let E : H2Pack.MV.MetaEnv := ⟨3, 2, 2, fun _ => 0, fun _ => 0, List.range A.nNode⟩
  have hE : E.Valid A.nNode := ⟨by show 1 ≤ 3; omega, List.Perm.refl _⟩
  obtain ⟨MB, MD, _, _, hOk, hB⟩ := C83_build (lineUJ A pts8) sp T Nat.one_pos (real_no_div rfl) 60 (show 2 * A.nNode ≤ 60 by omega) pv hp (by rw [ha]; simp) hx hP hd
    (fun v hv hl => ⟨sl0 v, (hsl0 v hv hl).1, (hsl0 v hv hl).2.2⟩) (fun v => sl0 v) (fun i => 7 - i) (show ((List.range 8).map fun i => 7 - i).Perm (List.range 8) by decide) (fun _ => 0) 4 (by omega) none (fun f h => by simp at h)
    (fun _ v hv => by
      have := T.clusterLt v hv
      show (A.ptE v - A.ptS v + 1) * 1 * 1 ≤ 16384
      omega) (fun _ _ _ _ => rfl) (fun _ => ⟨0, 0, fun _ _ => 0⟩) (fun _ => ⟨0, 0, fun _ _ => 0⟩) (fun _ _ => 7) (fun _ _ => 7) E hE
  refine ⟨lineUJ A pts8, pv, _, _, rfl, by rw [ha]; rfl, hOk, hB, fun v hv hl => ?_⟩
  show 0 < (finishUJ pv.minAdm A.level c.res (fun v => sl0 v) v).jl
  rw [finish_at (m := pv.minAdm) (level := A.level) (junk := fun v => sl0 v) hl (hsl0 v hv hl).1]
  exact (hsl0 v hv hl).2.2

/-- **C83** (lost far field, found by the library's own partitioning).  Four points 0.2, 0.7, 6.1, 7.3 in the box [0, 8], one point per leaf: the selection is defined; the node with the first two points inherits its far field
from its parent, but its children, the leaves, get no sample points; whatever the number of threads, the schedule and the kernel, the node gets no basis. -/
theorem C83_lost_example : ∃ (A : Arr ℝ) (pv : Pairs) (sp : Nat → List Pt), ClusterTree A 4 ∧ h2Pairs 1 A 60 = .ok pv ∧ pv.adm = [(3, 7)] ∧ pv.minAdm = 2 ∧
    samplePoints (lineIn A pv pts4) 2 (ordOf A) (ordOf A) (ordOf A) = .ok sp ∧ kids A 3 = [2] ∧ kids A 2 = [0, 1] ∧ sp 2 ≠ [] ∧ sp 0 = [] ∧ sp 1 = [] ∧
    ∀ (S : Input ℝ), S.arr = A → S.nPoint = 4 → 0 < S.kdim → (∀ a b, S.ops.div a b ≠ .diverge) → ∀ (fuel P : Nat) (c : H2Pack.DAG.Config (Res (Slot ℝ)) P),
      H2Pack.DAG.Execution (H2Pack.DAG.upwardDAG S.arr.nNode S.arr.level S.arr.parent 2) (spTask S sp fuel) c → 0 < P → (∀ a, c.th a = .done) → ∀ s, c.res 2 ≠ .ok s := by
  obtain ⟨A, pv, T, hn, hp, ha, hm, hT⟩ := treeOf_real (l := pts4) (by decide) tree4_eq
  have h0 := hT 0 (by norm_num)
  have h1 := hT 1 (by norm_num)
  have h2 := hT 2 (by norm_num)
  have h3 := hT 3 (by norm_num)
  have h5 := hT 5 (by norm_num)
  have h6 := hT 6 (by norm_num)
  have h7 := hT 7 (by norm_num)
  simp at h0 h1 h2 h3 h5 h6 h7
  have H : Setting (lineIn A pv pts4) 2 := line_setting T (by rw [ha, hn]; decide) (by decide +kernel)
  have hpart : ∀ v, partners (lineIn A pv pts4).adm v = partners [(3, 7)] v := fun v => by show partners pv.adm v = _; rw [ha]
  have hD : Distinct (lineIn A pv pts4) := line_distinct (by decide +kernel)
  have leaf : ∀ clu, RefinedPoints (lineIn A pv pts4) 2 clu → ∀ v < 10, 2 ≤ A.level v → A.nChild v = 0 → A.ptE v = A.ptS v → clu v = [(lineIn A pv pts4).pt (A.ptS v)] := by
    intro clu hc v hv hl h0 he
    obtain ⟨G, hG, hc'⟩ := hc.node v (by show v < A.nNode; omega) (by show pv.minAdm ≤ A.level v; omega)
    rw [if_pos (show (lineIn A pv pts4).arr.nChild v = 0 from h0)] at hG
    have hG' : G = [(lineIn A pv pts4).pt (A.ptS v)] := by
      rw [hG]; unfold clusterPts
      show List.map _ (List.range' (A.ptS v) (A.ptE v - A.ptS v + 1)) = _
      rw [he, Nat.sub_self]
      rfl
    rcases hc' with hc' | hc'
    · rw [hc'.2, hG']
    · rw [hG'] at hc'; simp at hc'
  have inner : ∀ clu, RefinedPoints (lineIn A pv pts4) 2 clu → ∀ v < 10, 2 ≤ A.level v → A.nChild v ≠ 0 → ∀ a b, (kids A v).flatMap clu = [a, b] → clu v = [a, b] := by
    intro clu hc v hv hl h0 a b he
    obtain ⟨G, hG, hc'⟩ := hc.node v (by show v < A.nNode; omega) (by show pv.minAdm ≤ A.level v; omega)
    rw [if_neg (show (lineIn A pv pts4).arr.nChild v ≠ 0 from h0)] at hG
    have hG' : G = [a, b] := by rw [hG]; exact he
    rcases hc' with hc' | hc'
    · rw [hc'.2, hG']
    · rw [hG'] at hc'; simp at hc'
  obtain ⟨sp, hsp⟩ := C82_defined (lineIn A pv pts4) 2 H (ordOf A) (ordOf A) (ordOf A) (ordOf_level A pv pts4) (ordOf_level A pv pts4) (ordOf_level A pv pts4) rfl hD (by
    intro clu hc v hv hl hne
    have l0 := leaf clu hc 0 (by norm_num) (by omega) (by omega) (by omega)
    have l1 := leaf clu hc 1 (by norm_num) (by omega) (by omega) (by omega)
    have l5 := leaf clu hc 5 (by norm_num) (by omega) (by omega) (by omega)
    have l6 := leaf clu hc 6 (by norm_num) (by omega) (by omega) (by omega)
    have c2 := inner clu hc 2 (by norm_num) (by omega) (by omega) _ _ (by rw [← h2.2.2.2.2]; simp [l0, l1]; exact ⟨rfl, rfl⟩)
    have c3 := inner clu hc 3 (by norm_num) (by omega) (by omega) _ _ (by rw [← h3.2.2.2.2]; simp [c2]; exact ⟨rfl, rfl⟩)
    have c7 := inner clu hc 7 (by norm_num) (by omega) (by omega) _ _ (by rw [← h7.2.2.2.2]; simp [l5, l6]; exact ⟨rfl, rfl⟩)
    rw [hpart] at hne ⊢
    have hv' : v < 10 := by have : v < A.nNode := hv; omega
    have : v = 3 ∨ v = 7 := by
      by_contra hcon
      apply hne
      unfold partners
      simp
      omega
    rcases this with rfl | rfl
    · rw [show partners [(3, 7)] 3 = [7] by decide]
      simp only [List.map_cons, List.map_nil, List.flatten_cons, List.flatten_nil, List.append_nil, c7]
      refine ⟨_, List.mem_cons_self .., _, List.mem_cons_of_mem _ (List.mem_cons_self ..), ?_⟩
      exact hD _ (by show A.ptS 5 < 4; omega) _ (by show A.ptS 6 < 4; omega) (by omega)
    · rw [show partners [(3, 7)] 7 = [3] by decide]
      simp only [List.map_cons, List.map_nil, List.flatten_cons, List.flatten_nil, List.append_nil, c3]
      refine ⟨_, List.mem_cons_self .., _, List.mem_cons_of_mem _ (List.mem_cons_self ..), ?_⟩
      exact hD _ (by show A.ptS 0 < 4; omega) _ (by show A.ptS 1 < 4; omega) (by omega))
  have hem := C82_empty (lineIn A pv pts4) 2 H (ordOf A) (ordOf A) (ordOf A) (ordOf_level A pv pts4) (ordOf_level A pv pts4) (ordOf_level A pv pts4) sp hsp
  have hlv : ∀ v, (lineIn A pv pts4).arr.level v = A.level v := fun _ => rfl
  have hma : (lineIn A pv pts4).minAdm = 2 := hm
  have hnn : (lineIn A pv pts4).arr.nNode = 10 := hn
  refine ⟨A, pv, sp, T, hp, ha, hm, hsp, h3.2.2.2.2.symm, h2.2.2.2.2.symm, ?_, ?_, ?_, ?_⟩
  · intro he
    obtain ⟨_, hor⟩ := (hem 2 (by rw [hnn]; norm_num) (by rw [hma, hlv]; omega)).1 he
    rcases hor with hor | ⟨u, hu, hk, hu0⟩
    · rw [hma, hlv] at hor; omega
    · have e1 := T.parentOfChild u hu 2 hk
      have e2 := T.parentOfChild 3 (by omega) 2 (by rw [← h3.2.2.2.2]; simp)
      rw [e1] at e2
      have : u = 3 := by exact_mod_cast e2
      subst this
      rw [hpart] at hu0
      exact absurd hu0 (by decide)
  · exact (hem 0 (by rw [hnn]; norm_num) (by rw [hma, hlv]; omega)).2 ⟨by rw [hpart]; decide, Or.inr ⟨2, by rw [hnn]; norm_num, by show 0 ∈ kids A 2; rw [← h2.2.2.2.2]; simp, by rw [hpart]; decide⟩⟩
  · exact (hem 1 (by rw [hnn]; norm_num) (by rw [hma, hlv]; omega)).2 ⟨by rw [hpart]; decide, Or.inr ⟨2, by rw [hnn]; norm_num, by show 1 ∈ kids A 2; rw [← h2.2.2.2.2]; simp, by rw [hpart]; decide⟩⟩
  · intro S harr hnp hkd hO fuel P c hx hP hd
    refine C83_lost S (lineIn A pv pts4) 2 H (ordOf A) (ordOf A) (ordOf A) (ordOf_level A pv pts4) (ordOf_level A pv pts4) (ordOf_level A pv pts4) sp hsp harr hnp hkd hO (by rw [hma]; norm_num) (by rw [hma]; exact hx) hP hd
      2 (by rw [hnn]; norm_num) (by rw [hma, hlv]; omega) ?_ (by rw [hpart]; decide) ?_
    · show A.nChild 2 ≠ 0; omega
    · intro k hk
      have : k ∈ kids A 2 := hk
      rw [← h2.2.2.2.2] at this
      rw [hpart]
      simp at this
      rcases this with rfl | rfl <;> decide

/-- **C82** (the library's own partitioning, undefined).  Three points 0.1, 0.6, 7.1 in [0, 8], one point per leaf: the third point is a leaf above `min_adm_level`; the selection is undefined. -/
theorem C82_above_example : ∃ (A : Arr ℝ) (pv : Pairs), ClusterTree A 3 ∧ h2Pairs 1 A 60 = .ok pv ∧ pv.adm = [(3, 5)] ∧ samplePoints (lineIn A pv pts3) 2 (ordOf A) (ordOf A) (ordOf A) = .ub := by
  obtain ⟨A, pv, T, hn, hp, ha, hm, hT⟩ := treeOf_real (l := pts3) (by decide) tree3_eq
  have h3 := hT 3 (by norm_num)
  have h5 := hT 5 (by norm_num)
  simp at h3 h5
  have H : Setting (lineIn A pv pts3) 2 := line_setting T (by rw [ha, hn]; decide) (by decide +kernel)
  refine ⟨A, pv, T, hp, ha, C82_above (lineIn A pv pts3) 2 H _ _ _ (ordOf_level A pv pts3) (ordOf_level A pv pts3) (ordOf_level A pv pts3) 3 (by show A.level 3 = pv.minAdm; omega) ?_ ?_⟩
  · show partners pv.adm 3 ≠ []
    rw [ha]; decide
  · show ∀ w ∈ partners pv.adm 3, A.level w < pv.minAdm
    rw [ha, show partners [(3, 5)] 3 = [5] by decide]
    simp
    omega

/-- **C82** (the library's own partitioning, undefined).  Six equally spaced points, one point per leaf: a node whose only partner is a leaf with one point. -/
theorem C82_single_example : ∃ (A : Arr ℝ) (pv : Pairs), ClusterTree A 6 ∧ h2Pairs 1 A 60 = .ok pv ∧ pv.adm.length = 7 ∧ samplePoints (lineIn A pv pts6) 2 (ordOf A) (ordOf A) (ordOf A) = .ub := by
  obtain ⟨A, pv, T, hn, hp, ha, hm, hT⟩ := treeOf_real (l := pts6) (by decide) tree6_eq
  have h0 := hT 0 (by norm_num)
  have h2 := hT 2 (by norm_num)
  simp at h0 h2
  have H : Setting (lineIn A pv pts6) 2 := line_setting T (by rw [ha, hn]; decide) (by decide +kernel)
  refine ⟨A, pv, T, hp, by rw [ha]; rfl, C82_single (lineIn A pv pts6) 2 H _ _ _ (ordOf_level A pv pts6) (ordOf_level A pv pts6) (ordOf_level A pv pts6) 2 0 (by show pv.minAdm ≤ A.level 2; omega) ?_
    (by show pv.minAdm ≤ A.level 0; omega) (by show A.nChild 0 = 0; omega) (by show A.ptS 0 = A.ptE 0; omega)⟩
  show partners pv.adm 2 = [0]
  rw [ha]; decide

end H2Pack.Sample
