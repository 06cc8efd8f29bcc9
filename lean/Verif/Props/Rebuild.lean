import Verif.Model.Rebuild
import Verif.Props.BuildUJ3
import Mathlib.Data.List.GetD

/-!
# C90: building twice on one handle

The second construction finds an exhausted task queue, so it handles no node; the product with what it leaves behind is the product with the
near field only, although every call returns normally.
-/

set_option linter.unusedSectionVars false

namespace H2Pack.DAG

section
variable {β : Type} {T P : Nat} {inp : Input} {f f' : Nat → (Nat → β) → β}

/-- The queue is used by `P` threads until all of them have received -1; without a reset `T` threads then use it again, with the client
computation `f'` and the results `res`, and have come to the state `c`. -/
def AgainNoReset (inp : Input) (P : Nat) (f f' : Nat → (Nat → β) → β) (res : Nat → β) (c : Config β T) : Prop :=
  ∃ garbage S d res0, init inp garbage = .ok S d ∧ ∃ c1 : Config β P, Reach S f (start P d res0) c1 ∧ (∀ a, c1.th a = .done) ∧
    Reach S f' (start T c1.d res) c

/-- What the second use looks like at any time. -/
theorem exhausted {S : Static} {d : Dyn} {res : Nat → β} (hd : S.numTask ≤ d.head) {c : Config β T} (h : Reach S f' (start T d res) c) :
    c.res = res ∧ S.numTask ≤ c.d.head ∧ (∀ a, c.th a = .fetch ∨ c.th a = .done) ∧ ∀ e ∈ c.trace, ∃ a, e = .gotNone a := by
  induction h with
  | refl => exact ⟨rfl, hd, fun _ => Or.inl rfl, by simp [start]⟩
  | @step c b _ ih =>
    obtain ⟨i1, i2, i3, i4⟩ := ih
    unfold step
    rcases i3 b with hb | hb
    · rw [hb]
      dsimp only
      rw [if_pos i2]
      refine ⟨i1, ?_, fun a => ?_, fun e he => ?_⟩
      · dsimp only; push_cast; omega
      · dsimp only [setTh]
        split
        · exact Or.inr rfl
        · exact i3 a
      · rcases List.mem_cons.1 he with rfl | he
        · exact ⟨b, rfl⟩
        · exact i4 e he
    · rw [hb]
      exact ⟨i1, i2, i3, i4⟩

/-- **C90** (the queue).  When a queue is used a second time without a reset, every call of `get_task` by every thread returns -1, in every
schedule: no task is delivered, none is finished and no result is computed. -/
theorem C90_queue_exhausted (hP : 0 < P) {res : Nat → β} {c : Config β T} (h : AgainNoReset inp P f f' res c) :
    c.res = res ∧ ∀ e ∈ c.trace, ∃ a, e = Event.gotNone a := by
  obtain ⟨g, S, d, res0, hi, c1, h1, h2, h3⟩ := h
  have hh := done_head (f := f) (c0 := start P d res0) (by simp [start]) h1 ⟨0, hP⟩ (h2 _)
  obtain ⟨a, _, _, b⟩ := exhausted hh h3
  exact ⟨a, b⟩

/-- **C90** (the queue, no waiting).  In the second use the first step of a thread is its last one: it has received -1. -/
theorem C90_queue_returns (hP : 0 < P) {res : Nat → β} {c : Config β T} (h : AgainNoReset inp P f f' res c) :
    ∃ S : Static, (∃ g d, init inp g = .ok S d) ∧ ∀ a, (step S f' c a).th a = .done := by
  obtain ⟨g, S, d, res0, hi, c1, h1, h2, h3⟩ := h
  have hh := done_head (f := f) (c0 := start P d res0) (by simp [start]) h1 ⟨0, hP⟩ (h2 _)
  obtain ⟨_, b, e, _⟩ := exhausted hh h3
  refine ⟨S, ⟨g, d, hi⟩, fun a => ?_⟩
  unfold step
  rcases e a with ha | ha
  · rw [ha]; dsimp only; rw [if_pos b]; simp [setTh]
  · rw [ha]; exact ha

/-- In the second use all threads can finish. -/
theorem exhausted_end {S : Static} {d : Dyn} {res : Nat → β} (hd : S.numTask ≤ d.head) :
    ∃ c : Config β T, Reach S f' (start T d res) c ∧ ∀ a, c.th a = .done := by
  have key : ∀ L : List (Fin T), ∃ c : Config β T, Reach S f' (start T d res) c ∧ ∀ a ∈ L, c.th a = .done := by
    intro L
    induction L with
    | nil => exact ⟨_, .refl, by simp⟩
    | cons b L ih =>
      obtain ⟨c, h1, h2⟩ := ih
      obtain ⟨_, i2, i3, _⟩ := exhausted hd h1
      have hb : (step S f' c b).th b = .done ∧ ∀ a, c.th a = .done → (step S f' c b).th a = .done := by
        unfold step
        rcases i3 b with hb | hb
        · rw [hb]; dsimp only; rw [if_pos i2]
          refine ⟨by simp [setTh], fun a ha => ?_⟩
          dsimp only [setTh]
          split
          · rfl
          · exact ha
        · rw [hb]; exact ⟨hb, fun _ h => h⟩
      refine ⟨_, .step b h1, fun a ha => ?_⟩
      rcases List.mem_cons.1 ha with rfl | ha
      · exact hb.1
      · exact hb.2 a (h2 a ha)
  obtain ⟨c, h1, h2⟩ := key (List.finRange T)
  exact ⟨c, h1, fun a => h2 a (List.mem_finRange a)⟩

end
end H2Pack.DAG

namespace H2Pack.MV
open H2Pack.Part (Arr kids ClusterTree Pairs Holds)
open Finset

section
variable {K : Type} [CommRing K]

/-- All ranks are zero: the backward sweep does nothing. -/
theorem bwd_zero (R : Rep K) (E : Env K) (mem : Loc → K) (h0 : ∀ v, y1ld R v = 0) : bwdTransform R E ⟨y1ld R, mem⟩ = ⟨y1ld R, mem⟩ := by
  unfold bwdTransform
  generalize ((List.range' R.minAdm (R.arr.maxLevel + 1 - R.minAdm)).flatMap E.bwdOrd) = L
  induction L with
  | nil => rfl
  | cons a L ih =>
    rw [List.foldl_cons]
    have : bwdNode R E ⟨y1ld R, mem⟩ a = ⟨y1ld R, mem⟩ := by
      unfold bwdNode
      rw [if_pos (h0 a)]
    rw [this, ih]

/-- A block without rows or without columns adds nothing. -/
theorem intmd_zero (R : Rep K) (E : Env K) (x : Nat → K) (y0 : Y0 K) (t i : Nat) (h0 : (R.B i).nrow = 0 ∨ (R.B i).ncol = 0) (mem : Loc → K) (l : Loc) :
    intmdPair R E x y0 t mem i l = mem l + (fun (_ _ : Nat) (_ : Loc) => (0 : K)) t i l := by
  have bi : ∀ (x0 x1 : Nat → K) (a0 a1 : Nat → Loc), biGemv (R.B i).nrow (R.B i).ncol (R.B i).e x0 x1 a0 a1 mem l = mem l + 0 := by
    intro x0 x1 a0 a1
    rw [biGemv_adds]
    unfold biD
    rcases h0 with h | h
    · rw [h]; simp
    · rw [h]; simp
  unfold intmdPair
  dsimp only
  split
  · exact bi _ _ _ _
  · split
    · exact bi _ _ _ _
    · exact bi _ _ _ _

/-- The product with a representation `R'` that has the tree, pairs and dense blocks of `R` but no bases and no generator blocks. -/
theorem matvecPmt_near {R R' : Rep K} (h : WF R) (ha : R'.arr = R.arr) (hn : R'.nPoint = R.nPoint) (hk : R'.kdim = R.kdim) (hi : R'.inadm = R.inadm)
    (hD : R'.D = R.D) (hU : ∀ v, (R'.U v).ncol = 0) (hB : ∀ i, (R'.B i).nrow = 0 ∨ (R'.B i).ncol = 0) (E : Env K) (hE : E.Valid R') (x : Nat → K)
    (r : Nat) (hr : r < R.size) :
    matvecPmt R' E x r = ∑ q ∈ range R.size, ((∑ i ∈ range R.arr.nLeaf, blockEntry R (R.leaf i) (R.leaf i) (R.D i) r q) +
      ∑ i ∈ range R.inadm.length, (inadmEntry R i r q + inadmEntry R i q r)) * x q := by
  have hsz : R'.size = R.size := by unfold Rep.size; rw [hn, hk]
  have hld : ∀ v, y1ld R' v = 0 := by intro v; unfold y1ld; split; exacts [hU v, rfl]
  have hcD0 : Cuts R.arr.nLeaf E.nD0 E.blkD0 := ha ▸ hE.cutD0
  have hcD1 : Cuts R.inadm.length E.nD1 E.blkD1 := hi ▸ hE.cutD1
  have hd0 : dense0 R' x = dense0 R x := by
    funext t mem i
    unfold dense0 Rep.leaf Rep.rowS
    rw [ha, hD, hk]
  have hd1 : dense1 R' x = dense1 R x := by
    funext t mem i
    unfold dense1 Rep.rowS
    rw [ha, hD, hk, hi]
  unfold matvecPmt
  rw [reduce_spec hE.threads hE.red _ r (hsz ▸ hr)]
  generalize fwdTransform R' E x = y0
  rw [bwd_zero R' E _ hld]
  unfold denseAOT
  simp only [hd0, hd1]
  rw [sched_same hcD1 hE.schedD1 (fun t mem i => dense1 R x t mem i) (dense1D R x) (fun t _ i _ => dense1_adds R x t i) (.y r)
    (by intro t _ i _; simp [dense1D, biD])]
  rw [sched_same hcD0 hE.schedD0 (fun t mem i => dense0 R x t mem i) _ (fun t _ i _ => dense0_adds R x t i) (.y r)
    (by intro t _ i _; simp)]
  rw [sched_total hcD1 hE.schedD1 (fun t mem i => dense1 R x t mem i) (dense1D R x) (fun t _ i _ => dense1_adds R x t i)
    (range E.nThread) (fun tid => .ty tid r) _ (fun t ht i hi => dense1_total h x ht hi r)]
  rw [sched_total hcD0 hE.schedD0 (fun t mem i => dense0 R x t mem i) _ (fun t _ i _ => dense0_adds R x t i)
    (range E.nThread) (fun tid => .ty tid r) _ (fun t ht i hi => dense0_total h x ht hi r)]
  have hty : ∀ l : Loc, (∀ v k, l ≠ .y1 v k) → sumY1 R' E (intmdAOT R' E x y0 (initMem R' E)) l = 0 := by
    intro l hl
    have h2 : intmdAOT R' E x y0 (initMem R' E) l = initMem R' E l := by
      unfold intmdAOT
      exact sched_same hE.cutB hE.schedB (fun t mem i => intmdPair R' E x y0 t mem i) _ (fun t _ i _ mem l => intmd_zero R' E x y0 t i (hB i) mem l) l
        (fun _ _ _ _ => rfl) _
    cases l with
    | y1 v k => exact absurd rfl (hl v k)
    | ty t k => simp only [sumY1]; rw [h2]; rfl
    | y k => simp only [sumY1]; rw [h2]; rfl
  rw [hty _ (by simp), Finset.sum_eq_zero (fun t _ => hty _ (by simp)), zero_add, zero_add]
  simp only [add_mul, sum_mul, sum_add_distrib]
  rw [sum_comm (s := range R.size) (t := range R.arr.nLeaf), sum_comm (s := range R.size) (t := range R.inadm.length),
    sum_comm (s := range R.size) (t := range R.inadm.length)]

end
end H2Pack.MV

namespace H2Pack.UJ
open H2Pack.Part (Arr kids ClusterTree Pairs Holds h2Pairs)
open H2Pack.MV (JIT Mat Rep Env Bimv Covered point matvec WF)
open Finset

section
variable {K : Type} [Field K]

/-- Specification: points `p` and `q` (positions in the order of the tree) are in no admissible pair of clusters. -/
def Near (A : Arr K) (adm : List (Nat × Nat)) (p q : Nat) : Prop := ∀ x ∈ adm, ¬ Holds A p q x ∧ ¬ Holds A q p x

open Classical in
/-- Specification: the kernel value of component `a` of point `p` and component `b` of point `q` when the points are near, else 0. -/
noncomputable def nearKernel (S : Input K) (adm : List (Nat × Nat)) (p a q b : Nat) : K := if Near S.arr adm p q then S.kern (pt S p) (pt S q) a b else 0

/-- **C90** (what is left).  After a second construction without a new partitioning no node has a basis or skeleton points. -/
theorem C90_all_empty {inp : H2Pack.DAG.Input} {P T : Nat} {f f' : Nat → (Nat → Res (Slot K)) → Res (Slot K)} (hP : 0 < P)
    {c : H2Pack.DAG.Config (Res (Slot K)) T} (h : H2Pack.DAG.AgainNoReset inp P f f' noSlots c) (junk : Nat → Slot K) :
    ∀ v, (fillNull c.res junk v).jl = 0 ∧ (fillNull c.res junk v).U.nrow = 0 ∧ (fillNull c.res junk v).U.ncol = 0 := by
  intro v
  have := (H2Pack.DAG.C90_queue_exhausted hP h).1
  unfold fillNull
  rw [this]
  exact ⟨rfl, rfl, rfl⟩

variable {S : Input K} {sl sl2 : Nat → Slot K} {pv : Pairs} {coordIdx mark mark2 : Nat → Nat} {simd simd2 : Nat} {bimv bimv2 : Option (Bimv K)}
    {B D B2 D2 : Nat → Mat K} {junkM junkW junkM2 junkW2 : Nat → Nat → K}

/-- The dense blocks of any two constructions on one handle agree; with empty slots the generator blocks are empty. -/
theorem near_matvec (hC : Covered (assemble S sl pv coordIdx mark simd bimv B D junkM junkW) pv)
    (h0 : ∀ v, (sl2 v).jl = 0 ∧ (sl2 v).U.nrow = 0 ∧ (sl2 v).U.ncol = 0) (E : Env K)
    (hE : E.Valid (assemble S sl2 pv coordIdx mark2 simd2 bimv2 B2 D2 junkM2 junkW2).aot) (g : (Nat → Nat) × (Nat → Nat)) (dx dy x : Nat → K) :
    ∀ p < S.nPoint, ∀ a < S.kdim, matvec (assemble S sl2 pv coordIdx mark2 simd2 bimv2 B2 D2 junkM2 junkW2).aot E g dx dy x (coordIdx p * S.kdim + a) =
      ∑ q ∈ range S.nPoint, ∑ b ∈ range S.kdim, nearKernel S pv.adm p a q b * x (coordIdx q * S.kdim + b) := by
  intro p hp a ha
  have hwf := hC.wf
  have C := H2Pack.MV.C26_permutations (assemble S sl2 pv coordIdx mark2 simd2 bimv2 B2 D2 junkM2 junkW2).aot hwf.perm g
  have hu : matvec (assemble S sl2 pv coordIdx mark2 simd2 bimv2 B2 D2 junkM2 junkW2).aot E g dx dy x =
    H2Pack.MV.permuteBwd _ g (H2Pack.MV.matvecPmt (assemble S sl2 pv coordIdx mark2 simd2 bimv2 B2 D2 junkM2 junkW2).aot E (H2Pack.MV.permuteFwd _ g x dx)) dy := rfl
  rw [hu]
  refine ((C _ dy dy).2.1 p hp a ha).trans ?_
  have hB : ∀ i, ((assemble S sl2 pv coordIdx mark2 simd2 bimv2 B2 D2 junkM2 junkW2).aot.B i).nrow = 0 ∨
      ((assemble S sl2 pv coordIdx mark2 simd2 bimv2 B2 D2 junkM2 junkW2).aot.B i).ncol = 0 := by
    intro i
    have key : ∀ v w, S.arr.level w ≤ S.arr.level v → ((assemble S sl2 pv coordIdx mark2 simd2 bimv2 B2 D2 junkM2 junkW2).sidePts v w).2.2 = 0 := by
      intro v w hl
      unfold JIT.sidePts
      have hl' : (assemble S sl2 pv coordIdx mark2 simd2 bimv2 B2 D2 junkM2 junkW2).R.arr.level w ≤
        (assemble S sl2 pv coordIdx mark2 simd2 bimv2 B2 D2 junkM2 junkW2).R.arr.level v := hl
      rw [if_pos hl']
      exact (h0 v).1
    rcases le_total (S.arr.level (pv.adm.getD i (0, 0)).2) (S.arr.level (pv.adm.getD i (0, 0)).1) with hl | hl
    · left
      exact Nat.mul_eq_zero.2 (Or.inl (key _ _ hl))
    · right
      exact Nat.mul_eq_zero.2 (Or.inl (key _ _ hl))
  refine (H2Pack.MV.matvecPmt_near (R' := (assemble S sl2 pv coordIdx mark2 simd2 bimv2 B2 D2 junkM2 junkW2).aot) hwf rfl rfl rfl rfl rfl (fun v => (h0 v).2.2) hB E hE _ _ (H2Pack.MV.row_lt hp ha)).trans ?_
  unfold Rep.size
  rw [H2Pack.MV.sum_rows]
  apply sum_congr rfl; intro q hq
  apply sum_congr rfl; intro b hb
  rw [mem_range] at hq hb
  have hb' : b < S.kdim := hb
  have hq' : q < S.nPoint := hq
  have hd := H2Pack.MV.dense_total hC (p := p) (q := q) ha hb'
  refine congrArg₂ (· * ·) (hd.trans ?_) ((C x dx dy).1 q hq' b hb')
  have hc : (H2Pack.Part.blocks S.arr pv).countP (fun x => Holds S.arr p q x) = 1 := hC.cover p hp q hq'
  unfold H2Pack.Part.blocks at hc
  rw [List.countP_append] at hc
  have hadm : (pv.adm ++ pv.adm.map Prod.swap).countP (fun x => Holds S.arr p q x) =
      pv.adm.countP (fun x => Holds S.arr p q x) + pv.adm.countP (fun x => Holds S.arr q p x) := by
    rw [List.countP_append, H2Pack.Part.countP_swap]
  have e3 : ((H2Pack.Part.leaves S.arr).map (fun v => (v, v)) ++ (pv.inadm ++ pv.inadm.map Prod.swap)).countP (fun x => Holds S.arr p q x) =
      1 - (pv.adm.countP (fun x => Holds S.arr p q x) + pv.adm.countP (fun x => Holds S.arr q p x)) := by omega
  show ((List.countP _ _ : Nat) : K) * _ = _
  rw [show (assemble S sl pv coordIdx mark simd bimv B D junkM junkW).R.arr = S.arr from rfl, e3]
  unfold nearKernel
  by_cases hnear : Near S.arr pv.adm p q
  · rw [if_pos hnear]
    have e1 : pv.adm.countP (fun x => Holds S.arr p q x) = 0 := by
      rw [List.countP_eq_zero]; intro x hx; simpa using (hnear x hx).1
    have e2 : pv.adm.countP (fun x => Holds S.arr q p x) = 0 := by
      rw [List.countP_eq_zero]; intro x hx; simpa using (hnear x hx).2
    rw [e1, e2, Nat.cast_one, one_mul]
    rfl
  · rw [if_neg hnear]
    have e12 : 0 < pv.adm.countP (fun x => Holds S.arr p q x) + pv.adm.countP (fun x => Holds S.arr q p x) := by
      unfold Near at hnear
      push Not at hnear
      obtain ⟨y, hy, hh⟩ := hnear
      by_cases h1 : Holds S.arr p q y
      · have : 0 < pv.adm.countP (fun x => Holds S.arr p q x) := List.countP_pos_iff.2 ⟨y, hy, decide_eq_true h1⟩
        omega
      · have : 0 < pv.adm.countP (fun x => Holds S.arr q p x) := List.countP_pos_iff.2 ⟨y, hy, decide_eq_true (hh h1)⟩
        omega
    rw [show 1 - (pv.adm.countP (fun x => Holds S.arr p q x) + pv.adm.countP (fun x => Holds S.arr q p x)) = 0 by omega, Nat.cast_zero, zero_mul]

/-- **C90** (the product after a second construction).  The handle has been partitioned and built (`hC`); it is built again without a new
partitioning: `AgainNoReset`, the second construction by any number of threads in any schedule.  The metadata and the dense blocks are
computed again.  Then every product is the product with the near field alone: the kernel matrix with all entries of points in admissible pairs
replaced by zero; no call reports an error. -/
theorem C90_second_product {P T fuel fuel2 : Nat} (hP : 0 < P) (hC : Covered (assemble S sl pv coordIdx mark simd bimv B D junkM junkW) pv)
    {c : H2Pack.DAG.Config (Res (Slot K)) T}
    (h : H2Pack.DAG.AgainNoReset (H2Pack.DAG.upwardDAG S.arr.nNode S.arr.level S.arr.parent pv.minAdm) P (ujTask S fuel) (ujTask S fuel2) noSlots c)
    (junk : Nat → Slot K) (E : Env K) (hE : E.Valid (assemble S (fillNull c.res junk) pv coordIdx mark2 simd2 bimv2 B2 D2 junkM2 junkW2).aot)
    (g : (Nat → Nat) × (Nat → Nat)) (dx dy x : Nat → K) :
    ∀ p < S.nPoint, ∀ a < S.kdim,
      matvec (assemble S (fillNull c.res junk) pv coordIdx mark2 simd2 bimv2 B2 D2 junkM2 junkW2).aot E g dx dy x (coordIdx p * S.kdim + a) =
      ∑ q ∈ range S.nPoint, ∑ b ∈ range S.kdim, nearKernel S pv.adm p a q b * x (coordIdx q * S.kdim + b) :=
  near_matvec hC (C90_all_empty hP h junk) E hE g dx dy x

/-- **C90** (the far field is lost).  With the unit vector of component `b` of a point `q` the second product has, at a point `p` in an
admissible pair with `q`, the value 0, whatever the kernel is. -/
theorem C90_far_lost {P T fuel fuel2 : Nat} (hP : 0 < P) (hC : Covered (assemble S sl pv coordIdx mark simd bimv B D junkM junkW) pv)
    {c : H2Pack.DAG.Config (Res (Slot K)) T}
    (h : H2Pack.DAG.AgainNoReset (H2Pack.DAG.upwardDAG S.arr.nNode S.arr.level S.arr.parent pv.minAdm) P (ujTask S fuel) (ujTask S fuel2) noSlots c)
    (junk : Nat → Slot K) (E : Env K) (hE : E.Valid (assemble S (fillNull c.res junk) pv coordIdx mark2 simd2 bimv2 B2 D2 junkM2 junkW2).aot)
    (g : (Nat → Nat) × (Nat → Nat)) (dx dy : Nat → K) {p q a b : Nat} (hp : p < S.nPoint) (hq : q < S.nPoint) (ha : a < S.kdim) (hb : b < S.kdim)
    {y : Nat × Nat} (hy : y ∈ pv.adm) (hh : Holds S.arr p q y ∨ Holds S.arr q p y) :
    matvec (assemble S (fillNull c.res junk) pv coordIdx mark2 simd2 bimv2 B2 D2 junkM2 junkW2).aot E g dx dy
      (fun k => if k = coordIdx q * S.kdim + b then 1 else 0) (coordIdx p * S.kdim + a) = 0 := by
  rw [C90_second_product hP hC h junk E hE g dx dy _ p hp a ha]
  apply sum_eq_zero; intro q' hq'
  apply sum_eq_zero; intro b' hb'
  by_cases he : coordIdx q' * S.kdim + b' = coordIdx q * S.kdim + b
  · have h1 := (H2Pack.MV.mul_add_inj (mem_range.1 hb') hb he).1
    have h2 : q' = q := H2Pack.MV.perm_inj hC.wf.perm (mem_range.1 hq') hq h1
    subst h2
    unfold nearKernel
    rw [if_neg (fun hn => by
      rcases hh with hh | hh
      · exact (hn y hy).1 hh
      · exact (hn y hy).2 hh), zero_mul]
  · rw [if_neg he, mul_zero]

/-- A list of steps in which one always fails does not succeed. -/
theorem foldlM_bad {α σ : Type} (f : σ → α → Res σ) (L : List α) (a : α) (ha : a ∈ L) (hbad : ∀ s t, f s a ≠ .ok t) : ∀ s t, L.foldlM f s ≠ .ok t := by
  induction L with
  | nil => simp at ha
  | cons b L ih =>
    intro s t h
    rw [List.foldlM_cons] at h
    rcases List.mem_cons.1 ha with rfl | ha
    · cases hf : f s a with
      | ok u => exact hbad s u hf
      | ub => rw [hf] at h; simp at h
      | diverge => rw [hf] at h; simp at h
    · cases hf : f s b with
      | ok u => rw [hf] at h; exact ih ha u t h
      | ub => rw [hf] at h; simp at h
      | diverge => rw [hf] at h; simp at h

/-- Every index is in some block. -/
theorem cuts_find {n nblk : Nat} {blk : Nat → Nat} (h : H2Pack.MV.Cuts n nblk blk) {i : Nat} (hi : i < n) : ∃ b < nblk, blk b ≤ i ∧ i < blk (b + 1) := by
  have : ∀ m, m ≤ nblk → i < blk m → ∃ b < m, blk b ≤ i ∧ i < blk (b + 1) := by
    intro m
    induction m with
    | zero => intro _ hlt; rw [h.1] at hlt; omega
    | succ m ih =>
      intro hm hlt
      by_cases hc : i < blk m
      · obtain ⟨b, b1, b2⟩ := ih (by omega) hc
        exact ⟨b, by omega, b2⟩
      · exact ⟨m, by omega, by omega, hlt⟩
  exact this nblk (le_refl _) (by rw [h.2.1]; exact hi)

/-- **C90** (just-in-time mode).  In just-in-time mode the product after a second construction divides by zero (the number of columns of an
empty block) as soon as there is an admissible pair whose second node is not on a higher level than the first, in every schedule. -/
theorem C90_jit_division_by_zero {P T fuel fuel2 : Nat} (hP : 0 < P) {c : H2Pack.DAG.Config (Res (Slot K)) T}
    (h : H2Pack.DAG.AgainNoReset (H2Pack.DAG.upwardDAG S.arr.nNode S.arr.level S.arr.parent pv.minAdm) P (ujTask S fuel) (ujTask S fuel2) noSlots c)
    (junk : Nat → Slot K) (E : Env K) (hE : E.Valid (assemble S (fillNull c.res junk) pv coordIdx mark2 simd2 bimv2 B2 D2 junkM2 junkW2).aot)
    (g : (Nat → Nat) × (Nat → Nat)) (dx dy : Nat → K) (g0 g1 : Nat → Nat → K) (gx : Nat → K) (fuel3 : Nat) (x : Nat → K) {i : Nat} (hi : i < pv.adm.length)
    (hl : S.arr.level pv.adm[i].1 ≤ S.arr.level pv.adm[i].2) (y : Nat → K) :
    (assemble S (fillNull c.res junk) pv coordIdx mark2 simd2 bimv2 B2 D2 junkM2 junkW2).matvec E g dx dy g0 g1 gx fuel3 x ≠ .ok y := by
  have h0 := C90_all_empty hP h junk
  generalize fillNull c.res junk = sl2 at *
  intro hy
  unfold JIT.matvec JIT.matvecPmt at hy
  dsimp only at hy
  have hcut : H2Pack.MV.Cuts pv.adm.length E.nB E.blkB := hE.cutB
  obtain ⟨b, hb1, hb2, hb3⟩ := cuts_find hcut hi
  obtain ⟨tb, htb, rfl⟩ : ∃ tb ∈ E.schedB, tb.2 = b := by
    have := hE.schedB.1.mem_iff.2 (List.mem_range.2 hb1)
    obtain ⟨tb, h1, h2⟩ := List.mem_map.1 this
    exact ⟨tb, h1, h2⟩
  have hncol : ((assemble S sl2 pv coordIdx mark2 simd2 bimv2 B2 D2 junkM2 junkW2).aot.B i).ncol = 0 := by
    have hl' : S.arr.level (pv.adm.getD i (0, 0)).1 ≤ S.arr.level (pv.adm.getD i (0, 0)).2 := by
      rw [List.getD_eq_getElem _ _ hi]; exact hl
    have : ((assemble S sl2 pv coordIdx mark2 simd2 bimv2 B2 D2 junkM2 junkW2).sidePts (pv.adm.getD i (0, 0)).2 (pv.adm.getD i (0, 0)).1).2.2 = 0 := by
      unfold JIT.sidePts
      have hl'' : (assemble S sl2 pv coordIdx mark2 simd2 bimv2 B2 D2 junkM2 junkW2).R.arr.level (pv.adm.getD i (0, 0)).1 ≤
        (assemble S sl2 pv coordIdx mark2 simd2 bimv2 B2 D2 junkM2 junkW2).R.arr.level (pv.adm.getD i (0, 0)).2 := hl'
      rw [if_pos hl'']
      exact (h0 _).1
    exact Nat.mul_eq_zero.2 (Or.inl this)
  generalize hXX : (if (assemble S sl2 pv coordIdx mark2 simd2 bimv2 B2 D2 junkM2 junkW2).needTrans = true then _ else _ : Nat → K) = xx at hy
  generalize hYY : (if (assemble S sl2 pv coordIdx mark2 simd2 bimv2 B2 D2 junkM2 junkW2).needTrans = true then _ else _ : H2Pack.MV.Y0 K) = yy at hy
  have hbad : ∀ s t, E.schedB.foldlM (fun mem tb => JIT.task E.blkB ((assemble S sl2 pv coordIdx mark2 simd2 bimv2 B2 D2 junkM2 junkW2).intmdPair E xx yy fuel3 tb.1) mem tb.2) s ≠ .ok t := by
    refine foldlM_bad _ _ tb htb (fun s t => ?_)
    unfold JIT.task
    refine foldlM_bad _ _ i (by rw [List.mem_range'_1]; omega) (fun s t => ?_) s t
    unfold JIT.intmdPair
    dsimp only
    rw [if_pos (Or.inl hncol)]
    simp
  cases hf : E.schedB.foldlM (fun mem tb => JIT.task E.blkB ((assemble S sl2 pv coordIdx mark2 simd2 bimv2 B2 D2 junkM2 junkW2).intmdPair E xx yy fuel3 tb.1) mem tb.2)
      (H2Pack.MV.initMem (assemble S sl2 pv coordIdx mark2 simd2 bimv2 B2 D2 junkM2 junkW2).R E) with
  | ok u => exact hbad _ u hf
  | ub => rw [hf] at hy; simp at hy
  | diverge => rw [hf] at hy; simp at hy

/-- A second construction does happen, on every tree with admissible pairs and with any numbers of threads. -/
theorem again_exists (S : Input K) (T : ClusterTree S.arr S.nPoint) {m : Nat} (hm : 1 ≤ m) (fuel fuel2 P Q : Nat) (hP : 0 < P) :
    ∃ c : H2Pack.DAG.Config (Res (Slot K)) Q, H2Pack.DAG.AgainNoReset (H2Pack.DAG.upwardDAG S.arr.nNode S.arr.level S.arr.parent m) P (ujTask S fuel) (ujTask S fuel2) noSlots c ∧
      ∀ a, c.th a = .done := by
  obtain ⟨c1, ⟨g, St, d, res, hi, hr⟩, hd⟩ := exec_exists S T hm fuel P hP
  have hh := H2Pack.DAG.done_head (c0 := H2Pack.DAG.start P d res) (by simp [H2Pack.DAG.start]) hr ⟨0, hP⟩ (hd _)
  obtain ⟨c, h1, h2⟩ := H2Pack.DAG.exhausted_end (T := Q) (f' := ujTask S fuel2) (res := noSlots) hh
  exact ⟨c, ⟨g, St, d, res, hi, c1, hr, hd, h1⟩, h2⟩

end

/-- A concrete case of the hypotheses: six points on a line and the constant kernel, seven admissible pairs; built by two threads, then built again by
three threads, which have all left the loop. -/
example : ∃ (S : Input ℝ) (pv : Pairs) (sl : Nat → Slot ℝ) (J : JIT ℝ) (c : H2Pack.DAG.Config (Res (Slot ℝ)) 3), Built S pv sl J ∧ pv.adm.length = 7 ∧ S.nPoint = 6 ∧
    H2Pack.DAG.AgainNoReset (H2Pack.DAG.upwardDAG S.arr.nNode S.arr.level S.arr.parent pv.minAdm) 2 (ujTask S 5) (ujTask S 5) noSlots c ∧ ∀ a, c.th a = .done := by
  obtain ⟨S, pv, sl, J, h1, h2, _, h4, _, _, _, _, hm⟩ := line_case 2 (by omega)
  have T : ClusterTree S.arr S.nPoint := by
    obtain ⟨_, _, _, _, _, _, _, _, hJ⟩ := h4.form
    have := h4.covered.wf.tree
    rw [hJ] at this
    exact this
  obtain ⟨c, hc, hd⟩ := again_exists S T (m := pv.minAdm) (by omega) 5 5 2 3 (by omega)
  exact ⟨S, pv, sl, J, c, h4, h2, h1, hc, hd⟩

end H2Pack.UJ
