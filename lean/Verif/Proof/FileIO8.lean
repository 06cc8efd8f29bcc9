import Verif.Proof.FileIO7
import Verif.Props.MatvecJIT

set_option linter.unusedSectionVars false

/-! # Products of the loaded matrix with blocks evaluated on the fly -/

namespace H2Pack.IO
open H2Pack.MV
open H2Pack.Part (Arr kids ClusterTree)
open Finset

section
variable {K : Type} [CommRing K]

theorem foldlM_congr_mem {α β : Type} (L : List α) (f g : β → α → Res β) (h : ∀ x ∈ L, ∀ s, f s x = g s x) (s : β) : L.foldlM f s = L.foldlM g s := by
  induction L generalizing s with
  | nil => rfl
  | cons x L ih =>
    rw [List.foldlM_cons, List.foldlM_cons, h x (by simp)]
    congr 1
    funext s'
    exact ih (fun y hy => h y (List.mem_cons_of_mem _ hy)) s'

theorem patch_fwd {R R' : Rep K} (E : Env K) (px : Nat → K) : fwdTransform (patch R R') E px = fwdTransform R' E px := rfl

theorem patch_sum {R R' : Rep K} (E : Env K) (m : Loc → K) : sumY1 (patch R R') E m = sumY1 R' E m := by
  funext l; cases l <;> rfl

theorem patch_init {R R' : Rep K} (E : Env K) : initMem (patch R R') E = initMem R' E := by
  funext l; cases l <;> rfl

theorem patch_bwd {R R' : Rep K} (E : Env K) (s : BwdSt K) : bwdTransform (patch R R') E s = bwdTransform R' E s := by
  have e5 : ∀ t l k s, pushKids (patch R R') E t l k s = pushKids R' E t l k s := by
    intro t l
    induction l with
    | nil => intro k s; rfl
    | cons c l ih => intro k s; unfold pushKids; rw [ih]; rfl
  have : bwdNode (patch R R') E = bwdNode R' E := by
    funext s v; unfold bwdNode; simp only [e5]; rfl
  unfold bwdTransform
  rw [this]
  rfl

/-- `J` with the arrays that products do not read taken from `R`. -/
def patchJ (R : Rep K) (J : JIT K) : JIT K := { J with R := patch R J.R }

theorem matvec_patchJ {R : Rep K} {J : JIT K} (h : SameTree R J.R) {E : Env K} (v : E.Valid R) (g : (Nat → Nat) × (Nat → Nat)) (dx dy : Nat → K) (g0 g1 : Nat → Nat → K)
    (gx : Nat → K) (fuel : Nat) (x : Nat → K) :
    (patchJ R J).matvec E g dx dy g0 g1 gx fuel x = J.matvec E g dx dy g0 g1 gx fuel x := by
  have eI : ∀ px y0 f t, (patchJ R J).intmdPair E px y0 f t = J.intmdPair E px y0 f t := fun _ _ _ _ => rfl
  have eD1 : ∀ px f t, (patchJ R J).dense1 px f t = J.dense1 px f t := by
    intro px f t
    funext mem i
    have e : ∀ J : JIT K, (J.aot.D (J.R.arr.nLeaf + i)).ncol = (J.block (J.cPts (J.R.inadm.getD i (0, 0)).1) (J.cPts (J.R.inadm.getD i (0, 0)).2)).ncol := by
      intro J
      show (if _ then _ else _ : Mat K).ncol = _
      rw [if_neg (by omega), Nat.add_sub_cancel_left]
    unfold JIT.dense1
    dsimp only
    rw [e, e]
    rfl
  have eD0 : ∀ px f m, E.schedD0.foldlM (fun mem tb => JIT.task E.blkD0 ((patchJ R J).dense0 px f tb.1) mem tb.2) m =
      E.schedD0.foldlM (fun mem tb => JIT.task E.blkD0 (J.dense0 px f tb.1) mem tb.2) m := by
    intro px f m
    apply foldlM_congr_mem
    intro tb htb s
    unfold JIT.task
    apply foldlM_congr_mem
    intro i hi s
    have hi := sched_block v.cutD0 v.schedD0 htb hi
    have hl : (patchJ R J).R.leaf i = J.R.leaf i := (h.leaf i hi).symm
    have hi' : i < J.R.arr.nLeaf := by rw [h.nLeaf]; exact hi
    have e : ∀ J : JIT K, i < J.R.arr.nLeaf → (J.aot.D i).ncol = (J.block (J.cPts (J.R.leaf i)) (J.cPts (J.R.leaf i))).ncol := by
      intro J hJ
      show (if _ then _ else _ : Mat K).ncol = _
      rw [if_pos hJ]
    unfold JIT.dense0
    dsimp only
    rw [e _ hi', e _ (show i < (patchJ R J).R.arr.nLeaf from hi'), hl]
    rfl
  have eT1 : ∀ g1 m, (patchJ R J).transY1 E g1 m = J.transY1 E g1 m := by
    intro g1 m; funext l; cases l <;> rfl
  have eP : ∀ px, (patchJ R J).matvecPmt E g0 g1 gx fuel px = J.matvecPmt E g0 g1 gx fuel px := by
    intro px
    have e1 : (patchJ R J).R = patch R J.R := rfl
    have e2 : (patchJ R J).needTrans = J.needTrans := rfl
    have e3 : ∀ y0, (patchJ R J).transY0 g0 y0 = J.transY0 g0 y0 := fun _ => rfl
    unfold JIT.matvecPmt
    dsimp only
    simp only [e1, e2, patch_fwd, patch_sum, patch_init, patch_bwd, eI, eD1, eD0, eT1, e3]
    rfl
  unfold JIT.matvec
  rw [show (patchJ R J).R = patch R J.R from rfl]
  rw [show permuteFwd (patch R J.R) g x dx = permuteFwd J.R g x dx from rfl, eP]
  rfl

theorem point_congr {xdim : Nat} {c c' : Nat → K} {ld ld' i : Nat} (h : ∀ d < xdim, c (d * ld + i) = c' (d * ld' + i)) : point xdim c ld i = point xdim c' ld' i := by
  unfold point
  funext d
  by_cases hd : d < xdim
  · rw [if_pos hd, if_pos hd, h d hd]
  · rw [if_neg hd, if_neg hd]

/-- Blocks are determined by the points. -/
theorem block_same {J J' : JIT K} (hx : J'.xdim = J.xdim) (hk : J'.kern = J.kern) (hkd : J'.R.kdim = J.R.kdim) {p q p' q' : (Nat → K) × Nat × Nat}
    (hp : p'.2.2 = p.2.2) (hq : q'.2.2 = q.2.2) (hpp : ∀ i < p.2.2, point J.xdim p'.1 p'.2.1 i = point J.xdim p.1 p.2.1 i)
    (hqq : ∀ i < q.2.2, point J.xdim q'.1 q'.2.1 i = point J.xdim q.1 q.2.1 i) : SameMat (J.block p q) (J'.block p' q') := by
  refine ⟨?_, ?_, ?_⟩
  · show p'.2.2 * J'.R.kdim = p.2.2 * J.R.kdim; rw [hp, hkd]
  · show q'.2.2 * J'.R.kdim = q.2.2 * J.R.kdim; rw [hq, hkd]
  · intro r hr c hc
    have hr : r < p.2.2 * J.R.kdim := hr
    have hc : c < q.2.2 * J.R.kdim := hc
    have h0 : 0 < J.R.kdim := Nat.pos_of_ne_zero (fun e => by rw [e, Nat.mul_zero] at hr; omega)
    show kmat J'.kern J'.R.kdim (point J'.xdim p'.1 p'.2.1) (point J'.xdim q'.1 q'.2.1) r c = kmat J.kern J.R.kdim (point J.xdim p.1 p.2.1) (point J.xdim q.1 q.2.1) r c
    unfold kmat
    rw [hx, hk, hkd, hpp _ (Nat.div_lt_of_lt_mul (by rw [Nat.mul_comm]; exact hr)), hqq _ (Nat.div_lt_of_lt_mul (by rw [Nat.mul_comm]; exact hc))]

/-- The blocks evaluated from the loaded data are those of the original. -/
theorem aot_same {H H' : Mtx K} (h : Storable H) (hst : SameTree H.J.R H'.J.R) (hd : SameData H H') (hx : H'.J.xdim = H.J.xdim) (hk : H'.J.kern = H.J.kern) :
    SameBlocks H.J.aot H'.J.aot := by
  have T := h.tree
  have hw := h.wf
  have hxd := h.dims
  have hj : ∀ v < H.J.R.arr.nNode, (H'.J.jPts v).2.2 = (H.J.jPts v).2.2 ∧ ∀ i < (H.J.jPts v).2.2, point H.J.xdim (H'.J.jPts v).1 (H'.J.jPts v).2.1 i =
      point H.J.xdim (H.J.jPts v).1 (H.J.jPts v).2.1 i := by
    intro v hv
    refine ⟨hd.jn v hv, fun i hi => ?_⟩
    have hi : i < H.J.jn v := hi
    apply point_congr
    intro d hdd
    show H'.J.jc v (d * H'.J.jn v + i) = H.J.jc v (d * H.J.jn v + i)
    rw [hd.jn v hv]
    exact hd.jc v hv d (by omega) i hi
  have hc : ∀ v < H.J.R.arr.nNode, (H'.J.cPts v).2.2 = (H.J.cPts v).2.2 ∧ ∀ i < (H.J.cPts v).2.2, point H.J.xdim (H'.J.cPts v).1 (H'.J.cPts v).2.1 i =
      point H.J.xdim (H.J.cPts v).1 (H.J.cPts v).2.1 i := by
    intro v hv
    refine ⟨?_, fun i hi => ?_⟩
    · show H'.J.R.arr.ptE v - H'.J.R.arr.ptS v + 1 = H.J.R.arr.ptE v - H.J.R.arr.ptS v + 1
      rw [hst.ptE v hv, hst.ptS v hv]
    · have hi : i < H.J.R.arr.ptE v - H.J.R.arr.ptS v + 1 := hi
      have h1 := T.clusterLe v hv
      have h2 := T.clusterLt v hv
      apply point_congr
      intro d hdd
      show H'.J.coord (H'.J.R.arr.ptS v + (d * H'.J.R.nPoint + i)) = H.J.coord (H.J.R.arr.ptS v + (d * H.J.R.nPoint + i))
      rw [hst.ptS v hv, hst.nPoint, show H.J.R.arr.ptS v + (d * H.J.R.nPoint + i) = d * H.J.R.nPoint + (H.J.R.arr.ptS v + i) by omega]
      exact hd.coord _ (by omega) d (by omega)
  have hs : ∀ v < H.J.R.arr.nNode, ∀ w < H.J.R.arr.nNode, (H'.J.sidePts v w).2.2 = (H.J.sidePts v w).2.2 ∧ ∀ i < (H.J.sidePts v w).2.2,
      point H.J.xdim (H'.J.sidePts v w).1 (H'.J.sidePts v w).2.1 i = point H.J.xdim (H.J.sidePts v w).1 (H.J.sidePts v w).2.1 i := by
    intro v hv w hw
    unfold JIT.sidePts
    rw [hst.level v hv, hst.level w hw]
    by_cases c : H.J.R.arr.level w ≤ H.J.R.arr.level v
    · rw [if_pos c, if_pos c]; exact hj v hv
    · rw [if_neg c, if_neg c]; exact hc v hv
  have hleaf : ∀ i < H.J.R.arr.nLeaf, H.J.R.leaf i < H.J.R.arr.nNode := fun i hi => ((H2Pack.Part.leaf_inj T).2.1 i hi).1
  constructor
  · intro i hi
    have hi : i < H.J.R.adm.length := hi
    obtain ⟨n0, n1⟩ : (H.J.R.adm.getD i (0, 0)).1 < H.J.R.arr.nNode ∧ (H.J.R.adm.getD i (0, 0)).2 < H.J.R.arr.nNode := by
      rw [show H.J.R.adm.getD i (0, 0) = H.J.R.adm[i] by simp [hi]]
      exact hw.admNode _ (List.getElem_mem (show i < H.J.aot.adm.length from hi))
    show SameMat (H.J.block _ _) (H'.J.block (H'.J.sidePts (H'.J.R.adm.getD i (0, 0)).1 (H'.J.R.adm.getD i (0, 0)).2)
      (H'.J.sidePts (H'.J.R.adm.getD i (0, 0)).2 (H'.J.R.adm.getD i (0, 0)).1))
    rw [hst.adm]
    exact block_same hx hk hst.kdim (hs _ n0 _ n1).1 (hs _ n1 _ n0).1 (hs _ n0 _ n1).2 (hs _ n1 _ n0).2
  · intro i hi
    have hi : i < H.J.R.arr.nLeaf + H.J.R.inadm.length := hi
    show SameMat (if i < H.J.R.arr.nLeaf then _ else _) (if i < H'.J.R.arr.nLeaf then H'.J.block (H'.J.cPts (H'.J.R.leaf i)) (H'.J.cPts (H'.J.R.leaf i))
      else H'.J.block (H'.J.cPts (H'.J.R.inadm.getD (i - H'.J.R.arr.nLeaf) (0, 0)).1) (H'.J.cPts (H'.J.R.inadm.getD (i - H'.J.R.arr.nLeaf) (0, 0)).2))
    rw [hst.nLeaf, hst.inadm]
    by_cases c : i < H.J.R.arr.nLeaf
    · rw [if_pos c, if_pos c, hst.leaf i c]
      have := hc _ (hleaf i c)
      exact block_same hx hk hst.kdim this.1 this.1 this.2 this.2
    · rw [if_neg c, if_neg c]
      have hi' : i - H.J.R.arr.nLeaf < H.J.R.inadm.length := by omega
      obtain ⟨n0, n1⟩ : (H.J.R.inadm.getD (i - H.J.R.arr.nLeaf) (0, 0)).1 < H.J.R.arr.nNode ∧ (H.J.R.inadm.getD (i - H.J.R.arr.nLeaf) (0, 0)).2 < H.J.R.arr.nNode := by
        rw [show H.J.R.inadm.getD (i - H.J.R.arr.nLeaf) (0, 0) = H.J.R.inadm[i - H.J.R.arr.nLeaf] by simp [hi']]
        exact hw.inadmNode _ (List.getElem_mem (show i - H.J.R.arr.nLeaf < H.J.aot.inadm.length from hi'))
      exact block_same hx hk hst.kdim (hc _ n0).1 (hc _ n1).1 (hc _ n0).2 (hc _ n1).2

theorem matvec_jit_same {H H' : Mtx K} (h : Storable H) (hok : H.J.Ok) (hst : SameTree H.J.R H'.J.R) (hd : SameData H H') (hm : Marked H'.J.R) (hx : H'.J.xdim = H.J.xdim)
    (hk : H'.J.kern = H.J.kern) (hs : H'.J.simd = H.J.simd) (hbi : H'.J.bimv = H.J.bimv) (E E' : Env K) (hE : E.Valid H.J.aot) (hE' : E'.Valid H'.J.aot)
    (g g' : (Nat → Nat) × (Nat → Nat)) (dx dy dx' dy' : Nat → K) (g0 g1 : Nat → Nat → K) (gx x : Nat → K) :
    ∃ N, ∀ fuel, N ≤ fuel → ∃ y, H'.J.matvec E' g' dx' dy' g0 g1 gx fuel x = .ok y ∧
      ∀ k < H.J.R.nPoint * H.J.R.kdim, y k = matvec H.J.aot E g dx dy x k := by
  have hb := aot_same h hst hd hx hk
  have w := h.wf
  set J2 := patchJ H.J.R H'.J with hJ2
  have hst2 : SameTree H.J.aot J2.aot := by
    have := patch_same hst
    exact ⟨this.nNode, this.nLeaf, this.maxLevel, this.maxChild, this.level, this.ptS, this.ptE, this.nChild, this.children, this.parent, this.levels, this.leaf,
      this.nPoint, this.kdim, this.idx, this.U, this.adm, this.inadm, this.minAdm⟩
  have hd2 : SameData H { H' with J := J2 } := ⟨hd.ptDim, hd.isHSS, hd.maxLeaf, hd.coord, hd.skel, hd.jn, hd.jc⟩
  have hb2 : SameBlocks H.J.aot J2.aot := aot_same (H' := { H' with J := J2 }) h (patch_same hst) hd2 hx hk
  have T2 : ClusterTree J2.aot.arr H.J.R.nPoint := patch_tree hst h.tree
  have w2 : WF J2.aot := wf_same hst2 hb2 w hm T2
  have ok2 : J2.Ok := by
    refine ⟨w2, ?_, ?_, ?_, ?_, ?_⟩
    · show 0 < H'.J.simd; rw [hs]; exact hok.simd
    · intro v hv hl
      have hv : v < H'.J.R.arr.nNode := hv
      have hl : H'.J.R.minAdm ≤ H'.J.R.arr.level v := hl
      rw [hst.nNode] at hv
      rw [hst.minAdm, hst.level v hv] at hl
      show (H'.J.R.U v).ncol = H'.J.jn v * H'.J.R.kdim
      rw [(hst.U v hv).ncol, hd.jn v hv, hst.kdim]
      exact hok.rankJ v hv hl
    · intro f hf
      have hf : H'.J.bimv = some f := hf
      rw [hbi] at hf
      show BimvSpec H'.J.simd H'.J.xdim H'.J.R.kdim H'.J.kern f
      rw [hs, hx, hst.kdim, hk]
      exact hok.bimv f hf
    · intro hn i hi
      have hn : H'.J.bimv = none := hn
      rw [hbi] at hn
      have hi : i < H'.J.R.adm.length := hi
      rw [hst.adm] at hi
      rw [(hb2.B i hi).ncol]
      show _ * H'.J.R.kdim ≤ _
      rw [hst.kdim]
      exact hok.smallB hn i hi
    · intro hn i hi
      have hn : H'.J.bimv = none := hn
      rw [hbi] at hn
      have hi : i < H'.J.R.arr.nLeaf + H'.J.R.inadm.length := hi
      rw [hst.inadm, hst.nLeaf] at hi
      rw [(hb2.D i hi).ncol]
      show _ * H'.J.R.kdim ≤ _
      rw [hst.kdim]
      exact hok.smallD hn i hi
  have hE2 : E'.Valid J2.aot := ⟨hE'.threads, hE'.team, hE'.fwd, hE'.bwd, hE'.cutB, hE'.cutD0, hE'.cutD1, hE'.schedB, hE'.schedD0, hE'.schedD1, hE'.red⟩
  have hER : E'.Valid H.J.R := by
    refine ⟨hE'.threads, hE'.team, ?_, ?_, ?_, ?_, ?_, hE'.schedB, hE'.schedD0, hE'.schedD1, hE'.red⟩
    · intro l; rw [← hst.levels]; exact hE'.fwd l
    · intro l; rw [← hst.levels]; exact hE'.bwd l
    · rw [← hst.adm]; exact hE'.cutB
    · rw [← hst.nLeaf]; exact hE'.cutD0
    · rw [← hst.inadm]; exact hE'.cutD1
  obtain ⟨N, hN⟩ := C23_jit_eq_aot ok2 E' E' hE2 hE2 g' g' dx' dy' dx' dy' g0 g1 gx x
  refine ⟨N, fun fuel hf => ?_⟩
  obtain ⟨y, e, hy⟩ := hN fuel hf
  rw [hJ2, matvec_patchJ hst hER] at e
  refine ⟨y, e, fun k hk => ?_⟩
  have hk2 : k < J2.R.nPoint * J2.R.kdim := by
    show k < H'.J.R.nPoint * H'.J.R.kdim
    rw [hst.nPoint, hst.kdim]; exact hk
  rw [hy k hk2]
  exact matvec_same hst2 hb2 w hm hE hE2 g g' dx dy dx' dy' x hk

end

end H2Pack.IO
