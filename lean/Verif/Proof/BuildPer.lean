import Verif.Model.BuildPer
import Verif.Proof.MatvecPer
import Verif.Proof.PerPairs
import Verif.Props.BuildUJ

/-! # Periodic construction: root block, order of the tasks -/

set_option linter.unusedSectionVars false

namespace H2Pack.MV
open Finset (range sum_congr mul_sum sum_mul sum_comm sum_add_distrib sum_range_succ mem_range)

section
variable {K : Type} [CommRing K]

theorem point_shift {xdim n : Nat} {c c0 : Nat → K} {s : Nat → K} (hs : ∀ d, xdim ≤ d → s d = 0)
    (h : ∀ d < xdim, ∀ i < n, c (d * n + i) = c0 (d * n + i)) {i : Nat} (hi : i < n) :
    point xdim (shiftCoord xdim n n s 1 c) n i = fun d => point xdim c0 n i d + s d := by
  funext d
  unfold point
  by_cases hd : d < xdim
  · rw [if_pos hd, if_pos hd, shiftCoord_eq _ _ _ _ _ hd hi, one_mul, h d hd i hi]
  · rw [if_neg hd, if_neg hd, hs d (by omega), zero_add]

/-- The root block. -/
theorem buildPerBlk_eq (J JP : JIT K) (hJP : JP.jn = J.jn ∧ JP.jc = J.jc ∧ JP.xdim = J.xdim ∧ JP.R.kdim = J.R.kdim) {pdim root nLat : Nat} (hp : pdim ≤ J.xdim) (width : Nat → K)
    (lattice : Nat → Nat → K) (junkB junkC : Nat → K) (junk : Nat → Nat → K) {i j a b : Nat} (hi : i < J.jn root) (hj : j < J.jn root) (ha : a < J.R.kdim) (hb : b < J.R.kdim) :
    buildPerBlk J JP pdim root nLat width lattice junkB junkC junk ((i * J.R.kdim + a) * (J.jn root * J.R.kdim) + (j * J.R.kdim + b)) =
      JP.kern (point J.xdim (J.jc root) (J.jn root) i) (point J.xdim (J.jc root) (J.jn root) j) a b -
      ∑ l ∈ range nLat, J.kern (point J.xdim (J.jc root) (J.jn root) i)
        (fun d => point J.xdim (J.jc root) (J.jn root) j d + if d < pdim then width d * lattice l d else 0) a b := by
  obtain ⟨e1, e2, e3, e4⟩ := hJP
  have hr := row_lt hi ha
  have hc := row_lt hj hb
  have hlt := row_lt hr hc
  have hdm := div_mod_row (r := i * J.R.kdim + a) hc
  unfold buildPerBlk
  have key : ∀ m, (∀ d < J.xdim, ∀ i < J.jn root, ((List.range m).foldl (perBlkStep J pdim root width lattice junk)
      (evalAt JP (JP.jPts root) (JP.jPts root) 0 (J.jn root * J.R.kdim) junkB, copyMatrix J.xdim (J.jn root) (J.jc root) (J.jn root) junkC (J.jn root))).2 (d * J.jn root + i) = J.jc root (d * J.jn root + i)) ∧
      ((List.range m).foldl (perBlkStep J pdim root width lattice junk)
      (evalAt JP (JP.jPts root) (JP.jPts root) 0 (J.jn root * J.R.kdim) junkB, copyMatrix J.xdim (J.jn root) (J.jc root) (J.jn root) junkC (J.jn root))).1
        ((i * J.R.kdim + a) * (J.jn root * J.R.kdim) + (j * J.R.kdim + b)) =
      JP.kern (point J.xdim (J.jc root) (J.jn root) i) (point J.xdim (J.jc root) (J.jn root) j) a b -
      ∑ l ∈ range m, J.kern (point J.xdim (J.jc root) (J.jn root) i)
        (fun d => point J.xdim (J.jc root) (J.jn root) j d + if d < pdim then width d * lattice l d else 0) a b := by
    intro m
    induction m with
    | zero =>
      refine ⟨fun d hd i hi => ?_, ?_⟩
      · exact copyMatrix_at _ _ _ _ _ hd hi
      · show evalAt JP _ _ _ _ _ _ = _
        have hsz : JP.jPts root = (J.jc root, J.jn root, J.jn root) := by unfold JIT.jPts; rw [e1, e2]
        rw [Finset.sum_range_zero, sub_zero, evalAt_eq _ _ _ _ _ (by rw [hsz, e4]), hsz]
        have b1 : (JP.block (J.jc root, J.jn root, J.jn root) (J.jc root, J.jn root, J.jn root)).nrow = J.jn root * J.R.kdim := by
          show J.jn root * JP.R.kdim = _; rw [e4]
        have b2 : (JP.block (J.jc root, J.jn root, J.jn root) (J.jc root, J.jn root, J.jn root)).ncol = J.jn root * J.R.kdim := by
          show J.jn root * JP.R.kdim = _; rw [e4]
        rw [b1, b2, if_pos ⟨Nat.zero_le _, by omega⟩, Nat.sub_zero, hdm.1, hdm.2]
        show kmat JP.kern JP.R.kdim _ _ _ _ = _
        rw [e4, kmat_at JP.kern _ _ ha hb, e3]
    | succ m ih =>
      rw [List.range_succ, List.foldl_append]
      simp only [List.foldl_cons, List.foldl_nil]
      generalize (List.range m).foldl (perBlkStep J pdim root width lattice junk) _ = s at ih
      obtain ⟨i1, i2⟩ := ih
      have hs0 : ∀ d, J.xdim ≤ d → (if d < pdim then width d * lattice m d else 0) = (0 : K) := fun d hd => if_neg (by omega)
      refine ⟨fun d hd i hi => ?_, ?_⟩
      · show shiftCoord _ _ _ _ _ (shiftCoord _ _ _ _ _ _) _ = _
        rw [shiftCoord_eq _ _ _ _ _ hd hi, shiftCoord_eq _ _ _ _ _ hd hi, i1 d hd i hi]
        ring
      · show (if _ < _ then _ - evalAt _ _ _ _ _ _ _ else _) = _
        rw [if_pos hlt, i2, sum_range_succ, ← sub_sub]
        congr 1
        rw [evalAt_eq _ _ _ _ _ rfl]
        have b1 : ∀ c, (J.block (J.jPts root) (c, J.jn root, J.jn root)).nrow = J.jn root * J.R.kdim := fun c => rfl
        have b2 : ∀ c, (J.block (J.jPts root) (c, J.jn root, J.jn root)).ncol = J.jn root * J.R.kdim := fun c => rfl
        rw [b1, b2, if_pos ⟨Nat.zero_le _, by omega⟩, Nat.sub_zero, hdm.1, hdm.2]
        show kmat J.kern J.R.kdim _ _ _ _ = _
        rw [kmat_at J.kern _ _ ha hb]
        show J.kern (point J.xdim (J.jc root) (J.jn root) i) (point J.xdim (shiftCoord J.xdim (J.jn root) (J.jn root) (fun d => if d < pdim then width d * lattice m d else 0) 1 s.2) (J.jn root) j) a b = _
        rw [point_shift (s := fun d => if d < pdim then width d * lattice m d else 0) hs0 i1 hj]
  exact (key nLat).2

end
end H2Pack.MV

namespace H2Pack.UJ
open H2Pack.Part (Arr kids ClusterTree)

section
variable {K : Type} [Field K]

/-- The task queue of a periodic system runs every task once, after those of the children. -/
theorem execution_done_per {S : Input K} (T : ClusterTree S.arr S.nPoint) {fuel P : Nat} {c : H2Pack.DAG.Config (Res (Slot K)) P}
    (hx : H2Pack.DAG.Execution (H2Pack.DAG.upwardDAGPeriodic S.arr.nNode S.arr.level S.arr.parent 0) (ujTask S fuel) c) (hP : 0 < P) (hd : ∀ a, c.th a = .done) :
    Done S 0 (ujNode S fuel) c.res := by
  intro v hv _
  obtain ⟨W, _, hs⟩ := H2Pack.DAG.upward_periodic_executable (H2Pack.Part.up_tree T)
  have e := H2Pack.DAG.C19_results W (f := ujTask S fuel) (fun t r r' h => by
    unfold ujTask
    split
    · next ht =>
      rw [ujNode_eq]
      apply nodeWith_congr
      intro k hk
      have hkt := T.childLt t ht k hk
      have hpar := T.parentOfChild t ht k hk
      refine h k ⟨?_, ?_⟩
      · show k < S.arr.nNode; omega
      · rw [H2Pack.DAG.upP_slice k (by omega), List.mem_singleton]; exact hpar.symm
    · rfl) hx hP hd v hv (hs v)
  rw [e, ujTask, if_pos hv]

end
end H2Pack.UJ
