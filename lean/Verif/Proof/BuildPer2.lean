import Verif.Spec.BuiltPer
import Verif.Proof.BuildPer
import Verif.Proof.MatvecPer2
import Verif.Props.BuildUJ2

/-! # Periodic construction: entries of the represented matrix -/

set_option linter.unusedSectionVars false

namespace H2Pack.MV
open H2Pack.Part (Arr kids ClusterTree Pairs Holds Desc)
open Finset

section
variable {K : Type} [Field K] [LinearOrder K] [IsStrictOrderedRing K] {J : JIT K} {cand : Nat → Nat → Nat} {nc : Nat → Nat} {jp : Nat → Nat → Nat}
  {W : Nat → Nat → Nat → K}

/-- Error of interpolating a function of two points on both sides. -/
theorem bi_err (h : WF J.aot) (hs : HasSkel J cand nc jp) (hW : Nested J.aot W) {ε Λ : K} (hε : 0 ≤ ε)
    (hΛ : ∀ v < J.R.arr.nNode, J.R.minAdm ≤ J.R.arr.level v → ∀ r, ∑ t ∈ range (J.R.U v).ncol, |W v r t| ≤ Λ) (hΛ1 : 1 ≤ Λ) {v w : Nat} (hv : v < J.R.arr.nNode) (hw : w < J.R.arr.nNode)
    (hl : J.R.minAdm ≤ max (J.R.arr.level v) (J.R.arr.level w)) (G : Nat → Nat → Nat → Nat → K) {p q a b : Nat} (hp : J.R.arr.ptS v ≤ p ∧ p ≤ J.R.arr.ptE v)
    (hq : J.R.arr.ptS w ≤ q ∧ q ≤ J.R.arr.ptE w) (ha : a < J.R.kdim) (hb : b < J.R.kdim)
    (h1 : J.R.arr.level w ≤ J.R.arr.level v → ∀ u, Desc J.R.arr u v → ∀ i < nc u, ∀ a < J.R.kdim, |localErr J cand jp (fun x a => G x a q b) u i a| ≤ ε)
    (h2 : J.R.arr.level v ≤ J.R.arr.level w → ∀ c, J.R.arr.ptS v ≤ c → c ≤ J.R.arr.ptE v → ∀ a' < J.R.kdim, ∀ u, Desc J.R.arr u w → ∀ i < nc u, ∀ b < J.R.kdim,
      |localErr J cand jp (fun y b => G c a' y b) u i b| ≤ ε) :
    |G p a q b - ∑ c ∈ range (sideN J v w), ∑ a' ∈ range J.R.kdim, ∑ d ∈ range (sideN J w v), ∑ b' ∈ range J.R.kdim,
      side J.aot W v w (p * J.R.kdim + a) (c * J.R.kdim + a') * G (sideP J jp v w c) a' (sideP J jp w v d) b' * side J.aot W w v (q * J.R.kdim + b) (d * J.R.kdim + b')| ≤
      (1 + Λ) * ((1 + J.R.arr.maxLevel * Λ) * ε) := by
  have hl' : J.R.minAdm ≤ max (J.R.arr.level w) (J.R.arr.level v) := by rw [max_comm]; exact hl
  set δ : K := (1 + J.R.arr.maxLevel * Λ) * ε with hδ
  have hδ0 : 0 ≤ δ := by
    have : 0 ≤ Λ := by linarith
    rw [hδ]; positivity
  obtain ⟨e1, e2⟩ := sideErr_le h hs hW (fun x a => G x a q b) hε hΛ hΛ1 hv hl h1 hp ha
  have e3 : ∀ c < sideN J v w, ∀ a' < J.R.kdim, |sideErr J jp W (fun y b => G (sideP J jp v w c) a' y b) w v q b| ≤ δ := by
    intro c hc a' ha'
    obtain ⟨c1, c2⟩ := sideP_in hs hv (h.tree.clusterLe v hv) hl hc
    exact (sideErr_le h hs hW (fun y b => G (sideP J jp v w c) a' y b) hε hΛ hΛ1 hw hl' (fun hlv u hu i hi b hb => h2 hlv _ c1 c2 a' ha' u hu i hi b hb) hq hb).1
  have key : G p a q b - ∑ c ∈ range (sideN J v w), ∑ a' ∈ range J.R.kdim, ∑ d ∈ range (sideN J w v), ∑ b' ∈ range J.R.kdim,
      side J.aot W v w (p * J.R.kdim + a) (c * J.R.kdim + a') * G (sideP J jp v w c) a' (sideP J jp w v d) b' * side J.aot W w v (q * J.R.kdim + b) (d * J.R.kdim + b') =
      sideErr J jp W (fun x a => G x a q b) v w p a +
      ∑ c ∈ range (sideN J v w), ∑ a' ∈ range J.R.kdim, side J.aot W v w (p * J.R.kdim + a) (c * J.R.kdim + a') * sideErr J jp W (fun y b => G (sideP J jp v w c) a' y b) w v q b := by
    have e : ∀ c ∈ range (sideN J v w), ∀ a' ∈ range J.R.kdim, side J.aot W v w (p * J.R.kdim + a) (c * J.R.kdim + a') * sideErr J jp W (fun y b => G (sideP J jp v w c) a' y b) w v q b =
        side J.aot W v w (p * J.R.kdim + a) (c * J.R.kdim + a') * G (sideP J jp v w c) a' q b -
        ∑ d ∈ range (sideN J w v), ∑ b' ∈ range J.R.kdim, side J.aot W v w (p * J.R.kdim + a) (c * J.R.kdim + a') *
          G (sideP J jp v w c) a' (sideP J jp w v d) b' * side J.aot W w v (q * J.R.kdim + b) (d * J.R.kdim + b') := by
      intro c _ a' _
      unfold sideErr
      rw [mul_sub, mul_sum]
      congr 1
      apply sum_congr rfl; intro d _
      rw [mul_sum]
      apply sum_congr rfl; intro b' _
      ring
    rw [sum_congr rfl (fun c hc => sum_congr rfl (fun a' ha' => e c hc a' ha'))]
    simp only [sum_sub_distrib]
    unfold sideErr
    ring
  rw [key]
  refine le_trans (abs_add_le _ _) ?_
  have e4 : |∑ c ∈ range (sideN J v w), ∑ a' ∈ range J.R.kdim, side J.aot W v w (p * J.R.kdim + a) (c * J.R.kdim + a') * sideErr J jp W (fun y b => G (sideP J jp v w c) a' y b) w v q b| ≤ Λ * δ := by
    refine le_trans (abs_sum_le_sum_abs _ _) ?_
    refine le_trans (sum_le_sum fun c hc => le_trans (abs_sum_le_sum_abs _ _) (sum_le_sum (g := fun a' => |side J.aot W v w (p * J.R.kdim + a) (c * J.R.kdim + a')| * δ) fun a' ha' => ?_)) ?_
    · rw [abs_mul]
      exact mul_le_mul_of_nonneg_left (e3 c (mem_range.1 hc) a' (mem_range.1 ha')) (abs_nonneg _)
    · simp only [← sum_mul]
      exact mul_le_mul_of_nonneg_right e2 hδ0
  nlinarith [e1, e4]

end

section
variable {K : Type} [CommRing K]

namespace Per
variable {P : Per K}

/-- The representation with all nodes marked satisfies the conditions of the non-periodic products. -/
theorem one_wf (h : P.Ok) (f : Nat → Nat) (hf : ∀ v, f v ≠ 0) : WF ({ P.aot with mark := f } : Rep K) := by
  have hsz : ∀ v w, (P.J.sidePts v w).2.2 * P.J.R.kdim = if P.J.R.arr.level w ≤ P.J.R.arr.level v then P.J.jn v * P.J.R.kdim else P.J.npt v * P.J.R.kdim := by
    intro v w
    rw [sidePts_n]
    unfold sideN
    split <;> rfl
  refine ⟨h.tree, h.kdim, h.perm, ?_, ?_, ?_, h.admNode, ?_, ?_, ?_, ?_, h.inadmNode, ?_, ?_⟩
  · intro v hv _
    show 0 < (P.J.R.U v).ncol
    rw [h.rankJ v hv]
    exact Nat.mul_pos (h.jpos v hv) h.kdim
  · intro v hv _ h0
    show (P.J.R.U v).nrow = P.J.R.rowE v - P.J.R.rowS v
    rw [rows_npt h hv]
    exact h.uLeaf v hv h0
  · intro v hv _ h0
    exact h.uInner v hv h0
  · intro x hx
    show P.J.R.minAdm ≤ _
    rw [h.minAdm]; exact Nat.zero_le _
  · intro x _; exact ⟨fun _ => hf _, fun _ => hf _⟩
  · intro i hi
    have hi' : i < P.J.R.adm.length := hi
    have hn := h.admNode _ (List.getElem_mem hi')
    show (P.J.sidePts (P.J.R.adm.getD i (0, 0)).1 (P.J.R.adm.getD i (0, 0)).2).2.2 * P.J.R.kdim =
      if P.J.R.arr.level P.J.R.adm[i].2 ≤ P.J.R.arr.level P.J.R.adm[i].1 then (P.J.R.U P.J.R.adm[i].1).ncol else P.J.R.rowE P.J.R.adm[i].1 - P.J.R.rowS P.J.R.adm[i].1
    rw [getD_adm hi', hsz, h.rankJ _ hn.1, rows_npt h hn.1]
  · intro i hi
    have hi' : i < P.J.R.adm.length := hi
    have hn := h.admNode _ (List.getElem_mem hi')
    show (P.J.sidePts (P.J.R.adm.getD i (0, 0)).2 (P.J.R.adm.getD i (0, 0)).1).2.2 * P.J.R.kdim =
      if P.J.R.arr.level P.J.R.adm[i].1 ≤ P.J.R.arr.level P.J.R.adm[i].2 then (P.J.R.U P.J.R.adm[i].2).ncol else P.J.R.rowE P.J.R.adm[i].2 - P.J.R.rowS P.J.R.adm[i].2
    rw [getD_adm hi', hsz, h.rankJ _ hn.2, rows_npt h hn.2]
  · intro i hi
    have hi' : i < P.J.R.arr.nLeaf := hi
    have hl := leaf_node h hi'
    have e : P.aot.D i = P.block (P.J.cPts (P.J.R.leaf i)) (P.J.cPts (P.J.R.leaf i)) (fun _ => 0) := if_pos hi'
    show (P.aot.D i).nrow = P.J.R.rowE (P.J.R.leaf i) - P.J.R.rowS (P.J.R.leaf i) ∧ (P.aot.D i).ncol = P.J.R.rowE (P.J.R.leaf i) - P.J.R.rowS (P.J.R.leaf i)
    rw [e, rows_npt h hl.1]
    exact ⟨rfl, rfl⟩
  · intro i hi
    have hi' : i < P.J.R.inadm.length := hi
    have hn := h.inadmNode _ (List.getElem_mem hi')
    show (P.aot.D (P.J.R.arr.nLeaf + i)).nrow = P.J.R.rowE P.J.R.inadm[i].1 - P.J.R.rowS P.J.R.inadm[i].1 ∧
      (P.aot.D (P.J.R.arr.nLeaf + i)).ncol = P.J.R.rowE P.J.R.inadm[i].2 - P.J.R.rowS P.J.R.inadm[i].2
    have e : P.aot.D (P.J.R.arr.nLeaf + i) = P.block (P.J.cPts (P.J.R.inadm.getD i (0, 0)).1)
      (P.J.cPts (P.J.R.inadm.getD i (0, 0)).2) (P.shiftOf P.inadmShift i) := by
      show (if P.J.R.arr.nLeaf + i < P.J.R.arr.nLeaf then _ else _) = _
      rw [if_neg (by omega), Nat.add_sub_cancel_left]
    rw [e, getD_inadm hi', rows_npt h hn.1, rows_npt h hn.2]
    exact ⟨rfl, rfl⟩

variable {cand : Nat → Nat → Nat} {nc : Nat → Nat} {jp : Nat → Nat → Nat} {W : Nat → Nat → Nat → K}

/-- The block of an admissible pair: sums over points and components. -/
theorem admEntry_per (h : P.Ok) (hs : HasSkel P.J cand nc jp) (W : Nat → Nat → Nat → K) {k : Nat} (hk : k < P.J.R.adm.length) (r q : Nat) :
    admEntry P.aot W k r q = ∑ c ∈ range (sideN P.J P.J.R.adm[k].1 P.J.R.adm[k].2), ∑ a ∈ range P.J.R.kdim, ∑ d ∈ range (sideN P.J P.J.R.adm[k].2 P.J.R.adm[k].1), ∑ b ∈ range P.J.R.kdim,
      side P.J.aot W P.J.R.adm[k].1 P.J.R.adm[k].2 r (c * P.J.R.kdim + a) *
        P.J.kern (P.J.pt (sideP P.J jp P.J.R.adm[k].1 P.J.R.adm[k].2 c))
          (fun e => P.J.pt (sideP P.J jp P.J.R.adm[k].2 P.J.R.adm[k].1 d) e + P.shiftOf P.admShift k e) a b *
        side P.J.aot W P.J.R.adm[k].2 P.J.R.adm[k].1 q (d * P.J.R.kdim + b) := by
  have hg : P.J.R.adm.getD k (0, 0) = P.J.R.adm[k] := by simp [List.getD, hk]
  have hn := h.admNode _ (List.getElem_mem hk)
  have hl : ∀ v w, P.J.R.minAdm ≤ max (P.J.R.arr.level v) (P.J.R.arr.level w) := fun v w => by rw [h.minAdm]; exact Nat.zero_le _
  have hr : (P.aot.B k).nrow = sideN P.J P.J.R.adm[k].1 P.J.R.adm[k].2 * P.J.R.kdim := by
    show (P.J.sidePts _ _).2.2 * P.J.R.kdim = _
    rw [sidePts_n, hg]
  have hc : (P.aot.B k).ncol = sideN P.J P.J.R.adm[k].2 P.J.R.adm[k].1 * P.J.R.kdim := by
    show (P.J.sidePts _ _).2.2 * P.J.R.kdim = _
    rw [sidePts_n, hg]
  unfold admEntry
  rw [hr, hc, show P.aot.adm.getD k (0, 0) = P.J.R.adm[k] from hg, sum_rows]
  apply sum_congr rfl; intro c hc
  apply sum_congr rfl; intro a ha
  rw [sum_rows]
  apply sum_congr rfl; intro d hd
  apply sum_congr rfl; intro b hb
  have ha := mem_range.1 ha
  have hb := mem_range.1 hb
  have e : (P.aot.B k).e (c * P.J.R.kdim + a) (d * P.J.R.kdim + b) =
      P.J.kern (P.J.pt (sideP P.J jp P.J.R.adm[k].1 P.J.R.adm[k].2 c))
          (fun e => P.J.pt (sideP P.J jp P.J.R.adm[k].2 P.J.R.adm[k].1 d) e + P.shiftOf P.admShift k e) a b := by
    show P.J.kern _ _ _ _ = _
    rw [(div_mod_row ha).1, (div_mod_row ha).2, (div_mod_row hb).1, (div_mod_row hb).2, hg]
    rw [sidePts_pt hs hn.1 (hl _ _) (mem_range.1 hc)]
    beta_reduce
    simp only [sidePts_pt hs hn.2 (hl _ _) (mem_range.1 hd)]
  rw [e]
  rfl

/-- A dense block, placed in the matrix. -/
theorem dense_per {v w p q a b : Nat} (s : Nat → K) (ha : a < P.J.R.kdim) (hb : b < P.J.R.kdim) :
    blockEntry P.aot v w (P.block (P.J.cPts v) (P.J.cPts w) s) (p * P.J.R.kdim + a) (q * P.J.R.kdim + b) =
    if Holds P.J.R.arr p q (v, w) then P.J.kern (P.J.pt p) (fun d => P.J.pt q d + s d) a b else 0 := by
  have e : P.aot.kdim = P.J.R.kdim := rfl
  have r1 := row_in (R := P.aot) (v := v) (p := p) (a := a) ha
  have r2 := row_in (R := P.aot) (v := w) (p := q) (a := b) hb
  rw [e] at r1 r2
  have ea : P.aot.arr = P.J.R.arr := rfl
  rw [ea] at r1 r2
  unfold blockEntry
  by_cases hh : Holds P.J.R.arr p q (v, w)
  · rw [if_pos hh, if_pos ⟨r1.2 hh.1, r2.2 hh.2⟩]
    have hsub : ∀ v p a, P.J.R.arr.ptS v ≤ p → p * P.J.R.kdim + a - P.aot.rowS v = (p - P.J.R.arr.ptS v) * P.J.R.kdim + a := by
      intro v p a hp
      show p * P.J.R.kdim + a - P.J.R.kdim * P.J.R.arr.ptS v = _
      have := Nat.mul_le_mul_right P.J.R.kdim hp
      rw [Nat.mul_comm P.J.R.kdim, Nat.sub_mul]
      omega
    rw [hsub v p a hh.1.1, hsub w q b hh.2.1]
    have hbl : (P.block (P.J.cPts v) (P.J.cPts w) s).e = kmat P.J.kern P.J.R.kdim (point P.J.xdim (P.J.cPts v).1 (P.J.cPts v).2.1)
      (fun j d => point P.J.xdim (P.J.cPts w).1 (P.J.cPts w).2.1 j d + s d) := rfl
    rw [hbl, kmat_at P.J.kern _ _ ha hb]
    have hpt : ∀ v p, P.J.R.arr.ptS v ≤ p → point P.J.xdim (P.J.cPts v).1 (P.J.cPts v).2.1 (p - P.J.R.arr.ptS v) = P.J.pt p := by
      intro v p hp
      funext d
      unfold point JIT.cPts JIT.pt point
      dsimp only
      by_cases hd : d < P.J.xdim
      · rw [if_pos hd, if_pos hd]; congr 1; omega
      · rw [if_neg hd, if_neg hd]
    rw [hpt v p hh.1.1, hpt w q hh.2.1]
  · rw [if_neg hh, if_neg]
    rintro ⟨h1, h2⟩
    exact hh ⟨r1.1 h1, r2.1 h2⟩

end Per
end
end H2Pack.MV
